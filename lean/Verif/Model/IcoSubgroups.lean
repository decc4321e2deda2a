import Verif.Model.Ico

/-!
# The subgroups of the icosahedral group, escnn/group/groups/ico.py

The maps of the subgroups look at the quaternion which stores the element (ico.py L600-659) and are modelled on quaternions; `aq` is the
choice of `as_quat` (see `Verif.Model.SO3`).
-/

namespace Escnn

open Real Quaternion NpMat

namespace Ico

open Octa (Id)

noncomputable section

/-- `change_axis`, ico.py L222-227. -/
def changeAxis : UQuat :=
  quat (1 / √3 * sin (π / 3)) (1 / √3 * sin (π / 3)) (-1 / √3 * sin (π / 3)) (cos (π / 3))

/-- `_process_subgroup_id`, ico.py L200-232 (the adjoint element is given). -/
def processId (aq : UQuat → UQuat) (id : Id) (adj : UQuat) : Except Err (Id × UQuat) :=
  match id with
  | .str s => .ok (.str s, adj)
  | .pair flip n =>
    if n ∉ [1, 2, 3, 5] then .error .assertion
    else if flip = true ∧ n = 1 then do
      let c ← element changeAxis
      .ok (.pair false 2, SO3.combine aq c adj)
    else .ok (.pair flip n, adj)

/-- `cn_to_ico(adj, cn, axis)` applied to an element with `e.to('radians') = θ`, ico.py L647-657. -/
def cnToIco (aq : UQuat → UQuat) (axis : Fin 3 → ℝ) (adj : UQuat) (θ : ℝ) : Except Err UQuat := do
  let q ← element (quat (axis 0 * sin (θ / 2)) (axis 1 * sin (θ / 2)) (axis 2 * sin (θ / 2)) (cos (θ / 2)))
  .ok (SO3.intoParent aq adj q)

open Classical in
/-- `ico_to_cn(adj, cn, axis)`, ico.py L610-632 (`allclose` is equality). -/
def icoToCn (aq : UQuat → UQuat) (N : ℕ) (axis : Fin 3 → ℝ) (adj e : UQuat) : Except Err (Option ℤ) :=
  let e := SO3.intoChild aq adj e
  let n := √(e.imI ^ 2 + e.imJ ^ 2 + e.imK ^ 2)
  if n = 0 then .ok (some Cyclic.identity)
  else if e.imI / n = axis 0 ∧ e.imJ / n = axis 1 ∧ e.imK / n = axis 2 then
    orNone (Cyclic.elementOf N .radians (.rad (2 * arctan2 n e.re)))
  else .ok none

/-- The axis of the subgroup `(False, n)`, ico.py L268 L273 L278-279. -/
def axisOf (n : ℤ) : Fin 3 → ℝ := if n = 3 then fun _ => 1 / √3 else if n = 5 then unit ![phi, 0, 1] else ![0, 0, 1]

open Classical in
/-- `_subgroup`, ico.py L234-298, and the assertions on the axis, L602-608 L639-645; the maps of the trivial subgroup are utils.py L22-38. -/
def subgroup (aq : UQuat → UQuat) (id : Id) (adj : UQuat) : Except Err (SubData UQuat) :=
  match id with
  | .str s =>
    if s = "ico" then
      .ok ⟨UQuat, IsElement, SO3.combine aq, fun e => .ok (SO3.adjointMap aq (SO3.inverse aq adj) e), fun e => .ok (some (SO3.adjointMap aq adj e))⟩
    else if s = "tetra" then .error .notImplemented
    else .error .value
  | .pair false n =>
    if n = 1 then
      .ok ⟨ℤ, fun e => Cyclic.isElement 1 e = true, Cyclic.combine 1, fun _ => .ok SO3.identity,
        fun e => .ok (if SO3.Equal e SO3.identity then some Cyclic.identity else none)⟩
    else if n = 2 ∨ n = 3 ∨ n = 5 then
      if norm (axisOf n) = 1 ∧ AxisAligned (axisOf n) n.toNat then
        .ok ⟨ℤ, fun e => Cyclic.isElement n.toNat e = true, Cyclic.combine n.toNat, fun e => cnToIco aq (axisOf n) adj (Cyclic.radians n.toNat e),
          icoToCn aq n.toNat (axisOf n) adj⟩
      else .error .assertion
    else .error .value
  | .pair true n => if n = 2 ∨ n = 3 ∨ n = 5 then .error .notImplemented else .error .value

end

end Ico

end Escnn
