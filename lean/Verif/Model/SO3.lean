import Verif.Spec.Rotation3
import Verif.Model.Param
import Verif.Model.Dihedral
import Verif.Model.Irreps

/-!
# SO(3): elements, subgroups and their maps

Elements are stored in the parametrisation `'Q'` (so3_utils.py L31), a unit quaternion `[x, y, z, w]`, which here is a
quaternion with real part `w`.  `scipy.spatial.transform.Rotation` is used through its contract: `Rotation.from_quat`,
`*` and `inv` are the product and the conjugate of quaternions, and `as_quat` returns one of the two unit quaternions of
a rotation; which of the two is an argument (`aq`) of the functions below.  `np.isclose` and `np.allclose` are equality
and floats are reals.
-/

namespace Escnn

open Real Quaternion

noncomputable section

/-- Elements of SO(3) in the parametrisation `'Q'`, so3_utils.py L31. -/
abbrev UQuat := ℍ[ℝ]

/-- `np.array([x, y, z, w])` as a quaternion (scipy's order, the scalar is last), so3_utils.py L72-77. -/
def quat (x y z w : ℝ) : UQuat := ⟨w, x, y, z⟩

/-- `try: return group.element(...) except ValueError: return None`, so3group.py L954-960 L994-997 L1038-1041
L1047-1050; the same in o3group.py L1278-1284 L1314-1317 L1360-1363 L1407-1410 L1416-1419. -/
def orNone {H : Type} (r : Except Err H) : Except Err (Option H) :=
  match r with
  | .ok h => .ok (some h)
  | .error .value => .ok none
  | .error e => .error e

/-- A subgroup with its maps, as returned by `subgroup(id)`: the elements of the subgroup, their composition, the
inclusion and the restriction; so3group.py L459, o3group.py L722. -/
structure SubData (G : Type) where
  /-- values of the elements of the subgroup -/
  H : Type
  /-- `_is_element` of the subgroup -/
  El : H → Prop
  /-- `_combine` of the subgroup -/
  mul : H → H → H
  /-- `parent_mapping` -/
  parent : H → Except Err G
  /-- `child_mapping` -/
  child : G → Except Err (Option H)

/-- The groups of rotations of a Platonic solid (`ico_group()`, `octa_group()`, factory.py L198-207 L224-233) as far as the
maps use them: values, composition, `e.to('Q')` and `element(q, 'Q')`. -/
structure RotGroup where
  /-- values -/
  H : Type
  /-- `_is_element` -/
  El : H → Prop
  /-- `_combine` -/
  mul : H → H → H
  /-- `e.to('Q')` -/
  toQ : H → UQuat
  /-- `element(q, 'Q')` -/
  ofQ : UQuat → Except Err H

namespace SO3

/-- `GroupElement(q, so3, 'Q')` with `_is_element`, so3group.py L141-148, so3_utils.py L72-77 L116-122,
group.py L988-1003. -/
def element (q : UQuat) : Except Err UQuat := if normSq q = 1 then .ok q else .error .value

/-- `_inverse`, so3group.py L108-113, so3_utils.py L125-130. -/
def inverse (aq : UQuat → UQuat) (e : UQuat) : UQuat := aq (star e)

/-- `_combine`, so3group.py L115-123, so3_utils.py L133-152. -/
def combine (aq : UQuat → UQuat) (e₁ e₂ : UQuat) : UQuat := aq (e₁ * e₂)

/-- `_equal`, so3group.py L125-133, so3_utils.py L155-180. -/
def Equal (e₁ e₂ : UQuat) : Prop := e₁ = e₂ ∨ -e₁ = e₂

/-- `identity`, so3group.py L74, so3_utils.py L246. -/
def identity : UQuat := quat 0 0 0 1

/-- `(~adj) @ e @ adj`, so3group.py L972 L1015 L1076. -/
def intoParent (aq : UQuat → UQuat) (adj e : UQuat) : UQuat := combine aq (combine aq (inverse aq adj) e) adj

/-- `adj @ e @ (~adj)`, so3group.py L956 L986 L1029. -/
def intoChild (aq : UQuat → UQuat) (adj e : UQuat) : UQuat := combine aq (combine aq adj e) (inverse aq adj)

/-- `build_adjoint_map(G, adj)`, utils.py L11-19. -/
def adjointMap (aq : UQuat → UQuat) (adj e : UQuat) : UQuat := combine aq (combine aq adj e) (inverse aq adj)

/-- `rotgroup_to_so3(adj, rotgroup)`, so3group.py L965-974. -/
def rotgroupToSo3 (aq : UQuat → UQuat) (R : RotGroup) (adj : UQuat) (e : R.H) : Except Err UQuat := do
  let q ← element (R.toQ e)
  .ok (intoParent aq adj q)

/-- `so3_to_rotgroup(adj, rotgroup)`, so3group.py L947-962. -/
def so3ToRotgroup (aq : UQuat → UQuat) (R : RotGroup) (adj e : UQuat) : Except Err (Option R.H) :=
  orNone (R.ofQ (intoChild aq adj e))

/-- `so2_to_so3(adj, so2)` applied to an element with `e.to('radians') = θ`, so3group.py L1004-1017. -/
def so2ToSo3 (aq : UQuat → UQuat) (adj : UQuat) (θ : ℝ) : Except Err UQuat := do
  let q ← element (quat 0 0 (sin (θ / 2)) (cos (θ / 2)))
  .ok (intoParent aq adj q)

open Classical in
/-- `so3_to_so2(adj, so2)`, so3group.py L979-1001; `mk θ` is `so2.element(θ, 'radians')`. -/
def so3ToSo2 {H : Type} (aq : UQuat → UQuat) (mk : ℝ → Except Err H) (adj e : UQuat) : Except Err (Option H) :=
  let e := intoChild aq adj e
  if e.imI = 0 ∧ e.imJ = 0 then orNone (mk (2 * arctan2 e.imK e.re)) else .ok none

/-- `o2_to_so3(adj, o2)` applied to an element with `e.to('radians') = (f, θ)`, so3group.py L1057-1078. -/
def o2ToSo3 (aq : UQuat → UQuat) (adj : UQuat) (e : ℤ × ℝ) : Except Err UQuat := do
  let s := sin (e.2 / 2)
  let c := cos (e.2 / 2)
  let q ← if e.1 = 0 then .ok (quat 0 0 s c) else if e.1 = 1 then .ok (quat c s 0 0) else .error .value
  let q ← element q
  .ok (intoParent aq adj q)

open Classical in
/-- `so3_to_o2(adj, o2)`, so3group.py L1022-1054; `mk (f, θ)` is `o2.element((f, θ), 'radians')`. -/
def so3ToO2 {H : Type} (aq : UQuat → UQuat) (mk : ℤ × ℝ → Except Err H) (adj e : UQuat) : Except Err (Option H) :=
  let e := intoChild aq adj e
  if e.imI = 0 ∧ e.imJ = 0 then orNone (mk (0, 2 * arctan2 e.imK e.re))
  else if e.imK = 0 ∧ e.re = 0 then orNone (mk (1, 2 * arctan2 e.imJ e.imI))
  else .ok none

/-- The ids of subgroups of SO(3) without their last entry, the adjoint element: a string, `(flip, n)` with a bool or
`(axis, n)` with a float, so3group.py L364-389 L329-362. -/
inductive Id
  | str (s : String)
  | pair (flip : Bool) (n : ℤ)
  | axis (a : ℝ) (n : ℤ)

/-- `_process_subgroup_id`, so3group.py L327-362: the axis of the flips is moved into the adjoint element, and the group of
one flip becomes a group of rotations by `π`.  A missing adjoint element is the identity (L332-333). -/
def processId (aq : UQuat → UQuat) (id : Id) (adj : UQuat) : Id × UQuat :=
  let (id, adj) : Id × UQuat := match id with
    | .axis a n => (.pair true n, combine aq (inverse aq (quat 0 0 (sin (a / 2 / 2)) (cos (a / 2 / 2)))) adj)
    | _ => (id, adj)
  match id with
  | .pair true 1 => (.pair false 2, combine aq (quat 0 (sin (-π / 4)) 0 (cos (-π / 4))) adj)
  | _ => (id, adj)

/-- `_subgroup` on processed ids, so3group.py L364-459; the trivial ids of the groups C_n, D_n with `n : ℤ` use `n.toNat`. -/
def subgroup (aq : UQuat → UQuat) (ico octa : RotGroup) (id : Id) (adj : UQuat) : Except Err (SubData UQuat) :=
  match id with
  | .str s =>
    if s = "so3" then
      .ok ⟨UQuat, fun q => normSq q = 1, combine aq, fun e => .ok (adjointMap aq (inverse aq adj) e),
        fun e => .ok (some (adjointMap aq adj e))⟩
    else if s = "ico" then .ok ⟨ico.H, ico.El, ico.mul, rotgroupToSo3 aq ico adj, so3ToRotgroup aq ico adj⟩
    else if s = "octa" then .ok ⟨octa.H, octa.El, octa.mul, rotgroupToSo3 aq octa adj, so3ToRotgroup aq octa adj⟩
    else if s = "tetra" then .error .notImplemented
    else .error .value
  | .pair flip n =>
    if flip = false ∧ n = -1 then
      .ok ⟨ℝ, SO2.IsElement, SO2.combine, fun e => so2ToSo3 aq adj (mod2pi e),
        so3ToSo2 aq (fun θ => SO2.elementOf .radians (.rad θ)) adj⟩
    else if flip = true ∧ n = -1 then
      .ok ⟨O2.Elem, O2.IsElement, O2.combine, fun e => o2ToSo3 aq adj (O2.reduce e),
        so3ToO2 aq (fun e => O2.elementOf .radians (e.1, .rad e.2)) adj⟩
    else if flip = false ∧ n > 0 then
      .ok ⟨ℤ, fun e => Cyclic.isElement n.toNat e = true, Cyclic.combine n.toNat,
        fun e => so2ToSo3 aq adj (Cyclic.radians n.toNat e),
        so3ToSo2 aq (fun θ => Cyclic.elementOf n.toNat .radians (.rad θ)) adj⟩
    else if flip = true ∧ n > 1 then
      .ok ⟨Dihedral.Elem, fun e => Dihedral.isElement n.toNat e = true, Dihedral.combine n.toNat,
        fun e => o2ToSo3 aq adj (e.1, Dihedral.radians n.toNat e),
        so3ToO2 aq (fun e => Dihedral.elementOf n.toNat .radians (e.1, .rad e.2)) adj⟩
    else .error .value
  | .axis _ _ => .error .assertion

end SO3

end

end Escnn
