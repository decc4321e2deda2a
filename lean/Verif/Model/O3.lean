import Verif.Model.SO3

/-!
# O(3): elements, subgroups and their maps

An element is `(flip, q)` with `flip` in `{0, 1}` (1 is the inversion) and a rotation in the parametrisation `'Q'`
(o3group.py L26-30).  The same contracts and simplifications as for SO(3).
-/

namespace Escnn

open Real Quaternion

noncomputable section

namespace O3

/-- Values of elements in the parametrisation `'Q'`, o3group.py L225-242. -/
abbrev Elem := ℤ × UQuat

open Classical in
/-- `o3.element((flip, q), 'Q')` with `_is_element`, o3group.py L225-242, group.py L988-1003. -/
def element (e : Elem) : Except Err Elem :=
  if (e.1 = 0 ∨ e.1 = 1) ∧ normSq e.2 = 1 then .ok e else .error .value

/-- `_inverse`, o3group.py L159-171. -/
def inverse (aq : UQuat → UQuat) (e : Elem) : Elem := (e.1, SO3.inverse aq e.2)

/-- `_combine`, o3group.py L173-187. -/
def combine (aq : UQuat → UQuat) (e₁ e₂ : Elem) : Elem := ((e₁.1 + e₂.1) % 2, SO3.combine aq e₁.2 e₂.2)

/-- `_equal`, o3group.py L189-208. -/
def Equal (e₁ e₂ : Elem) : Prop := e₁.1 = e₂.1 ∧ SO3.Equal e₁.2 e₂.2

/-- `identity`, o3group.py L112. -/
def identity : Elem := (0, SO3.identity)

/-- `inversion`, o3group.py L113. -/
def inversion : Elem := (1, SO3.identity)

/-- `(~adj) @ e @ adj`, o3group.py L1295 L1332 L1381 L1445 L1521 L1582 L1667 L1733. -/
def intoParent (aq : UQuat → UQuat) (adj e : Elem) : Elem := combine aq (combine aq (inverse aq adj) e) adj

/-- `adj @ e @ (~adj)`, o3group.py L1280 L1311 L1349 L1395 L1466 L1544 L1635 L1683. -/
def intoChild (aq : UQuat → UQuat) (adj e : Elem) : Elem := combine aq (combine aq adj e) (inverse aq adj)

/-- `build_adjoint_map(G, adj)`, utils.py L11-19. -/
def adjointMap (aq : UQuat → UQuat) (adj e : Elem) : Elem := combine aq (combine aq adj e) (inverse aq adj)

/-- `element((i, x), '[int | p]')` of the direct product of `C_2` with another group, whose `element(x, p)` is `r`;
directproduct.py L270-293 L326-333, group.py L988-1003. -/
def pairOf {H : Type} (i : ℤ) (r : Except Err H) : Except Err (ℤ × H) :=
  if Cyclic.isElement 2 i = true then r.map (fun h => (i, h)) else .error .value

/-- `_combine` of the direct product of `C_2` with another group, directproduct.py L223-247. -/
def pairMul {H : Type} (mul : H → H → H) (a b : ℤ × H) : ℤ × H := (Cyclic.combine 2 a.1 b.1, mul a.2 b.2)

/-- `fullplato_to_o3(adj, plato)`, o3group.py L1289-1297. -/
def fullplatoToO3 (aq : UQuat → UQuat) (R : RotGroup) (adj : Elem) (e : ℤ × R.H) : Except Err Elem := do
  let q ← element (e.1, R.toQ e.2)
  .ok (intoParent aq adj q)

/-- `o3_to_fullplato(adj, plato)`, o3group.py L1271-1286. -/
def o3ToFullplato (aq : UQuat → UQuat) (R : RotGroup) (adj e : Elem) : Except Err (Option (ℤ × R.H)) :=
  let e := intoChild aq adj e
  orNone (pairOf e.1 (R.ofQ e.2))

/-- `so3_to_o3(adj, so3)` for a group of rotations with `e.to('Q') = q`, o3group.py L1324-1337. -/
def so3ToO3 (aq : UQuat → UQuat) (adj : Elem) (q : UQuat) : Except Err Elem := do
  let q ← element (0, q)
  .ok (intoParent aq adj q)

/-- `o3_to_so3(adj, so3)`, o3group.py L1302-1321; `mk q` is `so3.element(q, 'Q')`. -/
def o3ToSo3 {H : Type} (aq : UQuat → UQuat) (mk : UQuat → Except Err H) (adj e : Elem) : Except Err (Option H) :=
  let e := intoChild aq adj e
  if e.1 = 0 then orNone (mk e.2) else .ok none

/-- `so2_to_o3(adj, so2)` applied to an element with `e.to('radians') = θ`, o3group.py L1370-1383. -/
def so2ToO3 (aq : UQuat → UQuat) (adj : Elem) (θ : ℝ) : Except Err Elem := do
  let q ← element (0, quat 0 0 (sin (θ / 2)) (cos (θ / 2)))
  .ok (intoParent aq adj q)

open Classical in
/-- `o3_to_so2(adj, so2)`, o3group.py L1342-1367; `mk θ` is `so2.element(θ, 'radians')`. -/
def o3ToSo2 {H : Type} (aq : UQuat → UQuat) (mk : ℝ → Except Err H) (adj e : Elem) : Except Err (Option H) :=
  let e := intoChild aq adj e
  if e.1 = 1 then .ok none
  else if e.2.imI = 0 ∧ e.2.imJ = 0 then orNone (mk (2 * arctan2 e.2.imK e.2.re)) else .ok none

/-- `dih_to_o3(adj, dih)` applied to an element with `e.to('radians') = (f, θ)`, o3group.py L1426-1447. -/
def dihToO3 (aq : UQuat → UQuat) (adj : Elem) (e : ℤ × ℝ) : Except Err Elem := do
  let s := sin (e.2 / 2)
  let c := cos (e.2 / 2)
  let q ← if e.1 = 0 then .ok (quat 0 0 s c) else if e.1 = 1 then .ok (quat c s 0 0) else .error .value
  let q ← element (0, q)
  .ok (intoParent aq adj q)

open Classical in
/-- `o3_to_dih(adj, dih)`, o3group.py L1388-1423; `mk (f, θ)` is `dih.element((f, θ), 'radians')`. -/
def o3ToDih {H : Type} (aq : UQuat → UQuat) (mk : ℤ × ℝ → Except Err H) (adj e : Elem) : Except Err (Option H) :=
  let e := intoChild aq adj e
  if e.1 = 1 then .ok none
  else if e.2.imI = 0 ∧ e.2.imJ = 0 then orNone (mk (0, 2 * arctan2 e.2.imK e.2.re))
  else if e.2.imK = 0 ∧ e.2.re = 0 then orNone (mk (1, 2 * arctan2 e.2.imJ e.2.imI))
  else .ok none

/-- `reflection`, o3group.py L1457-1460 L1499-1502 L1535-1538 L1568-1571. -/
def reflection : Except Err Elem := element (1, quat 0 1 0 0)

/-- `con_to_o3(adj, con)` applied to an element with `e.to('radians') = (f, θ)`, o3group.py L1495-1523. -/
def conToO3 (aq : UQuat → UQuat) (adj : Elem) (e : ℤ × ℝ) : Except Err Elem := do
  let r ← reflection
  let q ← element (0, quat 0 0 (sin (e.2 / 2)) (cos (e.2 / 2)))
  let q := if e.1 = 1 then combine aq q (inverse aq r) else q
  .ok (intoParent aq adj q)

open Classical in
/-- `o3_to_con(adj, con)`, o3group.py L1453-1492; `mk (f, θ)` is `con.element((f, θ), 'radians')`. -/
def o3ToCon {H : Type} (aq : UQuat → UQuat) (mk : ℤ × ℝ → Except Err H) (adj e : Elem) : Except Err (Option H) := do
  let r ← reflection
  let e := intoChild aq adj e
  let p := (combine aq e r).2
  if e.1 = 0 ∧ e.2.imI = 0 ∧ e.2.imJ = 0 then orNone (mk (0, 2 * arctan2 e.2.imK e.2.re))
  else if e.1 = 1 ∧ p.imI = 0 ∧ p.imJ = 0 then orNone (mk (1, 2 * arctan2 p.imK p.re))
  else .ok none

/-- `mir_to_o3(adj, mir)`, o3group.py L1562-1584. -/
def mirToO3 (aq : UQuat → UQuat) (adj : Elem) (f : ℤ) : Except Err Elem := do
  let r ← reflection
  if f = 0 then .ok identity else .ok (intoParent aq adj r)

open Classical in
/-- `o3_to_mir(adj, mir)`, o3group.py L1529-1559. -/
def o3ToMir (aq : UQuat → UQuat) (adj e : Elem) : Except Err (Option ℤ) := do
  let r ← reflection
  let e := intoChild aq adj e
  let p := (combine aq e r).2
  if e.1 = 0 ∧ e.2.imI = 0 ∧ e.2.imJ = 0 ∧ e.2.imK = 0 then .ok (some Cyclic.identity)
  else if e.1 = 1 ∧ p.imI = 0 ∧ p.imJ = 0 ∧ p.imK = 0 then (Cyclic.element 2 1).map some
  else .ok none

/-- `inv_to_o3(o3, inv)`, o3group.py L1607-1621. -/
def invToO3 (f : ℤ) : Except Err Elem := element (f, quat 0 0 0 1)

open Classical in
/-- `o3_to_inv(o3, inv)`, o3group.py L1589-1604. -/
def o3ToInv (e : Elem) : Except Err (Option ℤ) :=
  if (e.2.imI = 0 ∧ e.2.imJ = 0 ∧ e.2.imK = 0) ∧ |e.2.re| = 1 then (Cyclic.element 2 e.1).map some else .ok none

/-- `cyl_to_o3(adj, cyl)` applied to an element with `e.to('[int | radians]') = (inv, θ)`, o3group.py L1653-1669. -/
def cylToO3 (aq : UQuat → UQuat) (adj : Elem) (e : ℤ × ℝ) : Except Err Elem := do
  let q ← element (e.1, quat 0 0 (sin (e.2 / 2)) (cos (e.2 / 2)))
  .ok (intoParent aq adj q)

open Classical in
/-- `o3_to_cyl(adj, cyl)`, o3group.py L1626-1650; `mk θ` is `cyl.G2.element(θ, 'radians')`. -/
def o3ToCyl {H : Type} (aq : UQuat → UQuat) (mk : ℝ → Except Err H) (adj e : Elem) : Except Err (Option (ℤ × H)) :=
  let e := intoChild aq adj e
  if e.2.imI = 0 ∧ e.2.imJ = 0 then orNone (pairOf e.1 (mk (2 * arctan2 e.2.imK e.2.re))) else .ok none

/-- `fullcyl_to_o3(adj, fullcyl)` applied to an element with `e.to('[int | radians]') = (inv, (f, θ))`, o3group.py
L1711-1735. -/
def fullcylToO3 (aq : UQuat → UQuat) (adj : Elem) (inv : ℤ) (e : ℤ × ℝ) : Except Err Elem := do
  let s := sin (e.2 / 2)
  let c := cos (e.2 / 2)
  let q ← if e.1 = 0 then .ok (quat 0 0 s c) else if e.1 = 1 then .ok (quat c s 0 0) else .error .value
  let q ← element (inv, q)
  .ok (intoParent aq adj q)

open Classical in
/-- `o3_to_fullcyl(adj, fullcyl)`, o3group.py L1674-1708; `mk (f, θ)` is `fullcyl.G2.element((f, θ), 'radians')`. -/
def o3ToFullcyl {H : Type} (aq : UQuat → UQuat) (mk : ℤ × ℝ → Except Err H) (adj e : Elem) : Except Err (Option (ℤ × H)) :=
  let e := intoChild aq adj e
  if e.2.imI = 0 ∧ e.2.imJ = 0 then orNone (pairOf e.1 (mk (0, 2 * arctan2 e.2.imK e.2.re)))
  else if e.2.imK = 0 ∧ e.2.re = 0 then orNone (pairOf e.1 (mk (1, 2 * arctan2 e.2.imJ e.2.imI)))
  else .ok none

/-- The ids of subgroups of O(3) without their last entry, the adjoint element, o3group.py L422-502 L504-541: the strings
`'so3'` and `'o3'`, `(inv, x)` with an id `x` of SO(3), `('cone', n)`, `('cone', a, n)` with a float `a`, `'fulltetra'`.
Simplification: tuples of other shapes or with entries of other types are not represented. -/
inductive Id
  | so3
  | o3
  | sub (inv : Bool) (x : SO3.Id)
  | cone (n : ℤ)
  | coneAxis (a : ℝ) (n : ℤ)
  | fulltetra

/-- `_process_subgroup_id`, o3group.py L422-502; a missing adjoint element is the identity (L441-442). -/
def processId (aq : UQuat → UQuat) (id : Id) (adj : Elem) : Id × Elem :=
  let id : Id := match id with
    | .so3 => .sub false (.str "so3")
    | .o3 => .sub true (.str "so3")
    | id => id
  let (id, adj) : Id × Elem := match id with
    | .sub i (.axis a n) =>
      (.sub i (.pair true n), combine aq (inverse aq (0, quat 0 0 (sin (a / 2 / 2)) (cos (a / 2 / 2)))) adj)
    | _ => (id, adj)
  let (id, adj) : Id × Elem := match id with
    | .sub i (.pair true 1) => (.sub i (.pair false 2), combine aq (0, quat 0 (sin (-π / 4)) 0 (cos (-π / 4))) adj)
    | _ => (id, adj)
  match id with
  | .sub true (.pair false 1) => (.sub true (.pair false 1), identity)
  | .coneAxis a n => (.cone n, combine aq (0, quat 0 0 (sin (a / 2 / 2)) (cos (a / 2 / 2))) adj)
  | _ => (id, adj)

/-- `_subgroup` on processed ids, o3group.py L504-722, with the direct products of factory.py L210-221 L236-247 L250-280
L283-311 L314-336 L339-361; the ids which `_process_subgroup_id` replaces do not reach this function. -/
def subgroup (aq : UQuat → UQuat) (ico octa : RotGroup) (id : Id) (adj : Elem) : Except Err (SubData Elem) :=
  match id with
  | .sub false (.str s) =>
    if s = "so3" then
      .ok ⟨UQuat, fun q => normSq q = 1, SO3.combine aq, so3ToO3 aq adj, o3ToSo3 aq SO3.element adj⟩
    else if s = "ico" then
      .ok ⟨ico.H, ico.El, ico.mul, fun e => so3ToO3 aq adj (ico.toQ e), o3ToSo3 aq ico.ofQ adj⟩
    else if s = "octa" then
      .ok ⟨octa.H, octa.El, octa.mul, fun e => so3ToO3 aq adj (octa.toQ e), o3ToSo3 aq octa.ofQ adj⟩
    else if s = "tetra" then .error .notImplemented
    else .error .value
  | .sub true (.str s) =>
    if s = "so3" then
      .ok ⟨Elem, fun e => (e.1 = 0 ∨ e.1 = 1) ∧ normSq e.2 = 1, combine aq,
        fun e => .ok (adjointMap aq (inverse aq adj) e), fun e => .ok (some (adjointMap aq adj e))⟩
    else if s = "ico" then
      .ok ⟨ℤ × ico.H, fun e => Cyclic.isElement 2 e.1 = true ∧ ico.El e.2, pairMul ico.mul, fullplatoToO3 aq ico adj,
        o3ToFullplato aq ico adj⟩
    else if s = "octa" then
      .ok ⟨ℤ × octa.H, fun e => Cyclic.isElement 2 e.1 = true ∧ octa.El e.2, pairMul octa.mul, fullplatoToO3 aq octa adj,
        o3ToFullplato aq octa adj⟩
    else if s = "tetra" then .error .notImplemented
    else .error .value
  | .sub true (.pair flip n) =>
    if flip = false ∧ n = -1 then
      .ok ⟨ℤ × ℝ, fun e => Cyclic.isElement 2 e.1 = true ∧ SO2.IsElement e.2, pairMul SO2.combine,
        fun e => cylToO3 aq adj (e.1, mod2pi e.2), o3ToCyl aq (fun θ => SO2.elementOf .radians (.rad θ)) adj⟩
    else if flip = true ∧ n = -1 then
      .ok ⟨ℤ × O2.Elem, fun e => Cyclic.isElement 2 e.1 = true ∧ O2.IsElement e.2, pairMul O2.combine,
        fun e => fullcylToO3 aq adj e.1 (O2.reduce e.2),
        o3ToFullcyl aq (fun e => O2.elementOf .radians (e.1, .rad e.2)) adj⟩
    else if flip = false ∧ n > 0 then
      if n = 1 then
        .ok ⟨ℤ, fun e => Cyclic.isElement 2 e = true, Cyclic.combine 2, invToO3, o3ToInv⟩
      else
        .ok ⟨ℤ × ℤ, fun e => Cyclic.isElement 2 e.1 = true ∧ Cyclic.isElement n.toNat e.2 = true,
          pairMul (Cyclic.combine n.toNat), fun e => cylToO3 aq adj (e.1, Cyclic.radians n.toNat e.2),
          o3ToCyl aq (fun θ => Cyclic.elementOf n.toNat .radians (.rad θ)) adj⟩
    else if flip = true ∧ n > 1 then
      .ok ⟨ℤ × Dihedral.Elem, fun e => Cyclic.isElement 2 e.1 = true ∧ Dihedral.isElement n.toNat e.2 = true,
        pairMul (Dihedral.combine n.toNat), fun e => fullcylToO3 aq adj e.1 (e.2.1, Dihedral.radians n.toNat e.2),
        o3ToFullcyl aq (fun e => Dihedral.elementOf n.toNat .radians (e.1, .rad e.2)) adj⟩
    else .error .value
  | .sub false (.pair flip n) =>
    if flip = false ∧ n = -1 then
      .ok ⟨ℝ, SO2.IsElement, SO2.combine, fun e => so2ToO3 aq adj (mod2pi e),
        o3ToSo2 aq (fun θ => SO2.elementOf .radians (.rad θ)) adj⟩
    else if flip = true ∧ n = -1 then
      .ok ⟨O2.Elem, O2.IsElement, O2.combine, fun e => dihToO3 aq adj (O2.reduce e),
        o3ToDih aq (fun e => O2.elementOf .radians (e.1, .rad e.2)) adj⟩
    else if flip = false ∧ n > 0 then
      .ok ⟨ℤ, fun e => Cyclic.isElement n.toNat e = true, Cyclic.combine n.toNat,
        fun e => so2ToO3 aq adj (Cyclic.radians n.toNat e),
        o3ToSo2 aq (fun θ => Cyclic.elementOf n.toNat .radians (.rad θ)) adj⟩
    else if flip = true ∧ n > 1 then
      .ok ⟨Dihedral.Elem, fun e => Dihedral.isElement n.toNat e = true, Dihedral.combine n.toNat,
        fun e => dihToO3 aq adj (e.1, Dihedral.radians n.toNat e),
        o3ToDih aq (fun e => Dihedral.elementOf n.toNat .radians (e.1, .rad e.2)) adj⟩
    else .error .value
  | .cone n =>
    if n = -1 then
      .ok ⟨O2.Elem, O2.IsElement, O2.combine, fun e => conToO3 aq adj (O2.reduce e),
        o3ToCon aq (fun e => O2.elementOf .radians (e.1, .rad e.2)) adj⟩
    else if n > 1 then
      .ok ⟨Dihedral.Elem, fun e => Dihedral.isElement n.toNat e = true, Dihedral.combine n.toNat,
        fun e => conToO3 aq adj (e.1, Dihedral.radians n.toNat e),
        o3ToCon aq (fun e => Dihedral.elementOf n.toNat .radians (e.1, .rad e.2)) adj⟩
    else if n = 1 then
      .ok ⟨ℤ, fun e => Cyclic.isElement 2 e = true, Cyclic.combine 2, mirToO3 aq adj, o3ToMir aq adj⟩
    else .error .value
  | .fulltetra => .error .notImplemented
  | _ => .error .value

end O3

end

end Escnn
