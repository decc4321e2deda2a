import Verif.Model.O3
import Mathlib.LinearAlgebra.CrossProduct

/-!
# Subgroups of subgroups of SO(3) and O(3), gspaces of `R^3`

Ids of subgroups of a subgroup are the ids of that group.  A shape of tuple which is no id of the subgroup is an error.
-/

namespace Escnn

open Real Quaternion Matrix

noncomputable section

/-- Statements in sequence, any of which may raise, so3group.py L463-465.  (`do` needs both results in the same universe.) -/
def after {α : Type*} {β : Type*} (r : Except Err α) (k : α → Except Err β) : Except Err β :=
  match r with
  | .ok a => k a
  | .error e => .error e

/-- `np.linalg.norm` of a vector with 3 entries, so3_utils.py L253 L265. -/
def norm3 (v : Fin 3 → ℝ) : ℝ := √(v 0 ^ 2 + v 1 ^ 2 + v 2 ^ 2)

/-- A matrix from its columns, so3_utils.py L255-257 L264-266. -/
def ofCols (a b c : Fin 3 → ℝ) : Mat3 := Matrix.of fun i j => ![a i, b i, c i] j

/-- `find_rotation_pole2point`, so3_utils.py L249-272.  `np.isclose(x, 1.)` is `|x - 1| <= 1e-8 + 1e-5`; the last `isclose`
is equality. -/
def poleToPoint (point : Fin 3 → ℝ) : Except Err Mat3 :=
  let p : Fin 3 → ℝ := fun i => point i / norm3 point
  let y : Fin 3 → ℝ := if |(|p 2|) - 1| ≤ 1 / 10 ^ 8 + 1 / 10 ^ 5 then ![1, 0, 0] else ![0, 0, 1]
  let v : Fin 3 → ℝ := fun i => y i - (y ⬝ᵥ p) * p i
  let v : Fin 3 → ℝ := fun i => v i / norm3 v
  let x : Fin 3 → ℝ := p ⨯₃ v
  let det := (ofCols x v p).det
  let rot := ofCols (fun i => x i * det) v p
  if rot.det = 1 then .ok rot else .error .assertion

namespace SO3

/-- Ids of the subgroups of a subgroup of SO(3): of SO(3) itself, of the Icosahedral group (after
`Icosahedral._process_subgroup_id`, ico.py L200-230; the last entry is an element of that group), of SO(2), C_N, O(2) and
D_N. -/
inductive SubId (ico : RotGroup)
  | so3 (id : Id) (adj : UQuat)
  | icoStr (s : String) (e : ico.H)
  | ico (flip : Bool) (n : ℤ) (e : ico.H)
  | planar (id : O2.SubId)

/-- `SO3._combine_subgroups`, so3group.py L461-536.  `qOf` is `self.element(., 'MAT')`: a quaternion of a rotation matrix. -/
def combineSubgroups (aq : UQuat → UQuat) (qOf : Mat3 → UQuat) (ico octa : RotGroup) (id₁ : Id) (adj₁ : UQuat)
    (id₂ : SubId ico) : Except Err (Id × UQuat) :=
  let id₁' := (processId aq id₁ adj₁).1
  let adj₁ := (processId aq id₁ adj₁).2
  after (subgroup aq ico octa id₁' adj₁) fun _ =>
  match id₁', id₂ with
  | .str s, id₂ =>
    if s = "so3" then
      match id₂ with
      | .so3 id adj =>
        let p := processId aq id adj
        .ok (p.1, combine aq adj₁ (adjointMap aq (inverse aq adj₁) p.2))
      | _ => .error .assertion
    else if s = "ico" then
      match id₂ with
      | .icoStr s e => do
        let a ← rotgroupToSo3 aq ico adj₁ e
        .ok (.str s, combine aq adj₁ a)
      | .ico flip n e => do
        let a ← rotgroupToSo3 aq ico adj₁ e
        let a ← if n = 3 then do
            let rot ← poleToPoint fun _ => 1 / √3
            .ok (combine aq (inverse aq (qOf rot)) a)
          else if n = 5 then do
            let rot ← poleToPoint fun i => ![(1 + √5) / 2, 0, 1] i / norm3 ![(1 + √5) / 2, 0, 1]
            .ok (combine aq (inverse aq (qOf rot)) a)
          else if n = 1 ∨ n = 2 then .ok a
          else .error .assertion
        .ok (.pair flip n, combine aq adj₁ a)
      | _ => .error .assertion
    else .error .notImplemented
  | .pair false _, .planar (.cyc m) => .ok (.pair false m, adj₁)
  | .pair true _, .planar (.o2 (some a) m) => .ok (.axis a m, adj₁)
  | .pair true n, .planar (.dih (some k) m) => .ok (.axis (k * 2 * π / n) m, adj₁)
  | .pair true _, .planar (.o2 none m) => .ok (.pair false m, adj₁)
  | .pair true _, .planar (.dih none m) => .ok (.pair false m, adj₁)
  | _, _ => .error .type

/-- `SO3.subgroup(id)`, group.py L337-343: the id is normalised first. -/
def subgroupOf (aq : UQuat → UQuat) (ico octa : RotGroup) (id : Id) (adj : UQuat) : Except Err (SubData UQuat) :=
  subgroup aq ico octa (processId aq id adj).1 (processId aq id adj).2

/-- `self.subgroup(self._combine_subgroups(id1, id2))` of SO(3), as in kernels and gspaces, group.py L337-343, so3group.py
L461-536. -/
def combined (aq : UQuat → UQuat) (qOf : Mat3 → UQuat) (ico octa : RotGroup) (id₁ : Id) (adj₁ : UQuat) (id₂ : SubId ico) :
    Except Err (SubData UQuat) :=
  after (combineSubgroups aq qOf ico octa id₁ adj₁ id₂) fun p => subgroupOf aq ico octa p.1 p.2

/-- `cn_to_ico`, ico.py L638-660: the inclusion of C_n in the Icosahedral group, rotations around `axis`.  `inv` is the
inverse of the Icosahedral group. -/
def cnToIco (ico : RotGroup) (inv : ico.H → ico.H) (adj : ico.H) (axis : Fin 3 → ℝ) (θ : ℝ) : Except Err ico.H := do
  let e ← ico.ofQ (quat (axis 0 * sin (θ / 2)) (axis 1 * sin (θ / 2)) (axis 2 * sin (θ / 2)) (cos (θ / 2)))
  .ok (ico.mul (ico.mul (inv adj) e) adj)

/-- The inclusion of `('ico', adj)` in the Icosahedral group, `build_adjoint_map(self, ~adj)`, ico.py L259, utils.py
L11-19. -/
def icoSelf (ico : RotGroup) (inv : ico.H → ico.H) (adj h : ico.H) : ico.H :=
  ico.mul (ico.mul (inv adj) h) (inv (inv adj))

end SO3

namespace O3

/-- Ids of the subgroups of a subgroup of O(3): of O(3) itself, of SO(3), of the groups of solids (any), of SO(2), C_N,
O(2), D_N, C_2 and of the products of C_2 and one of these (directproduct.py L440-454: a pair of ids). -/
inductive SubId
  | o3 (id : Id) (adj : Elem)
  | so3 (id : SO3.Id) (adj : UQuat)
  | plato
  | planar (id : O2.SubId)
  | prod (m₁ : ℤ) (id : O2.SubId)

/-- The tuples returned by `O3._combine_subgroups`, without the adjoint element: an id; `(i, False, n)` and `(i, a, n)`
where the first entry is an integer and `a` a float or `None`; `(False, None, n)`.  o3group.py L773 L777 L784 L787 L792 L794
L826. -/
inductive NewId
  | id (id : Id)
  | int (i n : ℤ)
  | intAxis (i : ℤ) (a : Option ℝ) (n : ℤ)
  | noAxis (n : ℤ)

/-- `self.subgroup(id)` for a tuple returned by `O3._combine_subgroups`, o3group.py L422-504 L506-722, group.py L337-343.
`1 == True` in python, and `isinstance(1, bool)` is false: with an integer first entry a float axis is not converted
(L448-449) and fails the assertion of L477; `(1, False, n)` is `(True, False, n)` and `(2, False, n)` is not recognised.
`(False, None, n)` fails the assertion of L446. -/
def subgroupOf (aq : UQuat → UQuat) (ico octa : RotGroup) (id : NewId) (adj : Elem) : Except Err (SubData Elem) :=
  match id with
  | .id id => subgroup aq ico octa (processId aq id adj).1 (processId aq id adj).2
  | .int i n =>
    if i = 1 then
      subgroup aq ico octa (processId aq (.sub true (.pair false n)) adj).1 (processId aq (.sub true (.pair false n)) adj).2
    else if i = 0 then subgroup aq ico octa (.sub false (.pair false n)) adj
    else .error .value
  | .intAxis _ _ _ => .error .assertion
  | .noAxis _ => .error .assertion

/-- `O3._combine_subgroups`, o3group.py L724-841.

In the branch of L804-808 `sg1._combine_subgroups` is called with the id of `sg1` in SO(3): SO(2), C_N and O(2) fail an
assertion on it (so2group.py L284, cyclicgroup.py L277, o2group.py L357-358), the groups of the solids do not implement the
method (group.py L369-370), and D_N, for which `True` is the axis 1, returns a pair whose last entry is an integer, on which
the inclusion fails (L837, L1430: `e.group`). -/
def combineSubgroups (aq : UQuat → UQuat) (ico octa : RotGroup) (id₁ : Id) (adj₁ : Elem) (id₂ : SubId) :
    Except Err (NewId × Elem) :=
  let id₁' := (processId aq id₁ adj₁).1
  let adj₁ := (processId aq id₁ adj₁).2
  after (subgroup aq ico octa id₁' adj₁) fun _ =>
  match id₁', id₂ with
  | .sub true (.str s), id₂ =>
    if s = "so3" then
      match id₂ with
      | .o3 id adj =>
        let p := processId aq id adj
        .ok (.id p.1, combine aq adj₁ (adjointMap aq (inverse aq adj₁) p.2))
      | _ => .error .assertion
    else .error .notImplemented
  | .sub false (.str s), id₂ =>
    if s = "so3" then
      match id₂ with
      | .so3 id adj => do
        let p := SO3.processId aq id adj
        let a ← so3ToO3 aq adj₁ p.2
        .ok (.id (.sub false p.1), combine aq adj₁ a)
      | _ => .error .assertion
    else .error .notImplemented
  | .sub true (.pair false n), .prod m₁ (.cyc m) => if n = 1 then .error .type else .ok (.int m₁ m, adj₁)
  | .sub true (.pair false n), .planar (.cyc m) => if n = 1 then .ok (.int m 1, adj₁) else .error .assertion
  | .sub true (.pair true n), .prod m₁ (.o2 a m) => if n = -1 then .ok (.intAxis m₁ a m, adj₁) else .error .type
  | .sub true (.pair true n), .prod m₁ (.dih (some k) m) => .ok (.intAxis m₁ (some (k * 2 * π / n)) m, adj₁)
  | .sub true (.pair true _), .prod m₁ (.dih none m) => .ok (.int m₁ m, adj₁)
  | .sub false (.pair false _), _ => .error .assertion
  | .sub false (.pair true n), .planar (.dih k m) =>
    if n = -1 then .error .assertion
    else do
      let _ ← Dihedral.combineSubgroups n.toNat (some 1, n.toNat) (.inr (k, m))
      .error .attribute
  | .sub false (.pair true n), _ => if n = -1 then .error .assertion else .error .type
  | .cone n, .planar (.cyc m) =>
    if n = 1 then .ok (if m ≠ 0 then .id (.cone 1) else .id (.sub false (.pair false 1)), adj₁) else .error .type
  | .cone n, .planar (.o2 none m) => if n = -1 then .ok (.noAxis m, adj₁) else .error .type
  | .cone n, .planar (.dih none m) => if n > 1 then .ok (.noAxis m, adj₁) else .error .type
  | .cone n, .planar (.o2 (some a) m) =>
    if n = -1 then do
      let e ← O2.element (0, a)
      let a ← conToO3 aq adj₁ (O2.reduce e)
      .ok (.id (.cone m), combine aq adj₁ a)
    else .error .type
  | .cone n, .planar (.dih (some k) m) =>
    if n > 1 then do
      let e ← Dihedral.element n.toNat (0, k)
      let a ← conToO3 aq adj₁ (e.1, Dihedral.radians n.toNat e)
      .ok (.id (.cone m), combine aq adj₁ a)
    else .error .type
  | _, _ => .error .value

end O3

/-! ### The gspaces of `R^3` -/

namespace GSpace3D

/-- `GSpace3D.__init__`, r3.py L66-79: the id is normalised and the fiber group is the subgroup of O(3) it denotes.
`basespace_action` is the standard representation of O(3) (the matrix of an element) on the images of the inclusion, r3.py
L77. -/
def init (aq : UQuat → UQuat) (ico octa : RotGroup) (id : O3.Id) (adj : O3.Elem) : Except Err (SubData O3.Elem) :=
  O3.subgroup aq ico octa (O3.processId aq id adj).1 (O3.processId aq id adj).2

/-- `GSpace3D.restrict`, r3.py L101-105: the gspace of the combined id. -/
def restrict (aq : UQuat → UQuat) (ico octa : RotGroup) (id : O3.Id) (adj : O3.Elem) (id₂ : O3.SubId) :
    Except Err (SubData O3.Elem) :=
  after (O3.combineSubgroups aq ico octa id adj id₂) fun p => O3.subgroupOf aq ico octa p.1 p.2

/-- `assert n == -1 or n > 0`, r3.py L252 L287 L298 L329 L341. -/
def checkN (n : ℤ) : Except Err Unit := if n = -1 ∨ n > 0 then .ok () else .error .assertion

/-- `adjoint` or the identity: ids without adjoint element get the identity, o3group.py L440-441. -/
def adjOf (adjoint : Option O3.Elem) : O3.Elem := adjoint.getD O3.identity

/-- `flipRot3dOnR3`, r3.py L174-186. -/
def flipRot3d (aq : UQuat → UQuat) (ico octa : RotGroup) : Except Err (SubData O3.Elem) :=
  init aq ico octa .o3 O3.identity

/-- `rot3dOnR3`, r3.py L189-198. -/
def rot3d (aq : UQuat → UQuat) (ico octa : RotGroup) : Except Err (SubData O3.Elem) := init aq ico octa .so3 O3.identity

/-- `fullIcoOnR3`, r3.py L201-203. -/
def fullIco (aq : UQuat → UQuat) (ico octa : RotGroup) : Except Err (SubData O3.Elem) :=
  init aq ico octa (.sub true (.str "ico")) O3.identity

/-- `icoOnR3`, r3.py L206-211. -/
def icoSpace (aq : UQuat → UQuat) (ico octa : RotGroup) : Except Err (SubData O3.Elem) :=
  init aq ico octa (.sub false (.str "ico")) O3.identity

/-- `fullOctaOnR3`, r3.py L214-216. -/
def fullOcta (aq : UQuat → UQuat) (ico octa : RotGroup) : Except Err (SubData O3.Elem) :=
  init aq ico octa (.sub true (.str "octa")) O3.identity

/-- `octaOnR3`, r3.py L219-224. -/
def octaSpace (aq : UQuat → UQuat) (ico octa : RotGroup) : Except Err (SubData O3.Elem) :=
  init aq ico octa (.sub false (.str "octa")) O3.identity

/-- `dihedralOnR3`, r3.py L227-259. -/
def dihedral (aq : UQuat → UQuat) (ico octa : RotGroup) (n : ℤ) (axis : ℝ) (adjoint : Option O3.Elem) :
    Except Err (SubData O3.Elem) :=
  after (checkN n) fun _ => init aq ico octa (.sub false (.axis (2 * axis) n)) (adjOf adjoint)

/-- `rot2dOnR3`, r3.py L262-293. -/
def rot2d (aq : UQuat → UQuat) (ico octa : RotGroup) (n : ℤ) (adjoint : Option O3.Elem) : Except Err (SubData O3.Elem) :=
  after (checkN n) fun _ => init aq ico octa (.sub false (.pair false n)) (adjOf adjoint)

/-- `conicalOnR3`, r3.py L296-305. -/
def conical (aq : UQuat → UQuat) (ico octa : RotGroup) (n : ℤ) (axis : ℝ) (adjoint : Option O3.Elem) :
    Except Err (SubData O3.Elem) :=
  after (checkN n) fun _ => init aq ico octa (.coneAxis (2 * axis) n) (adjOf adjoint)

/-- `mirOnR3`, r3.py L308-324. -/
def mir (aq : UQuat → UQuat) (ico octa : RotGroup) (axis : ℝ) (adjoint : Option O3.Elem) : Except Err (SubData O3.Elem) :=
  init aq ico octa (.coneAxis (2 * axis) 1) (adjOf adjoint)

/-- `fullCylindricalOnR3`, r3.py L327-336. -/
def fullCylindrical (aq : UQuat → UQuat) (ico octa : RotGroup) (n : ℤ) (axis : ℝ) (adjoint : Option O3.Elem) :
    Except Err (SubData O3.Elem) :=
  after (checkN n) fun _ => init aq ico octa (.sub true (.axis axis n)) (adjOf adjoint)

/-- `cylindricalOnR3`, r3.py L339-348. -/
def cylindrical (aq : UQuat → UQuat) (ico octa : RotGroup) (n : ℤ) (adjoint : Option O3.Elem) :
    Except Err (SubData O3.Elem) :=
  after (checkN n) fun _ => init aq ico octa (.sub true (.pair false n)) (adjOf adjoint)

/-- `invOnR3`, r3.py L351-360. -/
def inv (aq : UQuat → UQuat) (ico octa : RotGroup) : Except Err (SubData O3.Elem) :=
  init aq ico octa (.sub true (.pair false 1)) O3.identity

/-- `trivialOnR3`, r3.py L363-374. -/
def trivial (aq : UQuat → UQuat) (ico octa : RotGroup) : Except Err (SubData O3.Elem) :=
  init aq ico octa (.sub false (.pair false 1)) O3.identity

end GSpace3D

end

end Escnn
