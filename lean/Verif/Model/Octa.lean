import Verif.Model.Generators
import Verif.Model.Irreps3
import Verif.Model.Rep
import Mathlib.Algebra.Order.Floor.Ring

/-!
# The octahedral group, escnn/group/groups/octa.py

An element is compared, hashed and used as the key of a dictionary through its rotation matrix (octa.py L116-127, so3_utils.py
L155-185), whose entries are integers: it is an integer matrix.  The maps of the subgroups look at the quaternion which stores the
element (octa.py L570-620) and are modelled on quaternions, `aq` is the choice of `as_quat` (see `Verif.Model.SO3`).
-/

namespace Escnn

open Real Quaternion NpMat

namespace Octa

/-- The rotation matrix of an element, row by row, octa.py L58, so3_utils.py L183-185. -/
@[ext] structure Elem where
  (m₀₀ m₀₁ m₀₂ m₁₀ m₁₁ m₁₂ m₂₀ m₂₁ m₂₂ : ℤ)
deriving DecidableEq

/-- `Rotation.create_group('O')` (contract of scipy), so3_utils.py L567-568: quaternions `(x, y, z, w)` in this order, up to a positive
factor. -/
def quats : List (ℤ × ℤ × ℤ × ℤ) :=
  [(1, 0, 0, 0), (0, 1, 0, 0), (0, 0, 1, 0), (0, 0, 0, 1),
   (1, -1, -1, 1), (1, -1, 1, 1), (1, 1, -1, 1), (1, 1, 1, 1), (1, -1, -1, -1), (1, -1, 1, -1), (1, 1, -1, -1), (1, 1, 1, -1),
   (1, 0, 0, 1), (0, 1, 0, 1), (0, 0, 1, 1), (0, 0, -1, 1), (0, -1, 0, 1), (-1, 0, 0, 1),
   (0, 1, 1, 0), (0, -1, 1, 0), (1, 0, 1, 0), (-1, 0, 1, 0), (1, 1, 0, 0), (-1, 1, 0, 0)]

/-- `as_matrix` of the normalised quaternion (contract of scipy), so3_utils.py L72-113. -/
def ofQuat (q : ℤ × ℤ × ℤ × ℤ) : Elem :=
  let (x, y, z, w) := q
  let n := x * x + y * y + z * z + w * w
  ⟨(w * w + x * x - y * y - z * z) / n, 2 * (x * y - w * z) / n, 2 * (x * z + w * y) / n,
   2 * (x * y + w * z) / n, (w * w - x * x + y * y - z * z) / n, 2 * (y * z - w * x) / n,
   2 * (x * z - w * y) / n, 2 * (y * z + w * x) / n, (w * w - x * x - y * y + z * z) / n⟩

/-- `self._elements`, octa.py L58. -/
def elements : List Elem := quats.map ofQuat

/-- `self._identity`, octa.py L56. -/
def identity : Elem := ⟨1, 0, 0, 0, 1, 0, 0, 0, 1⟩

/-- `_combine`, octa.py L106-114: the product of rotations. -/
def combine (a b : Elem) : Elem :=
  ⟨a.m₀₀ * b.m₀₀ + a.m₀₁ * b.m₁₀ + a.m₀₂ * b.m₂₀, a.m₀₀ * b.m₀₁ + a.m₀₁ * b.m₁₁ + a.m₀₂ * b.m₂₁, a.m₀₀ * b.m₀₂ + a.m₀₁ * b.m₁₂ + a.m₀₂ * b.m₂₂,
   a.m₁₀ * b.m₀₀ + a.m₁₁ * b.m₁₀ + a.m₁₂ * b.m₂₀, a.m₁₀ * b.m₀₁ + a.m₁₁ * b.m₁₁ + a.m₁₂ * b.m₂₁, a.m₁₀ * b.m₀₂ + a.m₁₁ * b.m₁₂ + a.m₁₂ * b.m₂₂,
   a.m₂₀ * b.m₀₀ + a.m₂₁ * b.m₁₀ + a.m₂₂ * b.m₂₀, a.m₂₀ * b.m₀₁ + a.m₂₁ * b.m₁₁ + a.m₂₂ * b.m₂₁, a.m₂₀ * b.m₀₂ + a.m₂₁ * b.m₁₂ + a.m₂₂ * b.m₂₂⟩

/-- `_inverse`, octa.py L100-104: the inverse rotation. -/
def inverse (a : Elem) : Elem := ⟨a.m₀₀, a.m₁₀, a.m₂₀, a.m₀₁, a.m₁₁, a.m₂₁, a.m₀₂, a.m₁₂, a.m₂₂⟩

/-- `self._elements[i]`. -/
def nth (i : ℕ) : Elem := elements.getD i identity

/-- `self._generators`, octa.py L63-67. -/
def generators : List Elem := [nth 17, nth 11, nth 22]

noncomputable section

/-- `e.to('MAT')`, octa.py L162-165. -/
def mat (e : Elem) : Mat3 := !![(e.m₀₀ : ℝ), e.m₀₁, e.m₀₂; e.m₁₀, e.m₁₁, e.m₁₂; e.m₂₀, e.m₂₁, e.m₂₂]

/-- `_is_element` of a quaternion, octa.py L132-160. -/
def IsElement (q : UQuat) : Prop :=
  normSq q = 1 ∧ (∀ j, |rotOf q 0 j| + |rotOf q 1 j| + |rotOf q 2 j| = 1) ∧ (∀ i, |rotOf q i 0| + |rotOf q i 1| + |rotOf q i 2| = 1) ∧
    ∀ i j, |rotOf q i j| = 1 ∨ |rotOf q i j| = 0

open Classical in
/-- `element(q, 'Q')`, group.py L988-1003, octa.py L132-160: the quaternion is kept. -/
def element (q : UQuat) : Except Err UQuat := if IsElement q then .ok q else .error .value

/-- The stored quaternion of an element of `self._elements`, octa.py L58. -/
def toQ (e : Elem) : UQuat :=
  let (x, y, z, w) := (quats.find? fun q => ofQuat q = e).getD (0, 0, 0, 1)
  let r := √((x * x + y * y + z * z + w * w : ℤ) : ℝ)
  quat (x / r) (y / r) (z / r) (w / r)

/-- The matrix of a quaternion as an integer matrix, so3_utils.py L183-185 (the entries are rounded). -/
def ofRot (q : UQuat) : Elem :=
  ⟨⌊rotOf q 0 0⌋, ⌊rotOf q 0 1⌋, ⌊rotOf q 0 2⌋, ⌊rotOf q 1 0⌋, ⌊rotOf q 1 1⌋, ⌊rotOf q 1 2⌋, ⌊rotOf q 2 0⌋, ⌊rotOf q 2 1⌋, ⌊rotOf q 2 2⌋⟩

/-- `octa_group()` as SO(3) and O(3) use it, so3group.py L947-974. -/
def rotGroup : RotGroup where
  H := Elem
  El e := e ∈ elements
  mul := combine
  toQ := toQ
  ofQ q := (element q).map ofRot

/-! ### Irreps -/

/-- `t = ~s @ k @ s @ r` with `r = r3 @ r3 @ r3`, octa.py L652-657 L703-708 L735-740. -/
def elemT : Elem :=
  let r3 := nth 17
  let r := combine (combine r3 r3) r3
  let k := nth 0
  let s := nth 11
  combine (combine (combine (inverse s) k) s) r

/-- A literal `np.array`. -/
def lit (d : ℕ) (L : List (List ℝ)) : NpMat ℝ := ⟨d, d, fun i j => (L.getD i []).getD j 0⟩

/-- `change_of_basis`, octa.py L686-690, L365-369. -/
def axisCob : NpMat ℝ := lit 3 [[0, 0, 1], [1, 0, 0], [0, 1, 0]]

/-- `change_of_basis.T @ rho @ change_of_basis`, octa.py L692-694. -/
def inAxis (A : NpMat ℝ) : NpMat ℝ := mul (mul (transpose axisCob) A) axisCob

/-- The images of `t`, `k`, `s`, octa.py L645-758. -/
def irrepGens (l : ℤ) : Except Err (List (Elem × NpMat ℝ)) :=
  if l = -1 then
    .ok [(elemT, inAxis (lit 3 [[1, 0, 0], [0, 0, 1], [0, 1, 0]])), (nth 0, inAxis (lit 3 [[1, 0, 0], [0, -1, 0], [0, 0, -1]])),
      (nth 11, inAxis (lit 3 [[0, 1, 0], [0, 0, 1], [1, 0, 0]]))]
  else if l = 2 then
    .ok [(elemT, lit 2 [[0, 1], [1, 0]]), (nth 0, lit 2 [[1, 0], [0, 1]]),
      (nth 11, lit 2 [[1 / 2 * -1, 1 / 2 * -√3], [1 / 2 * √3, 1 / 2 * -1]])]
  else if l = 3 then .ok [(elemT, lit 1 [[-1]]), (nth 0, lit 1 [[1]]), (nth 11, lit 1 [[1]])]
  else .error .value

/-- An irrep: its size and its matrices (`KeyError` for other keys of the dictionary). -/
structure Irr where
  /-- `size` -/
  size : ℕ
  /-- `irrep(e)` -/
  mat : Elem → Except Err (NpMat ℝ)

/-- `_build_octa_irrep(octa, l)`, octa.py L633-639 L643-764, and the size `irrep[self.identity].shape[0]`, L446-449 L452-455; `ord` is the
order in which Python iterates over sets (see `bfsLoop`). -/
def builtIrrep (ord : List Elem → List Elem) (l : ℤ) : Except Err Irr := do
  let gens ← irrepGens l
  let rho ← generateIrrep combine inverse identity elements.length ord (elements.length + 1) gens
  match rho identity with
  | none => .error .key
  | some A => .ok ⟨A.rows, fun e => match rho e with
    | none => .error .key
    | some M => .ok M⟩

/-- `irrep(l)`, octa.py L401-460. -/
def irrep (W : ℕ → UQuat → NpMat ℝ) (ord : List Elem → List Elem) (l : ℤ) : Except Err Irr :=
  if ¬ (-1 ≤ l ∧ l ≤ 3) then .error .assertion
  else if l = 0 then .ok ⟨1, fun _ => .ok (eye 1)⟩
  else if l = 1 then .ok ⟨3, fun e => .ok (W 1 (toQ e))⟩
  else builtIrrep ord l

/-- The ids in the order of `_build_representations`, octa.py L321-342. -/
def irrepIds : List ℤ := [0, 1, -1, 2, 3]

/-- The irreps as a table. -/
def table (W : ℕ → UQuat → NpMat ℝ) (ord : List Elem → List Elem) : IrrepTable Elem ℤ where
  ok l := decide (l ∈ irrepIds)
  size l := match irrep W ord l with
    | .ok I => I.size
    | .error _ => 0
  mat l e := match irrep W ord l with
    | .ok I => (match I.mat e with
      | .ok M => M
      | .error _ => zeros 0 0)
    | .error _ => zeros 0 0

/-- `standard_representation(e)`, octa.py L357-378: `change_basis` of the irrep 1. -/
def standardMat (W : ℕ → UQuat → NpMat ℝ) (e : Elem) : NpMat ℝ := mul (mul axisCob (W 1 (toQ e))) (transpose axisCob)

/-! ### Subgroups -/

/-- Ids of subgroups without the last entry (the adjoint element), octa.py L187-216. -/
inductive Id
  | str (s : String)
  | pair (flip : Bool) (n : ℤ)

/-- `change_axis`, octa.py L206-211. -/
def changeAxis : UQuat :=
  quat (1 / √3 * sin (π / 3)) (1 / √3 * sin (π / 3)) (-1 / √3 * sin (π / 3)) (cos (π / 3))

/-- `_process_subgroup_id`, octa.py L187-216 (the adjoint element is given). -/
def processId (aq : UQuat → UQuat) (id : Id) (adj : UQuat) : Except Err (Id × UQuat) :=
  match id with
  | .str s => .ok (.str s, adj)
  | .pair flip n =>
    if n ∉ [1, 2, 3, 4] then .error .assertion
    else if flip = true ∧ n = 1 then do
      let c ← element changeAxis
      .ok (.pair false 2, SO3.combine aq c adj)
    else .ok (.pair flip n, adj)

/-- `cn_to_octa(adj, cn, axis)` applied to an element with `e.to('radians') = θ`, octa.py L598-620 (the assertions hold for the three
axes of `_subgroup`). -/
def cnToOcta (aq : UQuat → UQuat) (axis : Fin 3 → ℝ) (adj : UQuat) (θ : ℝ) : Except Err UQuat := do
  let q ← element (quat (axis 0 * sin (θ / 2)) (axis 1 * sin (θ / 2)) (axis 2 * sin (θ / 2)) (cos (θ / 2)))
  .ok (SO3.intoParent aq adj q)

open Classical in
/-- `octa_to_cn(adj, cn, axis)`, octa.py L560-595 (`allclose` is equality). -/
def octaToCn (aq : UQuat → UQuat) (N : ℕ) (axis : Fin 3 → ℝ) (adj e : UQuat) : Except Err (Option ℤ) :=
  let e := SO3.intoChild aq adj e
  let n := √(e.imI ^ 2 + e.imJ ^ 2 + e.imK ^ 2)
  if n = 0 then .ok (some Cyclic.identity)
  else if e.imI / n = axis 0 ∧ e.imJ / n = axis 1 ∧ e.imK / n = axis 2 then
    orNone (Cyclic.elementOf N .radians (.rad (2 * arctan2 n e.re)))
  else .ok none

/-- The axis of the subgroup `(False, n)`, octa.py L254 L259 L264-265. -/
def axisOf (n : ℤ) : Fin 3 → ℝ := if n = 3 then fun _ => 1 / √3 else ![0, 0, 1]

open Classical in
/-- `_subgroup`, octa.py L218-283; the maps of the trivial subgroup are utils.py L22-38. -/
def subgroup (aq : UQuat → UQuat) (id : Id) (adj : UQuat) : Except Err (SubData UQuat) :=
  match id with
  | .str s =>
    if s = "octa" then
      .ok ⟨UQuat, IsElement, SO3.combine aq, fun e => .ok (SO3.adjointMap aq (SO3.inverse aq adj) e), fun e => .ok (some (SO3.adjointMap aq adj e))⟩
    else if s = "tetra" then .error .notImplemented
    else .error .value
  | .pair false n =>
    if n = 1 then
      .ok ⟨ℤ, fun e => Cyclic.isElement 1 e = true, Cyclic.combine 1, fun _ => .ok SO3.identity,
        fun e => .ok (if SO3.Equal e SO3.identity then some Cyclic.identity else none)⟩
    else if n = 2 ∨ n = 3 ∨ n = 4 then
      .ok ⟨ℤ, fun e => Cyclic.isElement n.toNat e = true, Cyclic.combine n.toNat, fun e => cnToOcta aq (axisOf n) adj (Cyclic.radians n.toNat e),
        octaToCn aq n.toNat (axisOf n) adj⟩
    else .error .value
  | .pair true n => if n = 2 ∨ n = 3 ∨ n = 4 then .error .notImplemented else .error .value

/-- `_restrict_irrep` to the trivial subgroup, octa.py L305-307 L317: the change of basis and the ids of irreps of `C_1`. -/
def restrictTrivial (size : ℕ) (adjMat : NpMat ℝ) : NpMat ℝ × List ℕ := (mul (transpose adjMat) (eye size), List.replicate size 1)

end

end Octa

end Escnn
