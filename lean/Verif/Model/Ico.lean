import Verif.Model.Generators
import Verif.Model.Irreps3
import Verif.Model.Rep
import Verif.Model.Octa

/-!
# The icosahedral group, escnn/group/groups/ico.py

An element is compared, hashed and used as the key of a dictionary through its rotation matrix (ico.py L115-126, so3_utils.py
L155-185), whose entries are of the form `(a + b φ) / 2` with integers `a`, `b` and the golden ratio `φ`: an element is a matrix of such
numbers.
-/

namespace Escnn

open Real Quaternion NpMat

namespace Ico

/-- The number `(a + b φ) / 2`. -/
@[ext] structure Gold where
  (a b : ℤ)
deriving DecidableEq

namespace Gold

instance : Zero Gold := ⟨⟨0, 0⟩⟩
instance : One Gold := ⟨⟨2, 0⟩⟩
instance : Neg Gold := ⟨fun x => ⟨-x.a, -x.b⟩⟩
instance : Add Gold := ⟨fun x y => ⟨x.a + y.a, x.b + y.b⟩⟩
instance : Sub Gold := ⟨fun x y => ⟨x.a - y.a, x.b - y.b⟩⟩

/-- Twice the product. -/
def mul2 (x y : Gold) : Gold := ⟨x.a * y.a + x.b * y.b, x.a * y.b + x.b * y.a + x.b * y.b⟩

/-- Half of a number (exact on the numbers which occur). -/
def half (x : Gold) : Gold := ⟨x.a / 2, x.b / 2⟩

end Gold

open Gold

/-- The rotation matrix of an element, row by row, ico.py L58, so3_utils.py L183-185. -/
@[ext] structure Elem where
  (m₀₀ m₀₁ m₀₂ m₁₀ m₁₁ m₁₂ m₂₀ m₂₁ m₂₂ : Gold)
deriving DecidableEq

/-- `0.5`, `0.5 / φ` and `φ / 2`. -/
def hA : Gold := ⟨1, 0⟩
@[inherit_doc hA] def hB : Gold := ⟨-1, 1⟩
@[inherit_doc hA] def hC : Gold := ⟨0, 1⟩

/-- `Rotation.create_group('I')` (contract of scipy), so3_utils.py L565-566: unit quaternions `(x, y, z, w)`. Of the order only the
positions 0 and 21 are used by the code. -/
def quats : List (Gold × Gold × Gold × Gold) :=
  [
   (1, 0, 0, 0), (0, 1, 0, 0), (0, 0, 1, 0), (0, 0, 0, 1), (hA, -hA, -hA, hA), (hA, -hA, hA, hA),
   (hA, hA, -hA, hA), (hA, hA, hA, hA), (hA, -hA, -hA, -hA), (hA, -hA, hA, -hA), (hA, hA, -hA, -hA), (hA, hA, hA, -hA),
   (hA, hB, hC, 0), (hA, hB, -hC, 0), (hA, hC, 0, hB), (hA, hC, 0, -hB), (hA, -hB, hC, 0), (hA, -hB, -hC, 0),
   (hA, -hC, 0, hB), (hA, -hC, 0, -hB), (hA, 0, hB, hC), (hA, 0, hB, -hC), (hA, 0, -hB, hC), (hA, 0, -hB, -hC),
   (hB, hA, 0, hC), (hB, hA, 0, -hC), (hB, hC, hA, 0), (hB, hC, -hA, 0), (hB, -hA, 0, hC), (hB, -hA, 0, -hC),
   (hB, -hC, hA, 0), (hB, -hC, -hA, 0), (hB, 0, hC, hA), (hB, 0, hC, -hA), (hB, 0, -hC, hA), (hB, 0, -hC, -hA),
   (hC, hA, hB, 0), (hC, hA, -hB, 0), (hC, hB, 0, hA), (hC, hB, 0, -hA), (hC, -hA, hB, 0), (hC, -hA, -hB, 0),
   (hC, -hB, 0, hA), (hC, -hB, 0, -hA), (hC, 0, hA, hB), (hC, 0, hA, -hB), (hC, 0, -hA, hB), (hC, 0, -hA, -hB),
   (0, hA, hC, hB), (0, hA, hC, -hB), (0, hA, -hC, hB), (0, hA, -hC, -hB), (0, hB, hA, hC), (0, hB, hA, -hC),
   (0, hB, -hA, hC), (0, hB, -hA, -hC), (0, hC, hB, hA), (0, hC, hB, -hA), (0, hC, -hB, hA), (0, hC, -hB, -hA)]

/-- `as_matrix` of a unit quaternion (contract of scipy), so3_utils.py L72-113. -/
def ofQuat (q : Gold × Gold × Gold × Gold) : Elem :=
  let (x, y, z, w) := q
  ⟨half (mul2 w w + mul2 x x - mul2 y y - mul2 z z), mul2 x y - mul2 w z, mul2 x z + mul2 w y,
   mul2 x y + mul2 w z, half (mul2 w w - mul2 x x + mul2 y y - mul2 z z), mul2 y z - mul2 w x,
   mul2 x z - mul2 w y, mul2 y z + mul2 w x, half (mul2 w w - mul2 x x - mul2 y y + mul2 z z)⟩

/-- `self._elements`, ico.py L58. -/
def elements : List Elem := quats.map ofQuat

/-- `self._identity`, ico.py L56. -/
def identity : Elem := ⟨1, 0, 0, 0, 1, 0, 0, 0, 1⟩

/-- An entry of a product of matrices. -/
def dot (a b c x y z : Gold) : Gold := half (mul2 a x + mul2 b y + mul2 c z)

/-- `_combine`, ico.py L105-113: the product of rotations. -/
def combine (a b : Elem) : Elem :=
  ⟨dot a.m₀₀ a.m₀₁ a.m₀₂ b.m₀₀ b.m₁₀ b.m₂₀, dot a.m₀₀ a.m₀₁ a.m₀₂ b.m₀₁ b.m₁₁ b.m₂₁, dot a.m₀₀ a.m₀₁ a.m₀₂ b.m₀₂ b.m₁₂ b.m₂₂,
   dot a.m₁₀ a.m₁₁ a.m₁₂ b.m₀₀ b.m₁₀ b.m₂₀, dot a.m₁₀ a.m₁₁ a.m₁₂ b.m₀₁ b.m₁₁ b.m₂₁, dot a.m₁₀ a.m₁₁ a.m₁₂ b.m₀₂ b.m₁₂ b.m₂₂,
   dot a.m₂₀ a.m₂₁ a.m₂₂ b.m₀₀ b.m₁₀ b.m₂₀, dot a.m₂₀ a.m₂₁ a.m₂₂ b.m₀₁ b.m₁₁ b.m₂₁, dot a.m₂₀ a.m₂₁ a.m₂₂ b.m₀₂ b.m₁₂ b.m₂₂⟩

/-- `_inverse`, ico.py L99-103: the inverse rotation. -/
def inverse (a : Elem) : Elem := ⟨a.m₀₀, a.m₁₀, a.m₂₀, a.m₀₁, a.m₁₁, a.m₂₁, a.m₀₂, a.m₁₂, a.m₂₂⟩

/-- `self._elements[i]`. -/
def nth (i : ℕ) : Elem := elements.getD i identity

/-- `self._generators`, ico.py L63-68. -/
def generators : List Elem := [nth 21, nth 0]

noncomputable section

/-- `_PHI`, ico.py L22. -/
def phi : ℝ := (1 + √5) / 2

/-- The value of a number. -/
def Gold.val (x : Gold) : ℝ := (x.a + x.b * phi) / 2

/-- `e.to('MAT')`, ico.py L171-174. -/
def mat (e : Elem) : Mat3 :=
  !![e.m₀₀.val, e.m₀₁.val, e.m₀₂.val; e.m₁₀.val, e.m₁₁.val, e.m₁₂.val; e.m₂₀.val, e.m₂₁.val, e.m₂₂.val]

/-- The quaternion with the given coordinates. -/
def goldQ (q : Gold × Gold × Gold × Gold) : UQuat := quat q.1.val q.2.1.val q.2.2.1.val q.2.2.2.val

/-- The stored quaternion of an element of `self._elements`, ico.py L58. -/
def toQ (e : Elem) : UQuat := goldQ ((quats.find? fun q => ofQuat q = e).getD (0, 0, 0, 1))

/-- `cycle_isclose(theta, 0., S)`, group/utils.py L55-70 (closeness is equality). -/
def CycleZero (θ S : ℝ) : Prop := ∃ k : ℤ, θ = k * S

open Classical in
/-- `np.argmax` of three entries: the first position of the largest (contract of numpy). -/
def argmax (v : Fin 3 → ℝ) : Fin 3 := if v 1 ≤ v 0 ∧ v 2 ≤ v 0 then 0 else if v 2 ≤ v 1 then 1 else 2

/-- `np.linalg.norm`. -/
def norm (v : Fin 3 → ℝ) : ℝ := √(v 0 ^ 2 + v 1 ^ 2 + v 2 ^ 2)

/-- `v = np.abs(v / norm)`, `m = np.argmax(v)`, `np.roll(v, -m)`, ico.py L515-516 L528-532. -/
def rolled (v : Fin 3 → ℝ) : Fin 3 → ℝ :=
  let v : Fin 3 → ℝ := fun i => |v i / norm v|
  fun i => v (i + argmax v)

/-- `p / np.linalg.norm(p)`. -/
def unit (p : Fin 3 → ℝ) : Fin 3 → ℝ := fun i => p i / norm p

/-- `_is_axis_aligned(v, n)` for `n = 2, 3, 5`, ico.py L513-586. -/
def AxisAligned (v : Fin 3 → ℝ) (n : ℕ) : Prop :=
  if n = 2 then rolled v = ![1, 0, 0] ∨ rolled v = unit ![phi + 1, phi, 1]
  else if n = 3 then rolled v = unit ![1, 1, 1] ∨ rolled v = unit ![phi, 1 / phi, 0]
  else rolled v = unit ![phi, 0, 1]

open Classical in
/-- `_is_element` of a quaternion, ico.py L131-169. -/
def IsElement (q : UQuat) : Prop :=
  normSq q = 1 ∧
    let θ := 2 * arccos (max (-1) (min q.re 1))
    if CycleZero θ (2 * π) then True
    else
      let v : Fin 3 → ℝ := fun i => ![q.imI, q.imJ, q.imK] i / sin (θ / 2)
      if CycleZero θ (2 * π / 2) then AxisAligned v 2
      else if CycleZero θ (2 * π / 3) then AxisAligned v 3
      else if CycleZero θ (2 * π / 5) then AxisAligned v 5
      else False

open Classical in
/-- `element(q, 'Q')`, group.py L988-1003, ico.py L131-169: the quaternion is kept. -/
def element (q : UQuat) : Except Err UQuat := if IsElement q then .ok q else .error .value

open Classical in
/-- The element with the matrix of a quaternion, so3_utils.py L183-185. -/
def ofRot (q : UQuat) : Elem := (elements.find? fun e => mat e = rotOf q).getD identity

/-- `ico_group()` as SO(3) and O(3) use it, so3group.py L947-974. -/
def rotGroup : RotGroup where
  H := Elem
  El e := e ∈ elements
  mul := combine
  toQ := toQ
  ofQ q := (element q).map ofRot

/-! ### Irreps -/

/-- The images of the generators, ico.py L688-734. -/
def irrepGens (l : ℤ) : Except Err (List (Elem × NpMat ℝ)) :=
  if l = 3 then
    .ok [(nth 21, Octa.lit 3 [[cos (144 / 180 * π), -sin (144 / 180 * π), 0], [sin (144 / 180 * π), cos (144 / 180 * π), 0], [0, 0, 1]]),
      (nth 0, Octa.lit 3 [[1 / √5, 0, -2 / √5], [0, -1, 0], [-2 / √5, 0, -1 / √5]])]
  else if l = 4 then
    .ok [(nth 21, Octa.lit 4 [[cos (72 / 180 * π), -sin (72 / 180 * π), 0, 0], [sin (72 / 180 * π), cos (72 / 180 * π), 0, 0],
        [0, 0, cos (144 / 180 * π), -sin (144 / 180 * π)], [0, 0, sin (144 / 180 * π), cos (144 / 180 * π)]]),
      (nth 0, Octa.lit 4 [[0, 0, -1, 0], [0, 2 / √5, 0, 1 / √5], [-1, 0, 0, 0], [0, 1 / √5, 0, -2 / √5]])]
  else .error .value

/-- An irrep: its size and its matrices (`KeyError` for other keys of the dictionary). -/
structure Irr where
  /-- `size` -/
  size : ℕ
  /-- `irrep(e)` -/
  mat : Elem → Except Err (NpMat ℝ)

/-- `_build_ico_irrep(ico, l)`, ico.py L671-745, and the size `irrep[self.identity].shape[0]`, L495; `ord` is the order in which Python
iterates over sets (see `bfsLoop`).  The cache returns what was computed before. -/
def builtIrrep (ord : List Elem → List Elem) (l : ℤ) : Except Err Irr := do
  let gens ← irrepGens l
  let rho ← generateIrrep combine inverse identity elements.length ord (elements.length + 1) gens
  match rho identity with
  | none => .error .key
  | some A => .ok ⟨A.rows, fun e => match rho e with
    | none => .error .key
    | some M => .ok M⟩

/-- `irrep(l)`, ico.py L448-502. -/
def irrep (W : ℕ → UQuat → NpMat ℝ) (ord : List Elem → List Elem) (l : ℤ) : Except Err Irr :=
  if ¬ (0 ≤ l ∧ l ≤ 4) then .error .assertion
  else if l = 0 then .ok ⟨1, fun _ => .ok (eye 1)⟩
  else if l ≤ 2 then .ok ⟨(2 * l + 1).toNat, fun e => .ok (W l.toNat (toQ e))⟩
  else builtIrrep ord l

/-- The ids in the order of `_build_representations`, ico.py L335-354. -/
def irrepIds : List ℤ := [0, 1, 2, 3, 4]

/-- `bl_irreps(L)`, ico.py L412-419. -/
def blIrreps (L : ℤ) : Except Err (List ℤ) := if 0 ≤ L ∧ L ≤ 4 then .ok ((List.range (L + 1).toNat).map fun i : ℕ => (i : ℤ)) else .error .assertion

/-- The irreps as a table. -/
def table (W : ℕ → UQuat → NpMat ℝ) (ord : List Elem → List Elem) : IrrepTable Elem ℤ where
  ok l := decide (l ∈ irrepIds)
  size l := match irrep W ord l with
    | .ok I => I.size
    | .error _ => 0
  mat l e := match irrep W ord l with
    | .ok I => (match I.mat e with
      | .ok M => M
      | .error _ => zeros 0 0)
    | .error _ => zeros 0 0

/-- `standard_representation(e)`, ico.py L365-387: `change_basis` of the irrep 1. -/
def standardMat (W : ℕ → UQuat → NpMat ℝ) (e : Elem) : NpMat ℝ := mul (mul Octa.axisCob (W 1 (toQ e))) (transpose Octa.axisCob)

end

end Ico

end Escnn
