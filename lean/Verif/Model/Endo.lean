import Verif.Model.Rep

/-!
# Model of `endomorphism_basis` and `homomorphism_space`
-/

namespace Escnn

open NpMat

/-- The `type` of an irrep, irrep.py L92-104. -/
inductive IrrType
  | R | C | H
  deriving DecidableEq

/-- `sum_of_squares_constituents`, irrep.py L96-104. -/
def IrrType.sumsq : IrrType → ℕ
  | .R => 1
  | .C => 2
  | .H => 4

/-- `np.kron(A, B)` for 2-d arrays. -/
def NpMat.kron {R : Type} [CommRing R] (A B : NpMat R) : NpMat R :=
  ⟨A.rows * B.rows, A.cols * B.cols, fun i j => A.get (i / B.rows) (j / B.cols) * B.get (i % B.rows) (j % B.cols)⟩

/-- `np.array([[…], …])` from the list of rows (of length `n`). -/
def NpMat.ofRows {R : Type} [CommRing R] (n : ℕ) (L : List (List R)) : NpMat R := ⟨L.length, n, fun i j => (L.getD i []).getD j 0⟩

/-- The arrays stacked in `basis`, irrep.py L110-113 and L116-130 (`np.diag([1,-1])[::-1]` reverses the rows). -/
def endoCore : IrrType → List (NpMat ℝ)
  | .R => [eye 1]
  | .C => [eye 2, ofRows 2 [[0, -1], [1, 0]]]
  | .H => [eye 4,
      ofRows 4 [[0, 0, 0, -1], [0, 0, 1, 0], [0, -1, 0, 0], [1, 0, 0, 0]],
      ofRows 4 [[0, 0, -1, 0], [0, 0, 0, -1], [1, 0, 0, 0], [0, 1, 0, 0]],
      ofRows 4 [[0, -1, 0, 0], [1, 0, 0, 0], [0, 0, 0, 1], [0, 0, -1, 0]]]

/-- `IrreducibleRepresentation.endomorphism_basis`, irrep.py L106-134.  For type `'R'` it is `np.eye(size)` (L107-108); for the
others `np.kron(basis, np.eye(size // 2))`, `np.kron(basis, np.eye(size // 4))` (L114, L131). -/
def endoBasis (t : IrrType) (size : ℕ) : List (NpMat ℝ) :=
  match t with
  | .R => [eye size]
  | .C => (endoCore .C).map fun E => kron E (eye (size / 2))
  | .H => (endoCore .H).map fun E => kron E (eye (size / 4))

variable {G Id : Type} [DecidableEq Id]

/-- Inner loop of `homomorphism_space` over the irreps of `rho2`, at row offset `j`, representation.py L1098-1113: the blocks
written for the input irrep `a` at column offset `i`. -/
def homInner (T : IrrepTable G Id) (typ : Id → IrrType) (n2 n1 : ℕ) (a : Id) (i : ℕ) : ℕ → List Id → List (NpMat ℝ)
  | _, [] => []
  | j, b :: L =>
    (if b = a then (endoBasis (typ a) (T.size a)).map (setBlock (zeros n2 n1) j i) else []) ++
      homInner T typ n2 n1 a i (j + T.size b) L

/-- Outer loop over the irreps of `rho1`, at column offset `i`, representation.py L1095-1114. -/
def homOuter (T : IrrepTable G Id) (typ : Id → IrrType) (n2 n1 : ℕ) (out : List Id) : ℕ → List Id → List (NpMat ℝ)
  | _, [] => []
  | i, a :: L => homInner T typ n2 n1 a i 0 out ++ homOuter T typ n2 n1 out (i + T.size a) L

/-- `homomorphism_space(rho1, rho2)`, representation.py L1068-1116 (the leading axis of the returned array is the list index);
`Representation.endomorphism_basis`, representation.py L391-435, is the same code with `rho1 = rho2 = self`. -/
def homSpace (T : IrrepTable G Id) (typ : Id → IrrType) (r1 r2 : Rep G Id) : List (NpMat ℝ) :=
  (homOuter T typ r2.size r1.size r2.irreps 0 r1.irreps).map fun B => mul (mul r2.cob B) r1.cobInv

/-- `type` passed by `CyclicGroup.irrep`, cyclicgroup.py L414-452: `'R'` for `k = 0` and `k = N/2`, `'C'` otherwise. -/
def Cyclic.irrepType (N k : ℕ) : IrrType := if k = 0 then .R else if N % 2 = 0 ∧ k = N / 2 then .R else .C
/-- `type` passed by `SO2.irrep`, so2group.py L441-465. -/
def SO2.irrepType (k : ℕ) : IrrType := if k = 0 then .R else .C

end Escnn
