import Verif.Model.Kernels
import Mathlib.Analysis.SpecialFunctions.Exp

/-!
# Model of escnn/kernels/sparse_basis.py (SparseOrbitBasis) and of PointBasis in steerable_filters_basis.py
-/

namespace Escnn

/-- Attributes of an element of `SparseOrbitBasis`, sparse_basis.py L197 and L213-216 (the attributes of the irrep, `shape` and the user's
attributes are the same for all elements of an irrep). -/
structure SpAttr (J : Type) where
  idx : ℕ
  j : J
  i : ℕ
  m : ℕ
  deriving DecidableEq

/-- A `SparseOrbitBasis` after the constructor, sparse_basis.py L63-130: `js`, the number of points, the coordinates of the points, the
buffers `harmonics_j` as functions of the point, the copy and the component, and `sigma`. -/
structure Sparse (J : Type) where
  js : List (J × ℕ)
  d : ℕ
  n : ℕ
  points : ℕ → ℕ → ℝ
  harm : J → ℕ → ℕ → ℕ → ℝ
  sigma : ℝ

namespace Sparse

variable {J : Type} [DecidableEq J]

/-- `dim_harmonic`, steerable_filters_basis.py L175-185, with the dictionary `_js` of L67-76. -/
def dimHarmonic (size : J → ℕ) (js : List (J × ℕ)) (j : J) : ℕ := size j * (FType.lookupLast js j).getD 0

/-- `self.dim`, steerable_filters_basis.py L68-78. -/
def dim (size : J → ℕ) (js : List (J × ℕ)) : ℕ := (js.map fun e => size e.1 * e.2).sum

/-- `_get_j_from_idx`, steerable_filters_basis.py L196-204, with the remaining index `idx - p`. -/
def getJ (size : J → ℕ) (js : List (J × ℕ)) : ℕ → List (J × ℕ) → Except Err (J × ℕ)
  | _, [] => .error .value
  | r, (j, _) :: L => if r < dimHarmonic size js j then .ok (j, r) else getJ size js (r - dimHarmonic size js j) L

/-- The weights of the points, sparse_basis.py L165-169. -/
noncomputable def weight (b : Sparse J) (x : ℕ → ℝ) (i : ℕ) : ℝ :=
  Real.exp (-(0.5 : ℝ) * ((∑ a ∈ Finset.range b.d, (b.points i a - x a) ^ 2) / b.sigma ^ 2))

/-- The loop of `sample`, sparse_basis.py L171-177: entry `e` of the views `out[:, B:B+dim_harmonic(j)]` seen as `(m, size)`. -/
noncomputable def sampleLoop (size : J → ℕ) (b : Sparse J) (x : ℕ → ℝ) : ℕ → List (J × ℕ) → ℝ
  | _, [] => 0
  | e, (j, _) :: L =>
    if e < dimHarmonic size b.js j then ∑ i ∈ Finset.range b.n, b.harm j i (e / size j) (e % size j) * b.weight x i
    else sampleLoop size b x (e - dimHarmonic size b.js j) L

/-- `SparseOrbitBasis.sample`, sparse_basis.py L135-179, at the point `x`. -/
noncomputable def sample (size : J → ℕ) (b : Sparse J) (x : ℕ → ℝ) (e : ℕ) : ℝ := sampleLoop size b x e b.js

/-- `__getitem__`, sparse_basis.py L202-219. -/
def getItem (size : J → ℕ) (b : Sparse J) (idx : ℕ) : Except Err (SpAttr J) :=
  if ¬ idx < dim size b.js then .error .assertion
  else do
    let r ← getJ size b.js idx b.js
    .ok ⟨idx, r.1, r.2 / size r.1, r.2 % size r.1⟩

/-- `__iter__`, sparse_basis.py L181-200, as the list of its items. -/
def iter (size : J → ℕ) (b : Sparse J) : List (SpAttr J) :=
  ((b.js.flatMap fun e => (List.range e.2).flatMap fun i => (List.range (size e.1)).map fun m (idx : ℕ) => (⟨idx, e.1, i, m⟩ : SpAttr J)).zipIdx).map fun e => e.1 e.2

/-- `steerable_attrs_j`, sparse_basis.py L234-246. -/
def attrsJ (b : Sparse J) (j : J) (idx : ℕ) : Except Err ℕ := if idx < (FType.lookupLast b.js j).getD 0 then .ok idx else .error .assertion

/-- `steerable_attrs_j_iter`, sparse_basis.py L221-232. -/
def attrsIter (b : Sparse J) (j : J) : Except Err (List ℕ) := .ok (List.range ((FType.lookupLast b.js j).getD 0))

/-- The basis as the solvers see it. -/
noncomputable def toFBasis (size : J → ℕ) (b : Sparse J) : FBasis J (ℕ → ℝ) ℕ := ⟨b.js, b.sample size, b.attrsJ, b.attrsIter⟩

end Sparse

/-- `PointBasis`, steerable_filters_basis.py L278-346: the constant function, for the trivial irrep `triv`.  Its attributes are `idx = 0`; for another irrep
`steerable_attrs_j` returns `None`. -/
def pointBasis {J P : Type} [DecidableEq J] (triv : J) : FBasis J P (Option ℕ) :=
  ⟨[(triv, 1)], fun _ _ => 1, fun j idx => if j ≠ triv then .ok none else if idx = 0 then .ok (some 0) else .error .assertion,
    fun j => .ok (if j ≠ triv then [] else [some 0])⟩

end Escnn
