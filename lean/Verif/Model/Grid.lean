import Verif.Model.NpMat
import Verif.Model.Py
import Mathlib.Algebra.Order.Round
import Mathlib.Algebra.BigOperators.Fin

/-!
# Model of escnn/gspaces/utils.py: linear_transform_array_nd

An array has `n` spatial axes, the last ones; the leading axes (batch, channels) are the index type `L`.
-/

namespace Escnn

open NpMat

/-- An array with spatial axes of the sizes `shape`. -/
structure NdArr (n : ℕ) (L : Type) where
  shape : Fin n → ℕ
  get : L → (Fin n → ℕ) → ℝ

namespace NdArr

variable {n : ℕ} {L : Type}

/-- The valid indices. -/
def Box (shape : Fin n → ℕ) : Set (Fin n → ℕ) := {k | ∀ i, k i < shape i}

/-- Equal arrays: equal shapes and equal entries at the valid indices. -/
def Eqv (x y : NdArr n L) : Prop := x.shape = y.shape ∧ ∀ l, ∀ k ∈ Box x.shape, x.get l k = y.get l k

instance : HasEquiv (NdArr n L) := ⟨Eqv⟩

/-- The matrix in array coordinates, utils.py L32-34: `trafo[::-1, ::-1]`, then all rows but the last and all columns but the last are negated. -/
def arrTrafo (M : NpMat ℝ) : NpMat ℝ :=
  let A : NpMat ℝ := ⟨M.rows, M.cols, fun i j => M.get (M.rows - 1 - i) (M.cols - 1 - j)⟩
  let B : NpMat ℝ := ⟨A.rows, A.cols, fun i j => if i < A.rows - 1 then A.get i j * -1 else A.get i j⟩
  ⟨B.rows, B.cols, fun i j => if j < B.cols - 1 then B.get i j * -1 else B.get i j⟩

/-- The test of L44-48 (with `exact=True`): a matrix with one entry `±1` in each row and column. -/
def IsExact (t : NpMat ℝ) : Prop :=
  (∀ j < t.cols, ∑ i ∈ Finset.range t.rows, |t.get i j| = 1) ∧ (∀ i < t.rows, ∑ j ∈ Finset.range t.cols, |t.get i j| = 1) ∧ ∀ i < t.rows, ∀ j < t.cols, |t.get i j| = 1 ∨ |t.get i j| = 0

/-- `axs`, L50: `np.around(trafo) @ [1, …, n]`. -/
noncomputable def axs (t : NpMat ℝ) (i : ℕ) : ℤ := ∑ j ∈ Finset.range t.cols, round (t.get i j) * ((j : ℤ) + 1)

/-- `x.transpose(…)` permuting the spatial axes, L56-59: axis `i` of the result is axis `π i` of `x`. -/
def transpose (x : NdArr n L) (π : Fin n → Fin n) : NdArr n L := ⟨fun i => x.shape (π i), fun l k => x.get l fun j => ∑ i, if π i = j then k i else 0⟩

/-- `y[..., ::s_1, …, ::s_n]` with steps `±1`, L61-62: the axes with `neg` are reversed. -/
def flip (x : NdArr n L) (neg : Fin n → Prop) [DecidablePred neg] : NdArr n L := ⟨x.shape, fun l k => x.get l fun i => if neg i then x.shape i - 1 - k i else k i⟩

open Classical in
/-- `linear_transform_array_nd(x, trafo)` with `exact=True`, utils.py L24-78.  `transpose` raises `ValueError` if the axes are not a permutation.  The rounding to `float16` of L39 is not modelled;
`interp` stands for the interpolation of L66-78. -/
noncomputable def linearTransform (interp : NdArr n L → NpMat ℝ → Except Err (NdArr n L)) (x : NdArr n L) (M : NpMat ℝ) : Except Err (NdArr n L) :=
  if ¬ (M.rows = n ∧ M.cols = n) then .error .assertion
  else if IsExact (arrTrafo M) then
    if h : ∀ i : Fin n, 1 ≤ (axs (arrTrafo M) i).natAbs ∧ (axs (arrTrafo M) i).natAbs ≤ n then
      let π : Fin n → Fin n := fun i => ⟨(axs (arrTrafo M) i).natAbs - 1, by have := h i; omega⟩
      if Function.Injective π then .ok (flip (transpose x π) fun i => axs (arrTrafo M) i < 0) else .error .value
    else .error .value
  else interp x (arrTrafo M)

end NdArr

end Escnn
