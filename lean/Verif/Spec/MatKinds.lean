import Verif.Model.NpMat
import Mathlib.Algebra.BigOperators.Group.Finset.Basic
import Mathlib.Data.Real.Basic
import Mathlib.Data.Fintype.Perm

/-!
# Permutation matrices, signed permutation matrices and orthogonal matrices (specification)
-/

namespace Escnn

/-- `M` is an `n × n` permutation matrix: column `j` is the unit vector at `σ j`. -/
def IsPermMat (n : ℕ) (M : NpMat ℝ) : Prop :=
  M.rows = n ∧ M.cols = n ∧ ∃ σ : Equiv.Perm (Fin n), ∀ i j : Fin n, M.get i j = if i = σ j then 1 else 0

/-- `M` is an `n × n` permutation matrix up to the signs of its columns. -/
def IsSignedPermMat (n : ℕ) (M : NpMat ℝ) : Prop :=
  M.rows = n ∧ M.cols = n ∧ ∃ (σ : Equiv.Perm (Fin n)) (s : Fin n → ℝ), (∀ j, s j = 1 ∨ s j = -1) ∧ ∀ i j : Fin n, M.get i j = if i = σ j then s j else 0

/-- `M` is an `n × n` orthogonal matrix: its columns are orthonormal. -/
def IsOrthMat (n : ℕ) (M : NpMat ℝ) : Prop :=
  M.rows = n ∧ M.cols = n ∧ ∀ i j : Fin n, ∑ k : Fin n, M.get k i * M.get k j = if i = j then 1 else 0

/-- `M` is a block permutation matrix: an `n × n` permutation matrix in which every one is replaced by an orthogonal `d × d` block, `A j` in column `j`. -/
def IsBlockPermMat (n d : ℕ) (M : NpMat ℝ) : Prop :=
  M.rows = n * d ∧ M.cols = n * d ∧ ∃ (σ : Equiv.Perm (Fin n)) (A : Fin n → NpMat ℝ), (∀ j, IsOrthMat d (A j)) ∧
    ∀ (i j : Fin n) (p q : ℕ), p < d → q < d → M.get (i * d + p) (j * d + q) = if i = σ j then (A j).get p q else 0

end Escnn
