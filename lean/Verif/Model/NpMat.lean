import Mathlib.Algebra.BigOperators.Ring.Finset
import Mathlib.Data.Matrix.Basic
import Mathlib.Algebra.BigOperators.Fin
import Mathlib.Tactic

/-!
# Two-dimensional NumPy arrays

A 2-d array is its shape and an entry function; entries outside of the shape are never looked at.  `A ≈ B` says that
the shapes agree and all the entries inside of the shape agree.  Entries are exact (an arbitrary commutative ring,
usually `ℝ`) instead of floats.
-/

namespace Escnn

/-- A 2-d NumPy array. -/
structure NpMat (R : Type) where
  rows : ℕ
  cols : ℕ
  get : ℕ → ℕ → R

namespace NpMat

variable {R : Type}

/-- Equality of arrays: same shape, same entries. -/
def Eqv (A B : NpMat R) : Prop :=
  A.rows = B.rows ∧ A.cols = B.cols ∧ ∀ i j, i < A.rows → j < A.cols → A.get i j = B.get i j

instance : HasEquiv (NpMat R) := ⟨Eqv⟩

theorem eqv_def {A B : NpMat R} : A ≈ B ↔
    A.rows = B.rows ∧ A.cols = B.cols ∧ ∀ i j, i < A.rows → j < A.cols → A.get i j = B.get i j := Iff.rfl

@[refl] theorem Eqv.refl (A : NpMat R) : A ≈ A := ⟨rfl, rfl, fun _ _ _ _ => rfl⟩
theorem Eqv.of_eq {A B : NpMat R} (h : A = B) : A ≈ B := h ▸ Eqv.refl A
@[symm] theorem Eqv.symm {A B : NpMat R} (h : A ≈ B) : B ≈ A := by
  obtain ⟨h1, h2, h3⟩ := h
  exact ⟨h1.symm, h2.symm, fun i j hi hj => (h3 i j (h1 ▸ hi) (h2 ▸ hj)).symm⟩
@[trans] theorem Eqv.trans {A B C : NpMat R} (h : A ≈ B) (h' : B ≈ C) : A ≈ C := by
  obtain ⟨h1, h2, h3⟩ := h
  obtain ⟨k1, k2, k3⟩ := h'
  exact ⟨h1.trans k1, h2.trans k2, fun i j hi hj => (h3 i j hi hj).trans (k3 i j (h1 ▸ hi) (h2 ▸ hj))⟩

instance : Trans (α := NpMat R) (β := NpMat R) (γ := NpMat R) (· ≈ ·) (· ≈ ·) (· ≈ ·) := ⟨Eqv.trans⟩

/-- Array as a Mathlib matrix. -/
def toMatrix (A : NpMat R) : Matrix (Fin A.rows) (Fin A.cols) R := fun i j => A.get i j

variable [CommRing R]

/-- `A @ B` (the shapes must be compatible; NumPy raises otherwise — every use proves compatibility). -/
def mul (A B : NpMat R) : NpMat R := ⟨A.rows, B.cols, fun i j => ∑ k ∈ Finset.range A.cols, A.get i k * B.get k j⟩

/-- `A.T` -/
def transpose (A : NpMat R) : NpMat R := ⟨A.cols, A.rows, fun i j => A.get j i⟩

/-- `np.eye(n)` -/
def eye (n : ℕ) : NpMat R := ⟨n, n, fun i j => if i = j then 1 else 0⟩

/-- `np.zeros((m, n))` -/
def zeros (m n : ℕ) : NpMat R := ⟨m, n, fun _ _ => 0⟩

/-- `scipy.sparse.block_diag([A, B])` for two blocks. -/
def diag2 (A B : NpMat R) : NpMat R :=
  ⟨A.rows + B.rows, A.cols + B.cols, fun i j =>
    if i < A.rows then (if j < A.cols then A.get i j else 0)
    else (if j < A.cols then 0 else B.get (i - A.rows) (j - A.cols))⟩

/-- `scipy.sparse.block_diag(blocks)`; the empty list gives an empty array. -/
def blockDiag : List (NpMat R) → NpMat R
  | [] => zeros 0 0
  | A :: L => diag2 A (blockDiag L)

/-- `np.array([[a]])` -/
def of1 (a : R) : NpMat R := ⟨1, 1, fun _ _ => a⟩

/-- `np.array([[a, b], [c, d]])` -/
def of2 (a b c d : R) : NpMat R :=
  ⟨2, 2, fun i j => if i = 0 then (if j = 0 then a else b) else (if j = 0 then c else d)⟩

/-- `np.trace(A)` for a square array. -/
def trace (A : NpMat R) : R := ∑ i ∈ Finset.range A.rows, A.get i i

@[simp] theorem mul_rows (A B : NpMat R) : (mul A B).rows = A.rows := rfl
@[simp] theorem mul_cols (A B : NpMat R) : (mul A B).cols = B.cols := rfl
@[simp] theorem transpose_rows (A : NpMat R) : (transpose A).rows = A.cols := rfl
@[simp] theorem transpose_cols (A : NpMat R) : (transpose A).cols = A.rows := rfl
@[simp] theorem eye_rows (n : ℕ) : (eye n : NpMat R).rows = n := rfl
@[simp] theorem eye_cols (n : ℕ) : (eye n : NpMat R).cols = n := rfl
@[simp] theorem zeros_rows (m n : ℕ) : (zeros m n : NpMat R).rows = m := rfl
@[simp] theorem zeros_cols (m n : ℕ) : (zeros m n : NpMat R).cols = n := rfl
@[simp] theorem of1_rows (a : R) : (of1 a).rows = 1 := rfl
@[simp] theorem of1_cols (a : R) : (of1 a).cols = 1 := rfl
@[simp] theorem of2_rows (a b c d : R) : (of2 a b c d).rows = 2 := rfl
@[simp] theorem of2_cols (a b c d : R) : (of2 a b c d).cols = 2 := rfl
@[simp] theorem diag2_rows (A B : NpMat R) : (diag2 A B).rows = A.rows + B.rows := rfl
@[simp] theorem diag2_cols (A B : NpMat R) : (diag2 A B).cols = A.cols + B.cols := rfl

/-- `mul` is Mathlib's matrix product (for compatible shapes). -/
theorem mul_toMatrix (A : NpMat R) (B : NpMat R) (h : B.rows = A.cols) :
    (mul A B).toMatrix = A.toMatrix * (Matrix.reindex (finCongr h) (Equiv.refl _) B.toMatrix) := by
  ext i j
  simp only [toMatrix, mul, Matrix.mul_apply, Matrix.reindex_apply, Matrix.submatrix_apply]
  rw [Finset.sum_range]
  rfl

theorem mul_congr {A A' B B' : NpMat R} (h : A ≈ A') (h' : B ≈ B') (hc : A.cols = B.rows) :
    mul A B ≈ mul A' B' := by
  obtain ⟨h1, h2, h3⟩ := h
  obtain ⟨k1, k2, k3⟩ := h'
  refine ⟨h1, k2, fun i j hi hj => ?_⟩
  simp only [mul]
  rw [← h2]
  refine Finset.sum_congr rfl fun k hk => ?_
  rw [Finset.mem_range] at hk
  rw [h3 i k hi hk, k3 k j (hc ▸ hk) hj]

theorem mul_assoc' (A B C : NpMat R) : mul (mul A B) C ≈ mul A (mul B C) := by
  refine ⟨rfl, rfl, fun i j _ _ => ?_⟩
  simp only [mul, Finset.sum_mul, Finset.mul_sum]
  rw [Finset.sum_comm]
  refine Finset.sum_congr rfl fun k _ => Finset.sum_congr rfl fun l _ => by ring

theorem eye_mul (A : NpMat R) : mul (eye A.rows) A ≈ A := by
  refine ⟨rfl, rfl, fun i j hi _ => ?_⟩
  simp only [mul, eye]
  have hi' : i < A.rows := hi
  simp [hi']

theorem mul_eye (A : NpMat R) : mul A (eye A.cols) ≈ A := by
  refine ⟨rfl, rfl, fun i j _ hj => ?_⟩
  simp only [mul, eye]
  have hj' : j < A.cols := hj
  simp [hj']

theorem transpose_congr {A A' : NpMat R} (h : A ≈ A') : transpose A ≈ transpose A' :=
  ⟨h.2.1, h.1, fun i j hi hj => h.2.2 j i hj hi⟩

theorem transpose_mul (A B : NpMat R) (h : A.cols = B.rows) :
    transpose (mul A B) ≈ mul (transpose B) (transpose A) := by
  refine ⟨rfl, rfl, fun i j _ _ => ?_⟩
  simp only [mul, transpose]
  rw [h]
  refine Finset.sum_congr rfl fun k _ => by ring

theorem transpose_transpose (A : NpMat R) : transpose (transpose A) = A := rfl

theorem transpose_eye (n : ℕ) : transpose (eye n : NpMat R) ≈ eye n := by
  refine ⟨rfl, rfl, fun i j _ _ => ?_⟩
  simp [transpose, eye, eq_comm]

theorem diag2_congr {A A' B B' : NpMat R} (h : A ≈ A') (h' : B ≈ B') : diag2 A B ≈ diag2 A' B' := by
  obtain ⟨h1, h2, h3⟩ := h
  obtain ⟨k1, k2, k3⟩ := h'
  refine ⟨by simp [h1, k1], by simp [h2, k2], fun i j hi hj => ?_⟩
  simp only [diag2_rows, diag2_cols] at hi hj
  simp only [diag2, ← h1, ← h2]
  split
  · split
    · exact h3 i j (by assumption) (by assumption)
    · rfl
  · split
    · rfl
    · exact k3 _ _ (by omega) (by omega)

theorem diag2_mul (A B A' B' : NpMat R) (h : A.cols = A'.rows) :
    mul (diag2 A B) (diag2 A' B') ≈ diag2 (mul A A') (mul B B') := by
  refine ⟨rfl, rfl, fun i j hi hj => ?_⟩
  simp only [mul_rows, mul_cols, diag2_rows, diag2_cols] at hi hj
  simp only [mul, diag2_cols]
  rw [Finset.sum_range_add]
  simp only [diag2]
  by_cases hi' : i < A.rows <;> by_cases hj' : j < A'.cols <;> simp only [hi', hj', if_true, if_false]
  · have e1 : ∑ x ∈ Finset.range A.cols, (if x < A.cols then A.get i x else 0) *
        (if x < A'.rows then A'.get x j else 0) = ∑ x ∈ Finset.range A.cols, A.get i x * A'.get x j := by
      refine Finset.sum_congr rfl fun x hx => ?_
      rw [Finset.mem_range] at hx
      rw [if_pos hx, if_pos (h ▸ hx)]
    rw [e1]
    simp
  · rw [Finset.sum_eq_zero, Finset.sum_eq_zero, add_zero]
    · intro x _
      simp
    · intro x hx
      rw [Finset.mem_range] at hx
      rw [h] at hx; simp [hx]
  · rw [Finset.sum_eq_zero, Finset.sum_eq_zero, add_zero]
    · intro x _
      simp [← h]
    · intro x hx
      rw [Finset.mem_range] at hx
      simp [hx]
  · rw [Finset.sum_eq_zero (s := Finset.range A.cols), zero_add]
    · refine Finset.sum_congr rfl fun x _ => ?_
      simp [← h]
    · intro x hx
      rw [Finset.mem_range] at hx
      simp [hx]

theorem diag2_eye (m n : ℕ) : diag2 (eye m : NpMat R) (eye n) ≈ eye (m + n) := by
  refine ⟨rfl, rfl, fun i j hi hj => ?_⟩
  simp only [diag2, eye]
  by_cases h1 : i < m <;> by_cases h2 : j < m <;> simp only [h1, h2, if_true, if_false]
  · rw [if_neg (by omega)]
  · rw [if_neg (by omega)]
  · congr 1; apply propext; omega

theorem diag2_transpose (A B : NpMat R) : transpose (diag2 A B) ≈ diag2 (transpose A) (transpose B) := by
  refine ⟨rfl, rfl, fun i j _ _ => ?_⟩
  simp only [transpose, diag2]
  by_cases h : j < A.rows <;> by_cases h' : i < A.cols <;> simp [h, h']

theorem diag2_assoc (A B C : NpMat R) : diag2 (diag2 A B) C ≈ diag2 A (diag2 B C) := by
  refine ⟨by simp [add_assoc], by simp [add_assoc], fun i j hi hj => ?_⟩
  simp only [diag2]
  by_cases h1 : i < A.rows
  · have h3 : i < A.rows + B.rows := by omega
    by_cases h2 : j < A.cols
    · have h4 : j < A.cols + B.cols := by omega
      simp only [h1, h2, h3, h4, if_true]
    · simp only [h1, h2, h3, if_true, if_false, ite_self]
  · by_cases h2 : j < A.cols
    · have h4 : j < A.cols + B.cols := by omega
      simp only [h1, h2, h4, if_true, if_false, ite_self]
    · by_cases h3 : i < A.rows + B.rows <;> by_cases h4 : j < A.cols + B.cols
      · simp only [h1, h2, h3, h4, if_true, if_false]
        rw [if_pos (show i - A.rows < B.rows by omega), if_pos (show j - A.cols < B.cols by omega)]
      · simp only [h1, h2, h3, h4, if_true, if_false]
        rw [if_pos (show i - A.rows < B.rows by omega), if_neg (show ¬ j - A.cols < B.cols by omega)]
      · simp only [h1, h2, h3, h4, if_true, if_false]
        rw [if_neg (show ¬ i - A.rows < B.rows by omega), if_pos (show j - A.cols < B.cols by omega)]
      · simp only [h1, h2, h3, h4, if_false]
        rw [if_neg (show ¬ i - A.rows < B.rows by omega), if_neg (show ¬ j - A.cols < B.cols by omega)]
        rw [Nat.sub_sub, Nat.sub_sub]

theorem diag2_empty_right (A : NpMat R) : diag2 A (zeros 0 0) ≈ A := by
  refine ⟨rfl, rfl, fun i j hi hj => ?_⟩
  have hi' : i < A.rows := hi
  have hj' : j < A.cols := hj
  simp [diag2, hi', hj']

theorem diag2_empty_left (A : NpMat R) : diag2 (zeros 0 0) A ≈ A := by
  refine ⟨by simp, by simp, fun i j _ _ => ?_⟩
  simp [diag2]

theorem blockDiag_append (L L' : List (NpMat R)) :
    blockDiag (L ++ L') ≈ diag2 (blockDiag L) (blockDiag L') := by
  induction L with
  | nil => exact (diag2_empty_left _).symm
  | cons A L ih =>
    exact (diag2_congr (Eqv.refl A) ih).trans (diag2_assoc _ _ _).symm

theorem blockDiag_rows (L : List (NpMat R)) : (blockDiag L).rows = (L.map rows).sum := by
  induction L with
  | nil => rfl
  | cons A L ih => simp [blockDiag, ih]

theorem blockDiag_cols (L : List (NpMat R)) : (blockDiag L).cols = (L.map cols).sum := by
  induction L with
  | nil => rfl
  | cons A L ih => simp [blockDiag, ih]

theorem blockDiag_congr {L L' : List (NpMat R)} (h : List.Forall₂ (· ≈ ·) L L') : blockDiag L ≈ blockDiag L' := by
  induction h with
  | nil => rfl
  | cons h _ ih => exact diag2_congr h ih

/-- Orthogonality of a square array: `A @ A.T = A.T @ A = I`. -/
def IsOrtho (A : NpMat R) : Prop :=
  A.rows = A.cols ∧ mul A (transpose A) ≈ eye A.rows ∧ mul (transpose A) A ≈ eye A.rows

end NpMat
end Escnn
