import Verif.Model.IIDBatchNorm
import Verif.Lemmas.MatKinds

/-!
# Statistics over a batch
-/

namespace Escnn

open Finset

variable {B P P' : Type} [Fintype B] [Fintype P] [Fintype P']

theorem batchSum_perm (σ : P' ≃ P) (v : B → P → ℝ) : ∑ b, ∑ p, v b (σ p) = ∑ b, ∑ p, v b p := sum_congr rfl fun b _ => Equiv.sum_comp σ fun p => v b p

theorem batchMean_perm (σ : P' ≃ P) (v : B → P → ℝ) : (batchMean fun b p => v b (σ p)) = batchMean v := by
  unfold batchMean
  rw [batchSum_perm σ v, Fintype.card_congr σ]

theorem batchMean_lin (n : ℕ) (c : ℕ → ℝ) (v : ℕ → B → P → ℝ) : (batchMean fun b p => ∑ j ∈ range n, c j * v j b p) = ∑ j ∈ range n, c j * batchMean (v j) := by
  unfold batchMean
  have : ∑ b, ∑ p, ∑ j ∈ range n, c j * v j b p = ∑ j ∈ range n, c j * ∑ b, ∑ p, v j b p := by
    simp only [mul_sum]
    rw [sum_comm]
    conv_lhs => rw [sum_comm]
    rw [sum_comm (s := range n)]
    refine sum_congr rfl fun b _ => ?_
    rw [sum_comm]
  rw [this, sum_div]
  exact sum_congr rfl fun j _ => by ring

theorem batchVar_sub (v : B → P → ℝ) (k : ℝ) : (batchVar fun b p => v b p - k) = batchVar v := by
  unfold batchVar
  congr 1
  by_cases h : (Fintype.card B * Fintype.card P : ℝ) = 0
  · have : IsEmpty B ∨ IsEmpty P := by
      rcases mul_eq_zero.1 h with h | h
      · exact .inl (Fintype.card_eq_zero_iff.1 (by exact_mod_cast h))
      · exact .inr (Fintype.card_eq_zero_iff.1 (by exact_mod_cast h))
    rcases this with h | h
    · simp
    · simp
  · have : (batchMean fun b p => v b p - k) = batchMean v - k := by
      unfold batchMean
      simp only [sum_sub_distrib, sum_const, card_univ, nsmul_eq_mul]
      rw [sub_div, ← mul_assoc, mul_div_cancel_left₀ _ h]
    rw [this]
    exact sum_congr rfl fun b _ => sum_congr rfl fun p _ => by ring

theorem batchMean_congr {v w : B → P → ℝ} (h : ∀ b p, v b p = w b p) : batchMean v = batchMean w := by
  obtain rfl : v = w := funext fun b => funext fun p => h b p
  rfl

theorem batchVar_congr {v w : B → P → ℝ} (h : ∀ b p, v b p = w b p) : batchVar v = batchVar w := by
  obtain rfl : v = w := funext fun b => funext fun p => h b p
  rfl

/-- The sum of the squares over a batch of vectors transformed with an orthogonal matrix. -/
theorem batchSq_act {n : ℕ} {M : NpMat ℝ} (hM : IsOrthMat n M) (σ : P' ≃ P) {v : B → ℕ → P → ℝ} {w : B → ℕ → P' → ℝ} (hw : ∀ b p, ∀ o < n, w b o p = ∑ j ∈ range n, M.get o j * v b j (σ p)) :
    ∑ o ∈ range n, ∑ b, ∑ p, w b o p ^ 2 = ∑ o ∈ range n, ∑ b, ∑ p, v b o p ^ 2 := by
  have e1 : ∑ o ∈ range n, ∑ b, ∑ p, w b o p ^ 2 = ∑ b, ∑ p, ∑ o ∈ range n, w b o p ^ 2 := by
    rw [sum_comm]
    exact sum_congr rfl fun b _ => sum_comm
  have e2 : ∑ o ∈ range n, ∑ b, ∑ p, v b o p ^ 2 = ∑ b, ∑ p, ∑ o ∈ range n, v b o p ^ 2 := by
    rw [sum_comm]
    exact sum_congr rfl fun b _ => sum_comm
  rw [e1, e2, ← batchSum_perm σ fun b p => ∑ o ∈ range n, v b o p ^ 2]
  refine sum_congr rfl fun b _ => sum_congr rfl fun p _ => ?_
  rw [← hM.norm fun j => v b j (σ p)]
  exact sum_congr rfl fun o ho => by rw [hw b p o (mem_range.1 ho)]

/-- The means of a transformed batch. -/
theorem batchMean_act {n : ℕ} {M : NpMat ℝ} (σ : P' ≃ P) {v : B → ℕ → P → ℝ} {w : B → ℕ → P' → ℝ} (hw : ∀ b p, ∀ o < n, w b o p = ∑ j ∈ range n, M.get o j * v b j (σ p)) {o : ℕ} (ho : o < n) :
    (batchMean fun b p => w b o p) = ∑ j ∈ range n, M.get o j * batchMean fun b p => v b j p := by
  rw [batchMean_congr fun b p => hw b p o ho, batchMean_lin n (fun j => M.get o j) fun j b p => v b j (σ p)]
  exact sum_congr rfl fun j _ => by rw [batchMean_perm σ fun b p => v b j p]

/-- The variances of a batch transformed with an orthogonal matrix. -/
theorem batchVar_act {n : ℕ} {M : NpMat ℝ} (hM : IsOrthMat n M) (σ : P' ≃ P) {v : B → ℕ → P → ℝ} {w : B → ℕ → P' → ℝ} (hw : ∀ b p, ∀ o < n, w b o p = ∑ j ∈ range n, M.get o j * v b j (σ p)) :
    ∑ o ∈ range n, (batchVar fun b p => w b o p) = ∑ o ∈ range n, batchVar fun b p => v b o p := by
  unfold batchVar
  rw [← sum_div, ← sum_div, Fintype.card_congr σ]
  congr 1
  refine batchSq_act hM σ (v := fun b o p => v b o p - batchMean fun b p => v b o p) (w := fun b o p => w b o p - batchMean fun b p => w b o p) fun b p o ho => ?_
  rw [hw b p o ho, batchMean_act σ hw ho, ← sum_sub_distrib]
  exact sum_congr rfl fun j _ => by ring

end Escnn
