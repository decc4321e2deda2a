import Mathlib.Analysis.SpecialFunctions.Complex.Circle
import Mathlib.RingTheory.RootsOfUnity.Complex
import Mathlib.Tactic

/-!
# Sums of cosines over the `N`-th roots of unity (helper lemmas)
-/

namespace Escnn

open Real

/-- `∑_{e < N} cos (2π m e / N)` is `N` when `N ∣ m` and `0` otherwise. -/
theorem sum_cos (N : ℕ) (hN : 0 < N) (m : ℤ) :
    ∑ e ∈ Finset.range N, cos (m * (e * (2 * π) / N)) = if (N : ℤ) ∣ m then (N : ℝ) else 0 := by
  have hN' : (N : ℝ) ≠ 0 := by positivity
  have hNc : (N : ℂ) ≠ 0 := by exact_mod_cast hN.ne'
  split_ifs with h
  · obtain ⟨q, rfl⟩ := h
    have : ∀ e ∈ Finset.range N, cos (((N * q : ℤ) : ℝ) * (e * (2 * π) / N)) = 1 := by
      intro e _
      have : (((N * q : ℤ) : ℝ) * (e * (2 * π) / N)) = ((q * e : ℤ) : ℝ) * (2 * π) := by
        push_cast; field_simp
      rw [this, Real.cos_int_mul_two_pi]
    rw [Finset.sum_congr rfl this]; simp
  · set z : ℂ := Complex.exp ((m * (2 * π) / N : ℝ) * Complex.I) with hz
    have hzN : z ^ N = 1 := by
      rw [hz, ← Complex.exp_nat_mul, Complex.exp_eq_one_iff]
      exact ⟨m, by push_cast; field_simp⟩
    have hz1 : z ≠ 1 := by
      intro h1
      rw [hz, Complex.exp_eq_one_iff] at h1
      obtain ⟨n, hn⟩ := h1
      apply h
      refine ⟨n, ?_⟩
      have hpi : (π : ℂ) ≠ 0 := by exact_mod_cast Real.pi_ne_zero
      have hI := Complex.I_ne_zero
      push_cast at hn
      have : (m : ℂ) = N * n := by
        field_simp at hn
        linear_combination hn
      exact_mod_cast this
    have hsum : ∑ e ∈ Finset.range N, z ^ e = 0 := by
      rw [geom_sum_eq hz1, hzN]; simp
    have hre : ∀ e ∈ Finset.range N, cos (m * (e * (2 * π) / N)) = (z ^ e).re := by
      intro e _
      rw [hz, ← Complex.exp_nat_mul]
      have : (e : ℂ) * (((m * (2 * π) / N : ℝ) : ℂ) * Complex.I) = ((m * (e * (2 * π) / N) : ℝ) : ℂ) * Complex.I := by
        push_cast; ring
      rw [this, Complex.exp_ofReal_mul_I_re]
    rw [Finset.sum_congr rfl hre, ← Complex.re_sum, hsum]; simp

/-- Orthogonality of cosines at integer frequencies `k, l ≤ N/2`. -/
theorem sum_cos_mul_cos (N : ℕ) (hN : 0 < N) (k l : ℕ) (hk : 2 * k ≤ N) (hl : 2 * l ≤ N) :
    ∑ e ∈ Finset.range N, cos (k * (e * (2 * π) / N)) * cos (l * (e * (2 * π) / N)) =
      if k = l then (if k = 0 ∨ 2 * k = N then (N : ℝ) else N / 2) else 0 := by
  have e1 : ∀ e ∈ Finset.range N, cos (k * (e * (2 * π) / N)) * cos (l * (e * (2 * π) / N)) =
      (cos (((k - l : ℤ) : ℝ) * (e * (2 * π) / N)) + cos (((k + l : ℤ) : ℝ) * (e * (2 * π) / N))) / 2 := by
    intro e _
    push_cast
    rw [sub_mul, add_mul, Real.cos_sub, Real.cos_add]; ring
  rw [Finset.sum_congr rfl e1, ← Finset.sum_div, Finset.sum_add_distrib, sum_cos N hN, sum_cos N hN]
  by_cases h : k = l
  · subst h
    have hd0 : (N : ℤ) ∣ (k : ℤ) - k := by simp
    rw [if_pos hd0, if_pos rfl]
    by_cases h0 : k = 0 ∨ 2 * k = N
    · have : (N : ℤ) ∣ (k : ℤ) + k := by
        rcases h0 with rfl | h0
        · simp
        · exact ⟨1, by omega⟩
      rw [if_pos this, if_pos h0]; ring
    · have : ¬ (N : ℤ) ∣ (k : ℤ) + k := by
        rintro ⟨q, hq⟩
        have hq0 : 0 < q := by
          by_contra hneg
          have : (N : ℤ) * q ≤ 0 := mul_nonpos_of_nonneg_of_nonpos (by positivity) (by omega)
          omega
        have : (N : ℤ) ≤ N * q := le_mul_of_one_le_right (by positivity) hq0
        omega
      rw [if_neg this, if_neg h0]; ring
  · rw [if_neg h]
    have h1 : ¬ (N : ℤ) ∣ (k : ℤ) - l := by
      intro hd
      have := Int.eq_zero_of_abs_lt_dvd hd (by rw [abs_lt]; omega)
      omega
    have h2 : ¬ (N : ℤ) ∣ (k : ℤ) + l := by
      intro hd
      have := Int.eq_zero_of_abs_lt_dvd hd (by rw [abs_lt]; omega)
      omega
    rw [if_neg h1, if_neg h2]; simp

end Escnn
