import Verif.Lemmas.CompleteWE

/-!
# The irreps of SO(2) and of the cyclic groups are inequivalent
-/

namespace Escnn

open NpMat

/-- The matrix satisfies the quadratic equation of a rotation with the cosine `a`. -/
def QuadEq (A : NpMat ℝ) (d : ℕ) (a : ℝ) : Prop := A.rows = d ∧ A.cols = d ∧ ∀ i < d, ∀ j < d, (mul A A).get i j = 2 * a * A.get i j - if i = j then 1 else 0

theorem quad_intertwiner {A B M : NpMat ℝ} {d d' : ℕ} {a b : ℝ} (hA : QuadEq A d a) (hB : QuadEq B d' b) (hAo : IsOrtho A) (hne : a ≠ b) (hMr : M.rows = d') (hMc : M.cols = d) (h : mul M A ≈ mul B M) : M ≈ zeros d' d := by
  obtain ⟨hAr, hAc, hA⟩ := hA
  obtain ⟨hBr, hBc, hB⟩ := hB
  have e1 : mul M (mul A A) ≈ mul (mul B B) M := by
    refine (mul_assoc' _ _ _).symm.trans ((mul_congr_left _ h (by rw [mul_cols, hAc, hAr])).trans ((mul_assoc' _ _ _).trans ?_))
    exact (mul_congr_right _ h (by rw [hBc, mul_rows, hMr])).trans (mul_assoc' _ _ _).symm
  have hz : ∀ i < d', ∀ j < d, (mul M A).get i j = 0 := by
    intro i hi j hj
    have h1 := e1.2.2 i j (by rw [mul_rows, hMr]; exact hi) (by rw [mul_cols, mul_cols, hAc]; exact hj)
    have h2 := h.2.2 i j (by rw [mul_rows, hMr]; exact hi) (by rw [mul_cols, hAc]; exact hj)
    have l : (mul M (mul A A)).get i j = 2 * a * (mul M A).get i j - M.get i j := by
      show ∑ k ∈ Finset.range M.cols, M.get i k * (mul A A).get k j = 2 * a * (∑ k ∈ Finset.range M.cols, M.get i k * A.get k j) - M.get i j
      rw [hMc, Finset.mul_sum]
      have : ∀ k ∈ Finset.range d, M.get i k * (mul A A).get k j = 2 * a * (M.get i k * A.get k j) - M.get i k * if k = j then 1 else 0 := fun k hk => by
        rw [hA k (Finset.mem_range.1 hk) j hj]; ring
      rw [Finset.sum_congr rfl this, Finset.sum_sub_distrib, Finset.sum_eq_single (a := j) (f := fun k => M.get i k * if k = j then 1 else 0) (fun k _ hk => by rw [if_neg hk, mul_zero])
        (fun hn => absurd (Finset.mem_range.2 hj) hn), if_pos rfl, mul_one]
    have r : (mul (mul B B) M).get i j = 2 * b * (mul B M).get i j - M.get i j := by
      show ∑ k ∈ Finset.range (mul B B).cols, (mul B B).get i k * M.get k j = 2 * b * (∑ k ∈ Finset.range B.cols, B.get i k * M.get k j) - M.get i j
      rw [mul_cols, hBc, Finset.mul_sum]
      have : ∀ k ∈ Finset.range d', (mul B B).get i k * M.get k j = 2 * b * (B.get i k * M.get k j) - (if i = k then 1 else 0) * M.get k j := fun k hk => by
        rw [hB i hi k (Finset.mem_range.1 hk)]; ring
      rw [Finset.sum_congr rfl this, Finset.sum_sub_distrib, Finset.sum_eq_single (a := i) (f := fun k => (if i = k then 1 else 0) * M.get k j) (fun k _ hk => by rw [if_neg (Ne.symm hk), zero_mul])
        (fun hn => absurd (Finset.mem_range.2 hi) hn), if_pos rfl, one_mul]
    rw [l, r, ← h2] at h1
    have : (a - b) * (mul M A).get i j = 0 := by linarith
    exact (mul_eq_zero.1 this).resolve_left (sub_ne_zero.2 hne)
  have e2 : M ≈ mul (mul M A) (transpose A) := by
    have hA2 := hAo.2.1
    rw [hAr] at hA2
    exact ((mul_eye' M hMc).symm.trans (mul_congr_right _ hA2.symm (by rw [hMc]; rfl))).trans (mul_assoc' _ _ _).symm
  refine e2.trans ⟨hMr, by rw [mul_cols, transpose_cols, hAr]; rfl, fun i j hi hj => ?_⟩
  rw [mul_rows, mul_rows, hMr] at hi
  show ∑ k ∈ Finset.range (mul M A).cols, (mul M A).get i k * A.get j k = 0
  refine Finset.sum_eq_zero fun k hk => ?_
  rw [mul_cols, hAc] at hk
  rw [hz i hi k (Finset.mem_range.1 hk), zero_mul]

theorem quad_psi (θ : ℝ) (k : ℕ) : QuadEq (psi θ k) 2 (Real.cos (k * θ)) := by
  refine ⟨rfl, rfl, fun i hi j hj => ?_⟩
  have := Real.sin_sq_add_cos_sq (k * θ)
  interval_cases i <;> interval_cases j <;> simp [mul, psi, of2, Finset.sum_range_succ] <;> linarith

theorem quad_of1 {c : ℝ} (hc : c ^ 2 = 1) : QuadEq (of1 c) 1 c := by
  refine ⟨rfl, rfl, fun i hi j hj => ?_⟩
  obtain rfl : i = 0 := by omega
  obtain rfl : j = 0 := by omega
  simp [mul, of1]
  nlinarith

theorem quad_eye : QuadEq (eye 1) 1 1 := by
  refine ⟨rfl, rfl, fun i hi j hj => ?_⟩
  obtain rfl : i = 0 := by omega
  obtain rfl : j = 0 := by omega
  simp [mul, eye]
  norm_num

theorem cos_inj {x y : ℝ} (hx : 0 ≤ x ∧ x ≤ Real.pi) (hy : 0 ≤ y ∧ y ≤ Real.pi) (h : x ≠ y) : Real.cos x ≠ Real.cos y := fun e => h (Real.injOn_cos hx hy e)

theorem SO2.schur : CGComplete.Schur SO2.table SO2.irrepType SO2.IsElement := by
  refine ⟨fun j _ => SO2.typed.2 j, fun i j _ _ hij M hr hc h => ?_⟩
  have hpos : (0 : ℝ) < ((i + j : ℕ) : ℝ) := by exact_mod_cast (by omega : 0 < i + j)
  have hq : ∀ k θ, QuadEq (SO2.table.mat k θ) (SO2.table.size k) (Real.cos (k * θ)) := by
    intro k θ
    show QuadEq (SO2.irrepMat k θ) (SO2.irrepSize k) _
    by_cases h0 : k = 0
    · rw [SO2.irrepMat, SO2.irrepSize, if_pos h0, if_pos h0, h0]; simpa using quad_eye
    · rw [SO2.irrepMat, SO2.irrepSize, if_neg h0, if_neg h0]; exact quad_psi θ k
  have hθ : SO2.IsElement (Real.pi / ((i + j : ℕ) : ℝ)) := ⟨by positivity, by
    rw [div_lt_iff₀ hpos]
    have : (1 : ℝ) ≤ ((i + j : ℕ) : ℝ) := by exact_mod_cast (by omega : 1 ≤ i + j)
    nlinarith [Real.pi_pos]⟩
  refine quad_intertwiner (hq i _) (hq j _) ((SO2.table_valid i rfl).ortho _ hθ) ?_ hr hc (h _ hθ)
  have hle : ∀ k, k ≤ i + j → 0 ≤ (k : ℝ) * (Real.pi / ((i + j : ℕ) : ℝ)) ∧ (k : ℝ) * (Real.pi / ((i + j : ℕ) : ℝ)) ≤ Real.pi := fun k hk => by
    refine ⟨by positivity, ?_⟩
    rw [mul_div_assoc', div_le_iff₀ hpos, mul_comm]
    exact mul_le_mul_of_nonneg_left (by exact_mod_cast hk) Real.pi_pos.le
  refine cos_inj (hle i (by omega)) (hle j (by omega)) fun e => hij ?_
  have := mul_right_cancel₀ (by positivity) e
  exact_mod_cast this

theorem Cyclic.schur (N : ℕ) (hN : 0 < N) : CGComplete.Schur (Cyclic.table N) (Cyclic.irrepType N) fun g => Cyclic.isElement N g = true := by
  refine ⟨fun j hj => (Cyclic.typed N hN).2 j hj, fun i j hi hj hij M hr hc h => ?_⟩
  have hi' : i ≤ N / 2 := of_decide_eq_true hi
  have hj' : j ≤ N / 2 := of_decide_eq_true hj
  have hN' : (0 : ℝ) < N := by exact_mod_cast hN
  have hel : Cyclic.isElement N 1 = true := by simp [Cyclic.isElement]; omega
  have hq : ∀ k, QuadEq ((Cyclic.table N).mat k 1) ((Cyclic.table N).size k) (Real.cos (k * Cyclic.radians N 1)) := by
    intro k
    show QuadEq (Cyclic.irrepMat N k 1) (Cyclic.irrepSize N k) _
    by_cases h0 : k = 0
    · rw [Cyclic.irrepMat, Cyclic.irrepSize, if_pos h0, if_pos h0, h0]; simpa using quad_eye
    · rw [Cyclic.irrepMat, Cyclic.irrepSize, if_neg h0, if_neg h0]
      split_ifs with h1
      · refine quad_of1 ?_
        have : (k : ℝ) * Cyclic.radians N 1 = Real.pi := by
          have h2 : (N : ℝ) = 2 * k := by exact_mod_cast (by omega : N = 2 * k)
          have h3 : (k : ℝ) ≠ 0 := by exact_mod_cast h0
          rw [Cyclic.radians, h2]; push_cast; field_simp
        rw [this, Real.cos_pi]; norm_num
      · exact quad_psi _ k
  refine quad_intertwiner (hq i) (hq j) ((Cyclic.table_valid N hN i hi).ortho _ hel) ?_ hr hc (h _ hel)
  have hle : ∀ k, k ≤ N / 2 → 0 ≤ (k : ℝ) * Cyclic.radians N 1 ∧ (k : ℝ) * Cyclic.radians N 1 ≤ Real.pi := fun k hk => by
    have h2 : (2 : ℝ) * k ≤ N := by exact_mod_cast (by omega : 2 * k ≤ N)
    have h3 := Real.pi_pos
    rw [Cyclic.radians]
    push_cast
    refine ⟨by positivity, ?_⟩
    rw [mul_div_assoc', div_le_iff₀ hN']
    nlinarith
  refine cos_inj (hle i hi') (hle j hj') fun e => hij ?_
  have hrad : Cyclic.radians N 1 ≠ 0 := by
    have h3 := Real.pi_pos
    rw [Cyclic.radians]; positivity
  have := mul_right_cancel₀ hrad e
  exact_mod_cast this

end Escnn
