import Verif.Props.C03_SO2O2

/-!
# C11 — the irreps of SO(2) and O(2)
-/

namespace Escnn

open Real NpMat

/-- **C11** Every irrep of `SO(2)`. -/
theorem C11_so2_irrep (k : ℕ) :
    OrthoRep SO2.IsElement SO2.combine SO2.identity (SO2.irrepSize k) (SO2.irrepMat k) ∧
    (∀ θ, SO2.irrepChar k θ = trace (SO2.irrepMat k θ)) ∧
    (∀ (θ : ℝ) (q : ℤ), SO2.irrepMat k (θ + q * (2 * π)) = SO2.irrepMat k θ) := by
  by_cases h0 : k = 0
  · subst h0
    exact ⟨orthoRep_eye1 _ _ _, fun θ => by simp [SO2.irrepChar, SO2.irrepMat, trace_eye1],
      fun θ q => by simp [SO2.irrepMat]⟩
  · have em : SO2.irrepMat k = fun θ => psichi θ 0 k := by
      funext e; rw [SO2.irrepMat, if_neg h0, psi_eq_psichi]
    refine ⟨?_, fun θ => ?_, fun θ q => ?_⟩
    · rw [em, SO2.irrepSize, if_neg h0]
      refine orthoRep_psichi (fun θ => θ) (fun _ => 0) k (fun _ _ => .inl rfl) rfl rfl
        (fun g h _ _ => ?_) (fun _ _ _ _ => rfl)
      simp only [SO2.combine, mod2pi_mod2pi, mod2pi_add_mod2pi]
      obtain ⟨q, hq⟩ := mod2pi_spec (g + h)
      exact ⟨q, by rw [hq]; simp⟩
    · rw [em, SO2.irrepChar, if_neg h0]; simp only [psichi]; rw [trace_of2]; simp; ring
    · rw [em]; simp only
      rw [← psichi_mod2pi, ← psichi_mod2pi θ, mod2pi_eq_iff.2 ⟨q, rfl⟩]

/-- **C11** Every irrep of `O(2)`. -/
theorem C11_o2_irrep (j k : ℕ) (hok : O2.irrepOk j k = true) :
    OrthoRep O2.IsElement O2.combine O2.identity (O2.irrepSize j k) (O2.irrepMat j k) ∧
    (∀ e, O2.irrepChar j k e = trace (O2.irrepMat j k e)) ∧
    (∀ (f : ℤ) (θ : ℝ) (q : ℤ), O2.irrepMat j k (f, θ + q * (2 * π)) = O2.irrepMat j k (f, θ)) := by
  simp only [O2.irrepOk, Bool.and_eq_true, Bool.or_eq_true, decide_eq_true_eq] at hok
  by_cases hj : j = 0
  · have hk : k = 0 := by omega
    subst hj hk
    exact ⟨orthoRep_eye1 _ _ _, fun θ => by simp [O2.irrepChar, O2.irrepMat, trace_eye1],
      fun f θ q => by simp [O2.irrepMat]⟩
  by_cases h0 : k = 0
  · subst h0
    have em : O2.irrepMat j 0 = fun e => of1 (sgnR e.1) := by
      funext e; rw [O2.irrepMat, if_neg hj, if_pos rfl]
    refine ⟨?_, fun θ => ?_, fun f θ q => ?_⟩
    · rw [em, O2.irrepSize, if_neg hj, if_pos rfl]
      refine orthoRep_of1 _ (by simp [O2.identity]) (fun g h hg hh => ?_) (fun g _ => sgnR_mul_self _)
      rw [O2.C03_o2_laws.2.2.2.2.2.2.2.2]
      rcases hg.1 with hg | hg <;> rcases hh.1 with hh | hh <;> rw [hg, hh] <;> norm_num
    · rw [em, O2.irrepChar, if_neg hj, if_pos rfl, trace_of1]
    · rw [em]
  · have em : O2.irrepMat j k = fun e => psichi e.2 e.1 k := by
      funext e; rw [O2.irrepMat, if_neg hj, if_neg h0]
    refine ⟨?_, fun e => ?_, fun f θ q => ?_⟩
    · rw [em, O2.irrepSize, if_neg hj, if_neg h0]
      refine orthoRep_psichi (El := O2.IsElement) (op := O2.combine) (one := O2.identity) (fun e => e.2) (fun e => e.1) k (fun _ h => h.1) (by simp [O2.identity]) (by simp [O2.identity])
        (fun g h hg hh => ?_) (fun g h _ _ => by simp [O2.combine, O2.reduce])
      simp only [O2.combine, O2.reduce, O2.sgn]
      rw [mod2pi_eq_self hg.2.1 hg.2.2, mod2pi_eq_self hh.2.1 hh.2.2]
      exact mod2pi_spec _
    · rw [em, O2.irrepChar, if_neg hj, if_neg h0]
      simp only [psichi]
      rw [trace_of2]
      unfold sgnR
      split_ifs <;> ring
    · rw [em]; simp only
      rw [← psichi_mod2pi, ← psichi_mod2pi θ, mod2pi_eq_iff.2 ⟨q, rfl⟩]

/-- **C11** (pairwise inequivalence) Different accepted ids have different characters. -/
theorem C11_o2_characters_distinct (j k j' k' : ℕ) (hok : O2.irrepOk j k = true) (hok' : O2.irrepOk j' k' = true)
    (h : ∀ e, O2.IsElement e → O2.irrepChar j k e = O2.irrepChar j' k' e) : (j, k) = (j', k') := by
  simp only [O2.irrepOk, Bool.and_eq_true, Bool.or_eq_true, decide_eq_true_eq] at hok hok'
  have hpi := pi_pos
  have hsize := h (0, 0) ⟨.inl rfl, le_rfl, two_pi_pos⟩
  have hflip := h (1, 0) ⟨.inr rfl, le_rfl, two_pi_pos⟩
  by_cases hk : k = 0
  · by_cases hk' : k' = 0
    · subst hk hk'
      rcases (show j = 0 ∨ j = 1 by omega) with rfl | rfl <;> rcases (show j' = 0 ∨ j' = 1 by omega) with rfl | rfl <;>
        first | rfl | (norm_num [O2.irrepChar] at hflip)
    · have : j' = 1 := by omega
      subst hk this
      exfalso
      rcases (show j = 0 ∨ j = 1 by omega) with rfl | rfl <;> norm_num [O2.irrepChar, hk'] at hsize
  · have hj : j = 1 := by omega
    by_cases hk' : k' = 0
    · subst hk' hj
      exfalso
      rcases (show j' = 0 ∨ j' = 1 by omega) with rfl | rfl <;> norm_num [O2.irrepChar, hk] at hsize
    · have hj' : j' = 1 := by omega
      subst hj hj'
      by_contra hne
      have hne' : k ≠ k' := by rintro rfl; exact hne rfl
      -- compare at the angle `π / max k k'`
      wlog hlt : k < k' generalizing k k'
      · refine this k' k hk' hk hok' hok (fun e he => (h e he).symm) hsize.symm hflip.symm (fun h => hne ?_) hne'.symm
          (by omega)
        simpa [eq_comm] using h
      have hk'R : (0 : ℝ) < k' := by exact_mod_cast Nat.pos_of_ne_zero hk'
      have hθ := h (0, π / k') ⟨.inl rfl, by positivity, by
        rw [div_lt_iff₀ hk'R]
        have : (1 : ℝ) ≤ k' := by exact_mod_cast Nat.one_le_iff_ne_zero.2 hk'
        nlinarith⟩
      simp only [O2.irrepChar, hk, hk', if_false] at hθ
      norm_num at hθ
      rw [mul_div_cancel₀ _ hk'R.ne', Real.cos_pi] at hθ
      have hlt' : (k : ℝ) * (π / k') < π := by
        rw [mul_div_assoc', div_lt_iff₀ hk'R]
        have : (k : ℝ) < k' := by exact_mod_cast hlt
        nlinarith
      have h0 : 0 ≤ (k : ℝ) * (π / k') := by positivity
      have := Real.strictAntiOn_cos ⟨h0, hlt'.le⟩ ⟨hpi.le, le_rfl⟩ hlt'
      rw [Real.cos_pi, hθ] at this
      exact lt_irrefl _ this

example : OrthoRep O2.IsElement O2.combine O2.identity 2 (O2.irrepMat 1 5) := (C11_o2_irrep 1 5 (by decide)).1
example : OrthoRep SO2.IsElement SO2.combine SO2.identity 2 (SO2.irrepMat 3) := (C11_so2_irrep 3).1

end Escnn
