import Verif.Lemmas.Angle

/-!
# The tolerance test `cycle_isclose` (helper lemmas)
-/

namespace Escnn

open Real

theorem fmod_spec {S : ℝ} (hS : 0 < S) (x : ℝ) :
    0 ≤ fmod x S ∧ fmod x S < S ∧ fmod x S = x - (⌊x / S⌋ : ℤ) * S := by
  have h1 := toIcoMod_mem_Ico hS 0 x
  have h2 : fmod x S = toIcoMod hS 0 x := by simp [fmod, hS]
  rw [h2]
  refine ⟨h1.1, by simpa using h1.2, ?_⟩
  have := toIcoMod_add_toIcoDiv_zsmul hS 0 x
  rw [toIcoDiv_eq_floor] at this
  simp only [zsmul_eq_mul, sub_zero] at this
  linarith

/-- Everything within `1e-11` of a multiple of `S` passes the test. -/
theorem cycleIsclose_of {a b S : ℝ} (hS : 0 < S) (k : ℤ) (h : |a - b - k * S| ≤ 1 / 10 ^ 11) : cycleIsclose a b S := by
  obtain ⟨h0, h1, h2⟩ := fmod_spec hS (a - b)
  set d := fmod (a - b) S with hd
  set m := ⌊(a - b) / S⌋
  rw [abs_le] at h
  by_cases hle : k ≤ m
  · left
    refine ⟨?_, h0⟩
    have : (k : ℝ) ≤ m := by exact_mod_cast hle
    have h3 : d ≤ 1 / 10 ^ 11 := by nlinarith
    refine le_max_of_le_right ?_
    rw [sub_zero, abs_of_nonneg h0]; exact h3
  · right
    refine ⟨?_, h1.le⟩
    have : (m : ℝ) + 1 ≤ k := by exact_mod_cast (by omega : m + 1 ≤ k)
    have h3 : S - d ≤ 1 / 10 ^ 11 := by nlinarith
    refine le_max_of_le_right ?_
    rw [← hd, abs_of_nonpos (by linarith)]; linarith

theorem cycleIsclose_of_eq {a b S : ℝ} (hS : 0 < S) (k : ℤ) (h : a - b = k * S) : cycleIsclose a b S :=
  cycleIsclose_of hS k (by rw [h]; simp)

/-- Everything that passes the test is within `max (1e-9 S) 1e-11` of a multiple of `S`. -/
theorem cycleIsclose_imp {a b S : ℝ} (hS : 0 < S) (h : cycleIsclose a b S) :
    ∃ k : ℤ, |a - b - k * S| ≤ max (1 / 10 ^ 9 * S) (1 / 10 ^ 11) := by
  obtain ⟨h0, h1, h2⟩ := fmod_spec hS (a - b)
  unfold cycleIsclose at h
  simp only at h
  set d := fmod (a - b) S with hd
  set m := ⌊(a - b) / S⌋
  rcases h with ⟨hc, _⟩ | ⟨hc, _⟩
  · refine ⟨m, ?_⟩
    rw [← h2]
    unfold isclose at hc
    rw [sub_zero] at hc
    have hd' : |d| ≤ S := by rw [abs_of_nonneg h0]; exact h1.le
    refine hc.trans (max_le_max ?_ le_rfl)
    have : max |d| |0| ≤ S := max_le hd' (by simpa using hS.le)
    exact mul_le_mul_of_nonneg_left this (by norm_num)
  · refine ⟨m + 1, ?_⟩
    have : a - b - ((m + 1 : ℤ) : ℝ) * S = d - S := by rw [h2]; push_cast; ring
    rw [this]
    unfold isclose at hc
    refine hc.trans (max_le_max ?_ le_rfl)
    have : max |d| |S| ≤ S := max_le (by rw [abs_of_nonneg h0]; exact h1.le) (by rw [abs_of_pos hS])
    exact mul_le_mul_of_nonneg_left this (by norm_num)

theorem mod2pi_mul_div_eq {M : ℕ} (hM : 0 < M) {e : ℤ} (h0 : 0 ≤ e) (h1 : e < M) :
    mod2pi (e * 2 * π / M) = e * 2 * π / M := by
  have hM' : (0 : ℝ) < M := by exact_mod_cast hM
  have h0' : (0 : ℝ) ≤ e := by exact_mod_cast h0
  have h1' : (e : ℝ) < M := by exact_mod_cast h1
  have hpi := pi_pos
  refine mod2pi_eq_self (by positivity) ?_
  rw [div_lt_iff₀ hM']; nlinarith

end Escnn
