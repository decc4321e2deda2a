import Verif.Model.SO2O2
import Verif.Lemmas.Trig
import Mathlib.Analysis.SpecialFunctions.Trigonometric.Angle
import Mathlib.Tactic

/-!
# Reduction of angles modulo `2π` (helper lemmas)
-/

namespace Escnn

open Real NpMat

theorem mod2pi_spec (x : ℝ) : ∃ q : ℤ, mod2pi x = x - q * (2 * π) := by
  refine ⟨toIcoDiv two_pi_pos 0 x, ?_⟩
  have := toIcoMod_add_toIcoDiv_zsmul two_pi_pos 0 x
  simp only [zsmul_eq_mul] at this
  unfold mod2pi; linarith

theorem mod2pi_nonneg (x : ℝ) : 0 ≤ mod2pi x := (toIcoMod_mem_Ico two_pi_pos 0 x).1
theorem mod2pi_lt (x : ℝ) : mod2pi x < 2 * π := by
  have := (toIcoMod_mem_Ico two_pi_pos 0 x).2; simpa [mod2pi] using this

theorem mod2pi_eq_self {x : ℝ} (h0 : 0 ≤ x) (h1 : x < 2 * π) : mod2pi x = x := by
  unfold mod2pi
  rw [toIcoMod_eq_self]
  exact ⟨h0, by simpa using h1⟩

theorem mod2pi_sub (x : ℝ) (q : ℤ) : mod2pi (x - q * (2 * π)) = mod2pi x := by
  unfold mod2pi
  have := toIcoMod_sub_zsmul two_pi_pos 0 x q
  rwa [zsmul_eq_mul] at this

theorem mod2pi_eq_iff {x y : ℝ} : mod2pi x = mod2pi y ↔ ∃ q : ℤ, x = y + q * (2 * π) := by
  constructor
  · intro h
    obtain ⟨q, hq⟩ := mod2pi_spec x
    obtain ⟨r, hr⟩ := mod2pi_spec y
    refine ⟨q - r, ?_⟩
    push_cast; linarith
  · rintro ⟨q, rfl⟩
    have := mod2pi_sub (y + q * (2 * π)) q
    rw [← this]; congr 1; ring

@[simp] theorem mod2pi_mod2pi (x : ℝ) : mod2pi (mod2pi x) = mod2pi x :=
  mod2pi_eq_self (mod2pi_nonneg x) (mod2pi_lt x)

@[simp] theorem mod2pi_zero : mod2pi 0 = 0 := mod2pi_eq_self le_rfl two_pi_pos

theorem coe_mod2pi (x : ℝ) : ((mod2pi x : ℝ) : Real.Angle) = x := Real.Angle.coe_toIcoMod x 0

theorem angle_eq_iff {x y : ℝ} : (x : Real.Angle) = y ↔ mod2pi x = mod2pi y := by
  rw [mod2pi_eq_iff, Real.Angle.angle_eq_iff_two_pi_dvd_sub]
  constructor
  · rintro ⟨k, hk⟩; exact ⟨k, by linarith⟩
  · rintro ⟨k, hk⟩; exact ⟨k, by linarith⟩

theorem mod2pi_add_mod2pi (x y : ℝ) : mod2pi (mod2pi x + mod2pi y) = mod2pi (x + y) := by
  rw [← angle_eq_iff]; simp only [Real.Angle.coe_add, Real.Angle.coe_neg, coe_mod2pi]

theorem mod2pi_neg_mod2pi (x : ℝ) : mod2pi (-mod2pi x) = mod2pi (-x) := by
  rw [← angle_eq_iff]; simp only [Real.Angle.coe_add, Real.Angle.coe_neg, coe_mod2pi]

theorem cos_nat_mul_mod2pi (k : ℕ) (x : ℝ) : cos (k * mod2pi x) = cos (k * x) := by
  obtain ⟨q, hq⟩ := mod2pi_spec x; rw [hq, cos_nat_mul_sub]
theorem sin_nat_mul_mod2pi (k : ℕ) (x : ℝ) : sin (k * mod2pi x) = sin (k * x) := by
  obtain ⟨q, hq⟩ := mod2pi_spec x; rw [hq, sin_nat_mul_sub]

theorem psichi_mod2pi (x : ℝ) (s : ℤ) (k : ℕ) : psichi (mod2pi x) s k = psichi x s k :=
  psichi_congr _ _ (cos_nat_mul_mod2pi _ _) (sin_nat_mul_mod2pi _ _)

/-- Every point of the unit circle is `(cos θ, sin θ)`. -/
theorem exists_angle {a c : ℝ} (h : a * a + c * c = 1) : ∃ θ : ℝ, a = cos θ ∧ c = sin θ := by
  set z : ℂ := ⟨a, c⟩ with hz
  have hn : ‖z‖ = 1 := by
    rw [Complex.norm_def, Complex.normSq_apply]
    simp [hz, h]
  have hz0 : z ≠ 0 := by rw [← norm_ne_zero_iff, hn]; norm_num
  refine ⟨z.arg, ?_, ?_⟩
  · rw [Complex.cos_arg hz0, hn]; simp [hz]
  · rw [Complex.sin_arg, hn]; simp [hz]

end Escnn
