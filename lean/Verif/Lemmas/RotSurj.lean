import Verif.Lemmas.PolePoint
import Mathlib.Analysis.SpecialFunctions.Complex.Arg

/-!
# Every rotation matrix is the matrix of a unit quaternion
-/

namespace Escnn

open Real Matrix Quaternion

/-- A quaternion which moves the pole to a given point. -/
theorem pole_quat {p : Fin 3 → ℝ} (hp : p 0 ^ 2 + p 1 ^ 2 + p 2 ^ 2 = 1) :
    ∃ q : UQuat, normSq q = 1 ∧ ∀ i, rotOf q i 2 = p i := by
  by_cases h : p 2 = -1
  · refine ⟨quat 1 0 0 0, by rw [Quaternion.normSq_def']; simp [quat], ?_⟩
    have h0 : p 0 = 0 := by rw [h] at hp; nlinarith [sq_nonneg (p 0), sq_nonneg (p 1)]
    have h1 : p 1 = 0 := by rw [h] at hp; nlinarith [sq_nonneg (p 0), sq_nonneg (p 1)]
    intro i
    fin_cases i <;> simp [rotOf, quat, h0, h1, h]
  · have hpos : 0 < 1 + p 2 := by
      have h1 : -1 ≤ p 2 := by nlinarith [sq_nonneg (p 0), sq_nonneg (p 1)]
      rcases lt_or_eq_of_le h1 with h2 | h2
      · linarith
      · exact absurd h2.symm h
    obtain ⟨N, hN⟩ : ∃ N, N = √(2 * (1 + p 2)) := ⟨_, rfl⟩
    have hN2 : N ^ 2 = 2 * (1 + p 2) := by rw [hN]; exact sq_sqrt (by positivity)
    have hN0 : N ≠ 0 := by rw [hN]; positivity
    refine ⟨quat (-p 1 / N) (p 0 / N) 0 ((1 + p 2) / N), ?_, ?_⟩
    · rw [Quaternion.normSq_def']
      simp only [quat]
      field_simp
      rw [hN2]
      linear_combination hp
    · intro i
      fin_cases i
      · simp [rotOf, quat]
        field_simp
        rw [hN2]
      · simp [rotOf, quat]
        field_simp
        rw [hN2]
      · simp [rotOf, quat]
        field_simp
        rw [hN2]
        linear_combination -hp

theorem circle_angle {a b : ℝ} (h : a ^ 2 + b ^ 2 = 1) : ∃ t, cos t = a ∧ sin t = b := by
  have hn : ‖(⟨a, b⟩ : ℂ)‖ = 1 := by
    rw [Complex.norm_def, Complex.normSq_apply]
    simp only
    rw [show a * a + b * b = 1 by nlinarith, sqrt_one]
  have h0 : (⟨a, b⟩ : ℂ) ≠ 0 := fun h0 => by rw [h0, norm_zero] at hn; norm_num at hn
  refine ⟨Complex.arg ⟨a, b⟩, ?_, ?_⟩
  · rw [Complex.cos_arg h0, hn, div_one]
  · rw [Complex.sin_arg, hn, div_one]

/-- Every orthogonal matrix of determinant 1 is the matrix of a unit quaternion. -/
theorem rotOf_surj {R : Mat3} (hR : Rᵀ * R = 1) (hd : R.det = 1) : ∃ q : UQuat, normSq q = 1 ∧ rotOf q = R := by
  have col : ∀ i j : Fin 3, R 0 i * R 0 j + R 1 i * R 1 j + R 2 i * R 2 j = (1 : Mat3) i j := by
    intro i j
    have := congrFun (congrFun hR i) j
    rw [Matrix.mul_apply, Fin.sum_univ_three] at this
    exact this
  have hp : R 0 2 ^ 2 + R 1 2 ^ 2 + R 2 2 ^ 2 = 1 := by have := col 2 2; simp at this; linarith
  obtain ⟨q, hq, hq2⟩ := pole_quat (p := fun i => R i 2) hp
  obtain ⟨S, hS⟩ : ∃ S, S = (rotOf q)ᵀ * R := ⟨_, rfl⟩
  have hSo : Sᵀ * S = 1 := by
    rw [hS, Matrix.transpose_mul, Matrix.transpose_transpose, mul_assoc, ← mul_assoc (rotOf q), rotOf_orth hq, one_mul, hR]
  have hSd : S.det = 1 := by
    rw [hS, Matrix.det_mul, Matrix.det_transpose, rotOf_det hq, hd, one_mul]
  have hSz : ∀ i, S i 2 = (1 : Mat3) i 2 := by
    intro i
    have := congrFun (congrFun (rotOf_orth' hq) i) 2
    rw [← this, hS, Matrix.mul_apply, Matrix.mul_apply]
    exact Finset.sum_congr rfl fun j _ => by rw [hq2]
  have s02 : S 0 2 = 0 := by rw [hSz]; simp
  have s12 : S 1 2 = 0 := by rw [hSz]; simp
  have s22 : S 2 2 = 1 := by rw [hSz]; simp
  have c : ∀ i j : Fin 3, S 0 i * S 0 j + S 1 i * S 1 j + S 2 i * S 2 j = (1 : Mat3) i j := by
    intro i j
    have := congrFun (congrFun hSo i) j
    rw [Matrix.mul_apply, Fin.sum_univ_three] at this
    exact this
  have s20 : S 2 0 = 0 := by have := c 0 2; simp [s02, s12, s22] at this; exact this
  have s21 : S 2 1 = 0 := by have := c 1 2; simp [s02, s12, s22] at this; exact this
  have c00 := c 0 0
  have c01 := c 0 1
  have c11 := c 1 1
  simp [s20, s21] at c00 c01 c11
  rw [Matrix.det_fin_three] at hSd
  simp [s02, s12, s22, s20, s21] at hSd
  obtain ⟨t, ht1, ht2⟩ := circle_angle (a := S 0 0) (b := S 1 0) (by nlinarith)
  have s11 : S 1 1 = S 0 0 := by
    linear_combination (-S 1 1) * c00 + S 0 0 * hSd + S 1 0 * c01
  have s01 : S 0 1 = -S 1 0 := by
    linear_combination (-S 0 1) * c00 - S 1 0 * hSd + S 0 0 * c01
  have hSZ : S = rotZ t := by
    ext i j
    fin_cases i <;> fin_cases j <;> simp [rotZ, ht1, ht2, s02, s12, s22, s20, s21, s11, s01]
  refine ⟨q * quat 0 0 (sin (t / 2)) (cos (t / 2)), ?_, ?_⟩
  · rw [map_mul, hq, one_mul, Quaternion.normSq_def']
    simp only [quat]
    nlinarith [sin_sq_add_cos_sq (t / 2)]
  · rw [rotOf_mul, show rotOf (quat 0 0 (sin (t / 2)) (cos (t / 2))) = rotZ t from rotOf_z t, ← hSZ, hS, ← mul_assoc,
      rotOf_orth hq, one_mul]

end Escnn
