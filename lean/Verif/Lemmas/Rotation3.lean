import Verif.Spec.Rotation3
import Mathlib.LinearAlgebra.Matrix.Determinant.Basic
import Mathlib.Analysis.SpecialFunctions.Trigonometric.Angle

/-!
# Lemmas on rotation matrices
-/

namespace Escnn

open Real Matrix Quaternion

theorem Mat3.ext {A B : Mat3} (h : ∀ i j : Fin 3, A i j = B i j) : A = B := by ext i j; exact h i j

theorem rotOf_mul (p q : ℍ[ℝ]) : rotOf (p * q) = rotOf p * rotOf q := by
  ext i j
  fin_cases i <;> fin_cases j <;>
    simp [rotOf, Matrix.mul_apply, Fin.sum_univ_three, Quaternion.re_mul, Quaternion.imI_mul, Quaternion.imJ_mul,
      Quaternion.imK_mul] <;> ring

theorem rotOf_star (q : ℍ[ℝ]) : rotOf (star q) = (rotOf q)ᵀ := by
  ext i j
  fin_cases i <;> fin_cases j <;> simp [rotOf] <;> ring

theorem rotOf_neg (q : ℍ[ℝ]) : rotOf (-q) = rotOf q := by
  ext i j
  fin_cases i <;> fin_cases j <;> simp [rotOf]

theorem rotOf_one : rotOf 1 = 1 := by
  ext i j
  fin_cases i <;> fin_cases j <;> simp [rotOf]

theorem rotOf_orth {q : ℍ[ℝ]} (h : normSq q = 1) : rotOf q * (rotOf q)ᵀ = 1 := by
  rw [← rotOf_star, ← rotOf_mul, Quaternion.self_mul_star, h]
  exact rotOf_one

theorem rotOf_orth' {q : ℍ[ℝ]} (h : normSq q = 1) : (rotOf q)ᵀ * rotOf q = 1 := by
  rw [← rotOf_star, ← rotOf_mul, Quaternion.star_mul_self, h]
  exact rotOf_one

theorem normSq_def' (q : ℍ[ℝ]) : normSq q = q.re ^ 2 + q.imI ^ 2 + q.imJ ^ 2 + q.imK ^ 2 := Quaternion.normSq_def' q

theorem rotOf_det {q : ℍ[ℝ]} (h : normSq q = 1) : (rotOf q).det = 1 := by
  rw [Matrix.det_fin_three]
  simp [rotOf]
  rw [Quaternion.normSq_def'] at h
  have : (q.re ^ 2 + q.imI ^ 2 + q.imJ ^ 2 + q.imK ^ 2) ^ 3 = 1 := by rw [h]; norm_num
  linarith

/-- A unit quaternion without rotation is `±1`. -/
theorem rotOf_eq_one {q : ℍ[ℝ]} (h : normSq q = 1) (he : rotOf q = 1) : q = 1 ∨ q = -1 := by
  rw [Quaternion.normSq_def'] at h
  have h0 := congrFun (congrFun he 0) 0
  have h1 := congrFun (congrFun he 1) 1
  have h2 := congrFun (congrFun he 2) 2
  simp [rotOf] at h0 h1 h2
  have hx : q.imI ^ 2 = 0 := by nlinarith
  have hy : q.imJ ^ 2 = 0 := by nlinarith
  have hz : q.imK ^ 2 = 0 := by nlinarith
  have hw : q.re ^ 2 = 1 := by nlinarith
  rw [pow_eq_zero_iff (by norm_num)] at hx hy hz
  have hw' : (q.re - 1) * (q.re + 1) = 0 := by ring_nf; linarith
  rcases mul_eq_zero.1 hw' with h | h
  · left; ext <;> simp [hx, hy, hz]; linarith
  · right; ext <;> simp [hx, hy, hz]; linarith

/-- Two unit quaternions describe the same rotation exactly when they agree up to the sign. -/
theorem rotOf_eq_iff {p q : ℍ[ℝ]} (hp : normSq p = 1) (hq : normSq q = 1) : rotOf p = rotOf q ↔ p = q ∨ -p = q := by
  constructor
  · intro h
    have e : rotOf (p * star q) = 1 := by rw [rotOf_mul, rotOf_star, h, rotOf_orth hq]
    have hu : normSq (p * star q) = 1 := by rw [map_mul, Quaternion.normSq_star, hp, hq, one_mul]
    have hs : star q * q = 1 := by rw [Quaternion.star_mul_self, hq]; rfl
    rcases rotOf_eq_one hu e with h | h
    · left
      calc p = p * (star q * q) := by rw [hs, mul_one]
        _ = q := by rw [← mul_assoc, h, one_mul]
    · right
      calc -p = -(p * (star q * q)) := by rw [hs, mul_one]
        _ = q := by rw [← mul_assoc, h]; exact (congrArg Neg.neg (neg_one_mul q)).trans (neg_neg q)
  · rintro (rfl | rfl)
    · rfl
    · rw [rotOf_neg]

theorem rotZ_add (a b : ℝ) : rotZ (a + b) = rotZ a * rotZ b := by
  ext i j
  fin_cases i <;> fin_cases j <;> simp [rotZ, Matrix.mul_apply, Fin.sum_univ_three, cos_add, sin_add] <;> ring

theorem rotZ_zero : rotZ 0 = 1 := by
  ext i j
  fin_cases i <;> fin_cases j <;> simp [rotZ]

theorem rotZ_transpose (a : ℝ) : (rotZ a)ᵀ = rotZ (-a) := by
  ext i j
  fin_cases i <;> fin_cases j <;> simp [rotZ]

theorem rotZ_periodic (a : ℝ) (k : ℤ) : rotZ (a + k * (2 * π)) = rotZ a := by
  simp only [rotZ, cos_add_int_mul_two_pi, sin_add_int_mul_two_pi]

theorem flipX_rotZ (a : ℝ) : flipX * rotZ a = rotZ (-a) * flipX := by
  ext i j
  fin_cases i <;> fin_cases j <;> simp [rotZ, flipX, Matrix.mul_apply, Fin.sum_univ_three]

theorem mirrorY_rotZ (a : ℝ) : mirrorY * rotZ a = rotZ (-a) * mirrorY := by
  ext i j
  fin_cases i <;> fin_cases j <;> simp [rotZ, mirrorY, Matrix.mul_apply, Fin.sum_univ_three]

theorem flipX_flipX : flipX * flipX = 1 := by
  ext i j
  fin_cases i <;> fin_cases j <;> simp [flipX, Matrix.mul_apply, Fin.sum_univ_three]

theorem mirrorY_mirrorY : mirrorY * mirrorY = 1 := by
  ext i j
  fin_cases i <;> fin_cases j <;> simp [mirrorY, Matrix.mul_apply, Fin.sum_univ_three]

theorem rotZ_det (a : ℝ) : (rotZ a).det = 1 := by
  rw [Matrix.det_fin_three]
  simp [rotZ]
  nlinarith [sin_sq_add_cos_sq a]

/-- Rotations around the Z axis agree exactly when the angles do, up to full turns. -/
theorem rotZ_inj {a b : ℝ} : rotZ a = rotZ b ↔ ∃ k : ℤ, a = b + k * (2 * π) := by
  constructor
  · intro h
    have hc : cos a = cos b := by simpa [rotZ] using congrFun (congrFun h 0) 0
    have hs : sin a = sin b := by simpa [rotZ] using congrFun (congrFun h 1) 0
    have := (Real.Angle.angle_eq_iff_two_pi_dvd_sub (ψ := b) (θ := a)).1 (Real.Angle.cos_sin_inj hc hs)
    obtain ⟨k, hk⟩ := this
    exact ⟨k, by linarith⟩
  · rintro ⟨k, rfl⟩
    exact rotZ_periodic b k

/-- The quaternion of the rotation by `θ` around Z. -/
theorem rotOf_z (θ : ℝ) : rotOf ⟨cos (θ / 2), 0, 0, sin (θ / 2)⟩ = rotZ θ := by
  have hc : cos θ = cos (θ / 2) ^ 2 - sin (θ / 2) ^ 2 := by
    rw [← cos_two_mul' (θ / 2)]; ring_nf
  have hs : sin θ = 2 * sin (θ / 2) * cos (θ / 2) := by
    rw [← sin_two_mul (θ / 2)]; ring_nf
  have h1 := sin_sq_add_cos_sq (θ / 2)
  ext i j
  fin_cases i <;> fin_cases j <;> simp [rotOf, rotZ, hc, hs] <;> linarith

/-- The quaternion of the rotation by `π` around the axis `(cos (θ/2), sin (θ/2), 0)`. -/
theorem rotOf_flip (θ : ℝ) : rotOf ⟨0, cos (θ / 2), sin (θ / 2), 0⟩ = rotZ θ * flipX := by
  have hc : cos θ = cos (θ / 2) ^ 2 - sin (θ / 2) ^ 2 := by
    rw [← cos_two_mul' (θ / 2)]; ring_nf
  have hs : sin θ = 2 * sin (θ / 2) * cos (θ / 2) := by
    rw [← sin_two_mul (θ / 2)]; ring_nf
  have h1 := sin_sq_add_cos_sq (θ / 2)
  ext i j
  fin_cases i <;> fin_cases j <;> simp [rotOf, rotZ, flipX, hc, hs, Matrix.mul_apply, Fin.sum_univ_three] <;> linarith

end Escnn
