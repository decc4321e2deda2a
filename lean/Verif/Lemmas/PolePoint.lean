import Verif.Model.Subgroups3
import Verif.Lemmas.Rotation3
import Mathlib.LinearAlgebra.Matrix.Adjugate
import Mathlib.Tactic.LinearCombination

/-!
# The rotation which moves the pole to a point
-/

namespace Escnn

open Real Matrix Quaternion

theorem norm3_sq (v : Fin 3 → ℝ) : norm3 v ^ 2 = v 0 ^ 2 + v 1 ^ 2 + v 2 ^ 2 := sq_sqrt (by positivity)

theorem norm3_nonneg (v : Fin 3 → ℝ) : 0 ≤ norm3 v := sqrt_nonneg _

theorem unit_div {v : Fin 3 → ℝ} (h : v 0 ^ 2 + v 1 ^ 2 + v 2 ^ 2 ≠ 0) :
    (v 0 / norm3 v) ^ 2 + (v 1 / norm3 v) ^ 2 + (v 2 / norm3 v) ^ 2 = 1 := by
  have h1 : norm3 v ^ 2 ≠ 0 := by rw [norm3_sq]; exact h
  rw [div_pow, div_pow, div_pow, ← add_div, ← add_div, ← norm3_sq]
  exact div_self h1

/-- Rows, columns and cofactors of a rotation. -/
theorem frame {v p : Fin 3 → ℝ} (hp : p 0 ^ 2 + p 1 ^ 2 + p 2 ^ 2 = 1) (hv : v 0 ^ 2 + v 1 ^ 2 + v 2 ^ 2 = 1)
    (hvp : v 0 * p 0 + v 1 * p 1 + v 2 * p 2 = 0) :
    (ofCols (p ⨯₃ v) v p).det = -1 ∧ (ofCols (fun i => (p ⨯₃ v) i * -1) v p).det = 1 ∧
      (ofCols (fun i => (p ⨯₃ v) i * -1) v p)ᵀ * ofCols (fun i => (p ⨯₃ v) i * -1) v p = 1 := by
  have key : (p 1 * v 2 - p 2 * v 1) ^ 2 + (p 2 * v 0 - p 0 * v 2) ^ 2 + (p 0 * v 1 - p 1 * v 0) ^ 2 = 1 := by
    linear_combination (v 0 ^ 2 + v 1 ^ 2 + v 2 ^ 2) * hp + hv - (v 0 * p 0 + v 1 * p 1 + v 2 * p 2) * hvp
  refine ⟨?_, ?_, ?_⟩
  · rw [Matrix.det_fin_three]
    simp [ofCols, crossProduct]
    linear_combination -key
  · rw [Matrix.det_fin_three]
    simp [ofCols, crossProduct]
    linear_combination key
  · ext i j
    fin_cases i <;> fin_cases j <;>
      simp [ofCols, crossProduct, Matrix.mul_apply, Fin.sum_univ_three]
    · linear_combination key
    · ring
    · ring
    · ring
    · linear_combination hv
    · linear_combination hvp
    · ring
    · linear_combination hvp
    · linear_combination hp

/-- The angle between a unit vector and the helper vector is not zero. -/
theorem helper_ne {p : Fin 3 → ℝ} (hp : p 0 ^ 2 + p 1 ^ 2 + p 2 ^ 2 = 1) (y : Fin 3 → ℝ)
    (hy : y = if |(|p 2|) - 1| ≤ 1 / 10 ^ 8 + 1 / 10 ^ 5 then ![1, 0, 0] else ![0, 0, 1]) :
    y 0 ^ 2 + y 1 ^ 2 + y 2 ^ 2 = 1 ∧ (y ⬝ᵥ p) ^ 2 ≠ 1 := by
  by_cases h : |(|p 2|) - 1| ≤ 1 / 10 ^ 8 + 1 / 10 ^ 5
  · rw [if_pos h] at hy
    subst hy
    refine ⟨by simp, ?_⟩
    simp only [dotProduct, Fin.sum_univ_three]
    have h1 := abs_le.1 h
    have h2 : (9 / 10 : ℝ) ≤ |p 2| := by norm_num at h1 ⊢; linarith [h1.1]
    have h3 : p 2 ^ 2 = |p 2| ^ 2 := (sq_abs _).symm
    intro h4
    simp at h4
    have h5 : p 0 ^ 2 = 1 := by rcases h4 with h5 | h5 <;> rw [h5] <;> norm_num
    nlinarith [sq_nonneg (p 1)]
  · rw [if_neg h] at hy
    subst hy
    refine ⟨by simp, ?_⟩
    simp only [dotProduct, Fin.sum_univ_three]
    intro h4
    apply h
    simp at h4
    rcases h4 with h4 | h4 <;> rw [h4] <;> norm_num

/-- The entries of a rotation are its cofactors. -/
theorem rotation_cofactor {R : Mat3} (hR : Rᵀ * R = 1) (hd : R.det = 1) : R.adjugate = Rᵀ := by
  have h := Matrix.adjugate_mul R
  rw [hd, one_smul] at h
  have h2 : R * Rᵀ = 1 := mul_eq_one_comm.1 hR
  calc R.adjugate = R.adjugate * (R * Rᵀ) := by rw [h2, mul_one]
    _ = Rᵀ := by rw [← mul_assoc, h, one_mul]

/-- The rotation by `θ` around the image of the pole. -/
theorem rotation_axis {R : Mat3} (hR : Rᵀ * R = 1) (hd : R.det = 1) (θ : ℝ) :
    R * rotZ θ * Rᵀ = rotOf (quat (R 0 2 * sin (θ / 2)) (R 1 2 * sin (θ / 2)) (R 2 2 * sin (θ / 2)) (cos (θ / 2))) := by
  have hadj := rotation_cofactor hR hd
  have hRR : R * Rᵀ = 1 := mul_eq_one_comm.1 hR
  rw [Matrix.adjugate_fin_three] at hadj
  have a20 := congrFun (congrFun hadj 2) 0
  have a21 := congrFun (congrFun hadj 2) 1
  have a22 := congrFun (congrFun hadj 2) 2
  simp at a20 a21 a22
  have o : ∀ i j : Fin 3, R i 0 * R j 0 + R i 1 * R j 1 + R i 2 * R j 2 = (1 : Mat3) i j := by
    intro i j
    have := congrFun (congrFun hRR i) j
    rw [Matrix.mul_apply, Fin.sum_univ_three] at this
    exact this
  have u : R 0 2 * R 0 2 + R 1 2 * R 1 2 + R 2 2 * R 2 2 = 1 := by
    have := congrFun (congrFun hR 2) 2
    rw [Matrix.mul_apply, Fin.sum_univ_three] at this
    simpa using this
  have o00 := o 0 0
  have o01 := o 0 1
  have o02 := o 0 2
  have o11 := o 1 1
  have o12 := o 1 2
  have o22 := o 2 2
  simp at o00 o01 o02 o11 o12 o22
  have hc : cos θ = cos (θ / 2) ^ 2 - sin (θ / 2) ^ 2 := by
    rw [← cos_two_mul']; congr 1; ring
  have hs : sin θ = 2 * sin (θ / 2) * cos (θ / 2) := by
    rw [← sin_two_mul]; congr 1; ring
  have h1 := sin_sq_add_cos_sq (θ / 2)
  obtain ⟨c, hcc⟩ : ∃ c, c = cos (θ / 2) := ⟨_, rfl⟩
  obtain ⟨s, hss⟩ : ∃ s, s = sin (θ / 2) := ⟨_, rfl⟩
  rw [← hcc, ← hss] at hc hs h1 ⊢
  ext i j
  fin_cases i <;> fin_cases j <;>
    simp only [rotZ, rotOf, quat, Matrix.mul_apply, Fin.sum_univ_three, Matrix.transpose_apply, Matrix.of_apply,
      Matrix.cons_val_zero, Matrix.cons_val_one, Matrix.cons_val, hc, hs, Fin.zero_eta, Fin.mk_one, Fin.reduceFinMk,
      Matrix.cons_val', Matrix.cons_val_fin_one]
  · linear_combination (c ^ 2 - s ^ 2) * o00 + (-R 0 2 ^ 2) * h1 + s ^ 2 * u
  · linear_combination (c ^ 2 - s ^ 2) * o01 + (-R 0 2 * R 1 2) * h1 - 2 * s * c * a22
  · linear_combination (c ^ 2 - s ^ 2) * o02 + (-R 0 2 * R 2 2) * h1 + 2 * s * c * a21
  · linear_combination (c ^ 2 - s ^ 2) * o01 + (-R 0 2 * R 1 2) * h1 + 2 * s * c * a22
  · linear_combination (c ^ 2 - s ^ 2) * o11 + (-R 1 2 ^ 2) * h1 + s ^ 2 * u
  · linear_combination (c ^ 2 - s ^ 2) * o12 + (-R 1 2 * R 2 2) * h1 - 2 * s * c * a20
  · linear_combination (c ^ 2 - s ^ 2) * o02 + (-R 0 2 * R 2 2) * h1 - 2 * s * c * a21
  · linear_combination (c ^ 2 - s ^ 2) * o12 + (-R 1 2 * R 2 2) * h1 + 2 * s * c * a20
  · linear_combination (c ^ 2 - s ^ 2) * o22 + (-R 2 2 ^ 2) * h1 + s ^ 2 * u

/-- `find_rotation_pole2point` does not fail on a point other than the origin, and returns a rotation which moves the pole
in the direction of the point. -/
theorem poleToPoint_spec {point : Fin 3 → ℝ} (h : point ≠ 0) :
    ∃ R, poleToPoint point = .ok R ∧ Rᵀ * R = 1 ∧ R.det = 1 ∧ ∀ i, R i 2 = point i / norm3 point := by
  have hne : point 0 ^ 2 + point 1 ^ 2 + point 2 ^ 2 ≠ 0 := by
    intro h0
    apply h
    have a0 : point 0 = 0 := by nlinarith [sq_nonneg (point 0), sq_nonneg (point 1), sq_nonneg (point 2)]
    have a1 : point 1 = 0 := by nlinarith [sq_nonneg (point 0), sq_nonneg (point 1), sq_nonneg (point 2)]
    have a2 : point 2 = 0 := by nlinarith [sq_nonneg (point 0), sq_nonneg (point 1), sq_nonneg (point 2)]
    funext i; fin_cases i <;> assumption
  obtain ⟨p, hp⟩ : ∃ p : Fin 3 → ℝ, p = fun i => point i / norm3 point := ⟨_, rfl⟩
  have hpu : p 0 ^ 2 + p 1 ^ 2 + p 2 ^ 2 = 1 := by rw [hp]; exact unit_div hne
  obtain ⟨y, hy⟩ : ∃ y : Fin 3 → ℝ, y = if |(|p 2|) - 1| ≤ 1 / 10 ^ 8 + 1 / 10 ^ 5 then ![1, 0, 0] else ![0, 0, 1] :=
    ⟨_, rfl⟩
  obtain ⟨hyu, hyp⟩ := helper_ne hpu y hy
  obtain ⟨w, hw⟩ : ∃ w : Fin 3 → ℝ, w = fun i => y i - (y ⬝ᵥ p) * p i := ⟨_, rfl⟩
  have hd : y ⬝ᵥ p = y 0 * p 0 + y 1 * p 1 + y 2 * p 2 := by simp [dotProduct, Fin.sum_univ_three]
  have hwn : w 0 ^ 2 + w 1 ^ 2 + w 2 ^ 2 ≠ 0 := by
    have : w 0 ^ 2 + w 1 ^ 2 + w 2 ^ 2 = 1 - (y ⬝ᵥ p) ^ 2 := by
      rw [hw]
      linear_combination hyu + (y ⬝ᵥ p) ^ 2 * hpu + 2 * (y ⬝ᵥ p) * hd
    rw [this]
    intro h0
    exact hyp (by linarith)
  obtain ⟨v, hv⟩ : ∃ v : Fin 3 → ℝ, v = fun i => w i / norm3 w := ⟨_, rfl⟩
  have hvu : v 0 ^ 2 + v 1 ^ 2 + v 2 ^ 2 = 1 := by rw [hv]; exact unit_div hwn
  have hvp : v 0 * p 0 + v 1 * p 1 + v 2 * p 2 = 0 := by
    have : w 0 * p 0 + w 1 * p 1 + w 2 * p 2 = 0 := by
      rw [hw]
      linear_combination -hd - (y ⬝ᵥ p) * hpu
    rw [hv]
    calc _ = (w 0 * p 0 + w 1 * p 1 + w 2 * p 2) / norm3 w := by ring
      _ = 0 := by rw [this, zero_div]
  obtain ⟨h1, h2, h3⟩ := frame hpu hvu hvp
  refine ⟨ofCols (fun i => (p ⨯₃ v) i * -1) v p, ?_, h3, h2, ?_⟩
  · have e : ∀ d, (ofCols (p ⨯₃ v) v p).det = d → (ofCols (fun i => (p ⨯₃ v) i * d) v p).det = 1 →
        poleToPoint point = .ok (ofCols (fun i => (p ⨯₃ v) i * d) v p) := by
      rintro d rfl hd
      subst hv; subst hw; subst hy; subst hp
      exact if_pos hd
    exact e _ h1 h2
  · intro i
    simp [ofCols, hp]

end Escnn
