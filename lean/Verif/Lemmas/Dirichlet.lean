import Verif.Lemmas.Core3

/-!
# The trace of the harmonics and the Dirichlet kernel
-/

namespace Escnn

open Real NpMat Quaternion
open scoped Matrix

/-- The trace of the rotation by `θ` on the harmonics of degree `l`. -/
noncomputable def dirichlet (l : ℕ) (θ : ℝ) : ℝ := ∑ i ∈ Finset.range (2 * l + 1), cos (((l : ℝ) - i) * θ)

theorem dirichlet_zero (θ : ℝ) : dirichlet 0 θ = 1 := by simp [dirichlet]

theorem dirichlet_succ (l : ℕ) (θ : ℝ) : dirichlet (l + 1) θ = dirichlet l θ + 2 * cos ((l + 1) * θ) := by
  unfold dirichlet
  rw [show 2 * (l + 1) + 1 = (2 * l + 1 + 1) + 1 by ring, Finset.sum_range_succ, Finset.sum_range_succ']
  have e1 : ∑ k ∈ Finset.range (2 * l + 1), cos ((((l + 1 : ℕ) : ℝ) - ((k + 1 : ℕ) : ℝ)) * θ) =
      ∑ i ∈ Finset.range (2 * l + 1), cos (((l : ℝ) - i) * θ) :=
    Finset.sum_congr rfl fun k _ => by congr 2; push_cast; ring
  have e2 : cos ((((l + 1 : ℕ) : ℝ) - ((2 * l + 1 + 1 : ℕ) : ℝ)) * θ) = cos ((l + 1) * θ) := by
    rw [← cos_neg]; congr 1; push_cast; ring
  have e3 : cos ((((l + 1 : ℕ) : ℝ) - ((0 : ℕ) : ℝ)) * θ) = cos ((l + 1) * θ) := by congr 1; push_cast; ring
  rw [e1, e2, e3]; ring

theorem dirichlet_sin (l : ℕ) (θ : ℝ) : dirichlet l θ * sin (1 / 2 * θ) = sin ((l + 1 / 2) * θ) := by
  induction l with
  | zero => rw [dirichlet_zero]; simp
  | succ l ih =>
    rw [dirichlet_succ, add_mul, ih]
    have e1 : sin (((l + 1 : ℕ) + 1 / 2) * θ) = sin ((l + 1) * θ) * cos (1 / 2 * θ) + cos ((l + 1) * θ) * sin (1 / 2 * θ) := by
      rw [← sin_add]; congr 1; push_cast; ring
    have e2 : sin ((l + 1 / 2) * θ) = sin ((l + 1) * θ) * cos (1 / 2 * θ) - cos ((l + 1) * θ) * sin (1 / 2 * θ) := by
      rw [← sin_sub]; congr 1; ring
    rw [e1, e2]; ring

theorem abs_sin_nat_mul (n : ℕ) (x : ℝ) : |sin (n * x)| ≤ n * |sin x| := by
  induction n with
  | zero => simp
  | succ n ih =>
    have e : sin ((n + 1 : ℕ) * x) = sin (n * x) * cos x + cos (n * x) * sin x := by rw [← sin_add]; congr 1; push_cast; ring
    rw [e]
    have h1 : |sin (n * x) * cos x| ≤ |sin (n * x)| := by
      rw [abs_mul]; exact mul_le_of_le_one_right (abs_nonneg _) (abs_cos_le_one _)
    have h2 : |cos (n * x) * sin x| ≤ |sin x| := by
      rw [abs_mul]; exact mul_le_of_le_one_left (abs_nonneg _) (abs_cos_le_one _)
    have := abs_add_le (sin (n * x) * cos x) (cos (n * x) * sin x)
    push_cast
    linarith

/-- Close to the identity the trace is close to the dimension. -/
theorem dirichlet_near {θ δ : ℝ} (h : |sin (1 / 2 * θ)| ≤ δ) (l : ℕ) :
    0 ≤ 2 * l + 1 - dirichlet l θ ∧ 2 * l + 1 - dirichlet l θ ≤ 2 / 3 * (l * (l + 1) * (2 * l + 1)) * δ ^ 2 := by
  induction l with
  | zero => rw [dirichlet_zero]; simp
  | succ l ih =>
    rw [dirichlet_succ]
    have e : 1 - cos ((l + 1) * θ) = 2 * sin ((l + 1 : ℕ) * (1 / 2 * θ)) ^ 2 := by
      rw [show ((l : ℝ) + 1) * θ = 2 * ((l + 1 : ℕ) * (1 / 2 * θ)) by push_cast; ring, cos_two_mul, cos_sq']; ring
    have h1 := abs_sin_nat_mul (l + 1) (1 / 2 * θ)
    have h2 : |sin ((l + 1 : ℕ) * (1 / 2 * θ))| ≤ ((l + 1 : ℕ) : ℝ) * δ :=
      h1.trans (mul_le_mul_of_nonneg_left h (by positivity))
    have h3 : sin ((l + 1 : ℕ) * (1 / 2 * θ)) ^ 2 ≤ (((l + 1 : ℕ) : ℝ) * δ) ^ 2 := by
      rw [← sq_abs]; exact pow_le_pow_left₀ (abs_nonneg _) h2 2
    push_cast at *
    constructor
    · nlinarith [ih.1, sq_nonneg (sin ((l + 1) * (1 / 2 * θ)))]
    · nlinarith [ih.2]

theorem dirichlet_two_cos {J k : ℕ} (h : k ≤ J) (θ : ℝ) :
    2 * cos (k * θ) * dirichlet J θ = dirichlet (J + k) θ + dirichlet (J - k) θ := by
  by_cases hs : sin (1 / 2 * θ) = 0
  · have hd : ∀ l : ℕ, dirichlet l θ = 2 * l + 1 := by
      intro l
      have := dirichlet_near (δ := 0) (by rw [hs, abs_zero]) l
      norm_num at this
      linarith [this.1, this.2]
    have hc : cos (k * θ) = 1 := by
      have h1 := abs_sin_nat_mul k (1 / 2 * θ)
      rw [hs, abs_zero, mul_zero] at h1
      have h2 : sin (k * (1 / 2 * θ)) = 0 := abs_eq_zero.1 (le_antisymm h1 (abs_nonneg _))
      rw [show (k : ℝ) * θ = 2 * (k * (1 / 2 * θ)) by ring, cos_two_mul, cos_sq', h2]; norm_num
    rw [hd, hd, hd, hc]; push_cast [h]; ring
  · apply mul_right_cancel₀ hs
    rw [add_mul, dirichlet_sin, dirichlet_sin, mul_assoc, dirichlet_sin]
    have e1 : sin (((J + k : ℕ) + 1 / 2) * θ) = sin ((J + 1 / 2) * θ) * cos (k * θ) + cos ((J + 1 / 2) * θ) * sin (k * θ) := by
      rw [← sin_add]; congr 1; push_cast; ring
    have e2 : sin (((J - k : ℕ) + 1 / 2) * θ) = sin ((J + 1 / 2) * θ) * cos (k * θ) - cos ((J + 1 / 2) * θ) * sin (k * θ) := by
      rw [← sin_sub]; congr 1; push_cast [h]; ring
    rw [e1, e2]; ring

theorem dirichlet_mul {J l : ℕ} (h : l ≤ J) (θ : ℝ) :
    dirichlet J θ * dirichlet l θ = ((List.range' (J - l) (2 * l + 1)).map fun j => dirichlet j θ).sum := by
  induction l with
  | zero => simp [dirichlet_zero]
  | succ l ih =>
    rw [dirichlet_succ, mul_add, ih (by omega)]
    have e := dirichlet_two_cos (k := l + 1) (J := J) h θ
    push_cast at e
    rw [show dirichlet J θ * (2 * cos ((l + 1) * θ)) = 2 * cos ((l + 1) * θ) * dirichlet J θ by ring, e,
      show 2 * (l + 1) + 1 = (2 * l + 1 + 1) + 1 by ring, List.range'_succ (n := 2 * l + 1 + 1), List.range'_1_concat (n := 2 * l + 1), List.map_cons, List.map_append,
      List.sum_cons, List.sum_append, show J - (l + 1) + 1 = J - l by omega, show J - l + (2 * l + 1) = J + (l + 1) by omega]
    simp; ring

/-! ### The trace of a Wigner matrix -/

theorem trace_congr' {A B : NpMat ℝ} (h : A ≈ B) (hs : A.rows = A.cols) : trace A = trace B := by
  unfold trace
  rw [← h.1]
  exact Finset.sum_congr rfl fun i hi => h.2.2 i i (Finset.mem_range.1 hi) (by rw [← hs]; exact Finset.mem_range.1 hi)

theorem trace_mul_comm' {A B : NpMat ℝ} {n : ℕ} (hA : A.rows = n ∧ A.cols = n) (hB : B.rows = n ∧ B.cols = n) :
    trace (mul A B) = trace (mul B A) := by
  simp only [trace, mul, hA.1, hA.2, hB.1, hB.2]
  rw [Finset.sum_comm]
  exact Finset.sum_congr rfl fun i _ => Finset.sum_congr rfl fun j _ => mul_comm _ _

/-- Every rotation is conjugate to one around Z by the angle `2 arctan2(|v|, w)`. -/
theorem exists_axis {e : UQuat} (he : normSq e = 1) : ∃ p z : UQuat, normSq p = 1 ∧ normSq z = 1 ∧ e * p = p * z ∧
    rotOf z = rotZ (2 * arctan2 (√(e.imI ^ 2 + e.imJ ^ 2 + e.imK ^ 2)) e.re) := by
  obtain ⟨n, hn⟩ : ∃ n, n = √(e.imI ^ 2 + e.imJ ^ 2 + e.imK ^ 2) := ⟨_, rfl⟩
  have hn0 : 0 ≤ n := hn ▸ sqrt_nonneg _
  have hn2 : n ^ 2 = e.imI ^ 2 + e.imJ ^ 2 + e.imK ^ 2 := by rw [hn, sq_sqrt]; positivity
  rw [← hn]
  have hz : normSq (quat 0 0 n e.re) = 1 := by
    rw [SO3.normSq_quat]; rw [Quaternion.normSq_def'] at he; nlinarith
  have hrz : rotOf (quat 0 0 n e.re) = rotZ (2 * arctan2 n e.re) := SO3.z_spec hz ⟨rfl, rfl⟩
  have hk : e.imK ^ 2 ≤ n ^ 2 := by rw [hn2]; nlinarith [sq_nonneg e.imI, sq_nonneg e.imJ]
  have hk' := abs_le_of_sq_le_sq' hk hn0
  obtain ⟨p, hp, hep⟩ : ∃ p : UQuat, 0 < normSq p ∧ e * p = p * quat 0 0 n e.re := by
    by_cases h : n + e.imK = 0
    · have hxy : e.imI = 0 ∧ e.imJ = 0 := by
        have : e.imK = -n := by linarith
        rw [this] at hn2
        constructor <;> nlinarith [sq_nonneg e.imI, sq_nonneg e.imJ]
      refine ⟨quat 1 0 0 0, by rw [SO3.normSq_quat]; norm_num, ?_⟩
      have : e.imK = -n := by linarith
      ext <;> simp only [Quaternion.re_mul, Quaternion.imI_mul, Quaternion.imJ_mul, Quaternion.imK_mul] <;>
        simp [quat, hxy.1, hxy.2, this]
    · refine ⟨quat (-e.imJ) e.imI 0 (n + e.imK), ?_, ?_⟩
      · rw [SO3.normSq_quat]
        have : 0 < n + e.imK := lt_of_le_of_ne (by linarith [hk'.1]) (Ne.symm h)
        positivity
      · ext <;> simp only [Quaternion.re_mul, Quaternion.imI_mul, Quaternion.imJ_mul, Quaternion.imK_mul] <;>
          simp only [quat] <;> nlinarith
  have hs : 0 < √(normSq p) := sqrt_pos.2 hp
  refine ⟨(√(normSq p))⁻¹ • p, _, ?_, hz, ?_, hrz⟩
  · rw [Quaternion.normSq_smul, inv_pow, sq_sqrt hp.le, inv_mul_cancel₀ hp.ne']
  · have h2 : e * ((√(normSq p))⁻¹ • p) = (√(normSq p))⁻¹ • (e * p) := by
      ext <;> simp [Quaternion.re_mul, Quaternion.imI_mul, Quaternion.imJ_mul, Quaternion.imK_mul] <;> ring
    rw [h2, hep]
    ext <;> simp [Quaternion.re_mul, Quaternion.imI_mul, Quaternion.imJ_mul, Quaternion.imK_mul] <;> ring

theorem trace_zRot (l : ℕ) (θ : ℝ) : trace (zRot l θ) = dirichlet l θ := by
  simp [trace, zRot, dirichlet]

/-- The trace of a Wigner matrix is the Dirichlet kernel of the angle of the rotation. -/
theorem Wigner.trace {l : ℕ} {D : ℍ[ℝ] → NpMat ℝ} (hD : Wigner l D) {e : UQuat} (he : normSq e = 1) :
    NpMat.trace (D e) = dirichlet l (2 * arctan2 (√(e.imI ^ 2 + e.imJ ^ 2 + e.imK ^ 2)) e.re) := by
  obtain ⟨p, z, hp, hz, hep, hrz⟩ := exists_axis he
  have hsp : normSq (star p) = 1 := by rw [normSq_star, hp]
  have hpp : star p * p = 1 := by rw [Quaternion.star_mul_self, hp]; simp
  have hR := SO3.wigner_rep hD
  have e1 : D z ≈ NpMat.mul (D (star p * e)) (D p) :=
    hR.hom _ _ _ (by rw [map_mul, hsp, he, one_mul]) hp hz (by
      rw [← rotOf_mul, mul_assoc, hep, ← mul_assoc, hpp, one_mul])
  have hse : normSq (star p * e) = 1 := by rw [map_mul, hsp, he, one_mul]
  have e2 : D e ≈ NpMat.mul (D p) (D (star p * e)) :=
    hR.hom _ _ _ hp hse he (by
      rw [← rotOf_mul, ← mul_assoc, Quaternion.self_mul_star, hp]; simp)
  have s1 := hD.rows _ hp
  have s2 := hD.cols _ hp
  have s3 := hD.rows _ hse
  have s4 := hD.cols _ hse
  rw [trace_congr' e2 (by rw [hD.rows e he, hD.cols e he]), trace_mul_comm' ⟨s1, s2⟩ ⟨s3, s4⟩,
    ← trace_congr' e1 (by rw [hD.rows z hz, hD.cols z hz]), trace_congr' (hD.z z _ hz hrz) (by rw [hD.rows z hz, hD.cols z hz]),
    trace_zRot]

end Escnn
