import Verif.Lemmas.WignerCore
import Mathlib.Tactic.FinCases
import Mathlib.Tactic.IntervalCases

/-!
# The Wigner D matrices of degrees one and two

The contract `Wigner` is met by the rotations themselves (degree one) and by their action on the symmetric traceless
matrices (degree two).
-/

namespace Escnn

open Real Quaternion NpMat
open scoped Matrix

noncomputable section

/-- The rotation in the basis `y, z, x`. -/
def wigner1 (q : ℍ[ℝ]) : NpMat ℝ := ⟨3, 3, fun i k => rotOf q (harmonicAxis i) (harmonicAxis k)⟩

theorem wigner1_mul (p q : ℍ[ℝ]) : wigner1 (p * q) ≈ NpMat.mul (wigner1 p) (wigner1 q) := by
  refine ⟨rfl, rfl, fun i k hi hk => ?_⟩
  change i < 3 at hi; change k < 3 at hk
  simp only [wigner1, NpMat.mul, rotOf_mul, Matrix.mul_apply, Fin.sum_univ_three, Finset.sum_range_succ, Finset.sum_range_zero,
    harmonicAxis]
  simp
  ring

theorem ortho_of_star (D : ℍ[ℝ] → NpMat ℝ) {n : ℕ} {q : ℍ[ℝ]} (hr : ∀ q, (D q).rows = n) (hc : ∀ q, (D q).cols = n)
    (hm : ∀ p q, normSq q = 1 → D (p * q) ≈ NpMat.mul (D p) (D q)) (ht : ∀ q, NpMat.transpose (D q) ≈ D (star q))
    (h1 : D 1 ≈ NpMat.eye n) (hq : normSq q = 1) : NpMat.IsOrtho (D q) := by
  have hs : normSq (star q) = 1 := by rw [Quaternion.normSq_star, hq]
  have e1 : star q * q = 1 := by rw [Quaternion.star_mul_self, hq]; rfl
  have e2 : q * star q = 1 := by rw [Quaternion.self_mul_star, hq]; rfl
  refine ⟨by rw [hr, hc], ?_, ?_⟩
  · rw [hr]
    refine (mul_congr (Eqv.refl (D q)) (ht q) (by rw [hc]; exact (hc q).symm)).trans ((hm q (star q) hs).symm.trans ?_)
    rw [e2]; exact h1
  · rw [hr]
    refine (mul_congr (ht q) (Eqv.refl (D q)) (by change (D q).rows = _; rw [hr])).trans ((hm (star q) q hq).symm.trans ?_)
    rw [e1]; exact h1

theorem wigner1_ok : Wigner 1 wigner1 where
  rows _ _ := rfl
  cols _ _ := rfl
  ext p q _ _ h := by unfold wigner1; rw [h]
  mul p q _ _ := wigner1_mul p q
  ortho q hq := ortho_of_star wigner1 (fun _ => rfl) (fun _ => rfl) (fun p q _ => wigner1_mul p q)
    (fun q => by
      refine ⟨rfl, rfl, fun i k hi hk => ?_⟩
      simp [wigner1, NpMat.transpose, rotOf_star])
    (by
      refine ⟨rfl, rfl, fun i k hi hk => ?_⟩
      change i < 3 at hi; change k < 3 at hk
      simp only [wigner1, rotOf_one, NpMat.eye]
      interval_cases i <;> interval_cases k <;> simp [harmonicAxis]) hq
  z q θ _ h := by
    refine ⟨rfl, rfl, fun i k hi hk => ?_⟩
    change i < 3 at hi; change k < 3 at hk
    simp only [wigner1, zRot, h, rotZ]
    interval_cases i <;> interval_cases k <;> simp [harmonicAxis] <;> norm_num
  y q _ h := by
    refine ⟨rfl, rfl, fun i k hi hk => ?_⟩
    change i < 3 at hi; change k < 3 at hk
    simp only [wigner1, yTurn, h, flipY]
    interval_cases i <;> interval_cases k <;> simp [harmonicAxis]
  one _ q _ := Eqv.refl _

/-- The symmetric traceless matrices of the harmonics of degree two: `xy, yz, 3 z² - r², xz, x² - y²`. -/
def sym2 (m : ℕ) : Mat3 :=
  if m = 0 then (√2)⁻¹ • !![0, 1, 0; 1, 0, 0; 0, 0, 0] else if m = 1 then (√2)⁻¹ • !![0, 0, 0; 0, 0, 1; 0, 1, 0]
  else if m = 2 then (√6)⁻¹ • !![-1, 0, 0; 0, -1, 0; 0, 0, 2] else if m = 3 then (√2)⁻¹ • !![0, 0, 1; 0, 0, 0; 1, 0, 0]
  else (√2)⁻¹ • !![1, 0, 0; 0, -1, 0; 0, 0, 0]

/-- The action of the rotation on the symmetric traceless matrices. -/
def wigner2 (q : ℍ[ℝ]) : NpMat ℝ := ⟨5, 5, fun i k => (sym2 i * (rotOf q * sym2 k * (rotOf q)ᵀ)).trace⟩

theorem sym2_symm {m : ℕ} (h : m < 5) : (sym2 m)ᵀ = sym2 m := by
  interval_cases m <;> ext i k <;> fin_cases i <;> fin_cases k <;> simp [sym2]

theorem sym2_trace {m : ℕ} (h : m < 5) : (sym2 m).trace = 0 := by
  interval_cases m <;> simp [sym2, Matrix.trace, Fin.sum_univ_three]; ring

theorem two_inv : (√2)⁻¹ * (√2)⁻¹ = (1 / 2 : ℝ) := by rw [← mul_inv, mul_self_sqrt (by norm_num)]; norm_num
theorem six_inv : (√6)⁻¹ * (√6)⁻¹ = (1 / 6 : ℝ) := by rw [← mul_inv, mul_self_sqrt (by norm_num)]; norm_num

theorem sym2_ortho {i k : ℕ} (hi : i < 5) (hk : k < 5) : (sym2 i * sym2 k).trace = if i = k then 1 else 0 := by
  have h2 := two_inv
  have h6 := six_inv
  interval_cases i <;> interval_cases k <;>
    simp [sym2, Matrix.trace, Fin.sum_univ_three, Matrix.mul_apply, -mul_inv_rev] <;> nlinarith

theorem sym2_complete {X : Mat3} (hs : Xᵀ = X) (ht : X.trace = 0) :
    X = ∑ k ∈ Finset.range 5, (sym2 k * X).trace • sym2 k := by
  have h2 := two_inv
  have h6 := six_inv
  have e01 : X 1 0 = X 0 1 := congrFun (congrFun hs 0) 1
  have e02 : X 2 0 = X 0 2 := congrFun (congrFun hs 0) 2
  have e12 : X 2 1 = X 1 2 := congrFun (congrFun hs 1) 2
  rw [Matrix.trace_fin_three] at ht
  obtain ⟨c, hc⟩ : ∃ c, c = (√2)⁻¹ := ⟨_, rfl⟩
  obtain ⟨d, hd⟩ : ∃ d, d = (√6)⁻¹ := ⟨_, rfl⟩
  rw [← hc] at h2
  rw [← hd] at h6
  have e22 : X 2 2 = - X 0 0 - X 1 1 := by linarith
  ext i k
  simp only [Finset.sum_range_succ, Finset.sum_range_zero, sym2, ← hc, ← hd, Matrix.trace_fin_three, Matrix.mul_apply,
    Fin.sum_univ_three]
  fin_cases i <;> fin_cases k <;> simp [e01, e02, e12, e22] <;> ring_nf <;>
    simp only [show c ^ 2 = 1 / 2 by rw [pow_two, h2], show d ^ 2 = 1 / 6 by rw [pow_two, h6]] <;> ring

theorem wigner2_mul {p q : ℍ[ℝ]} (hq : normSq q = 1) : wigner2 (p * q) ≈ NpMat.mul (wigner2 p) (wigner2 q) := by
  refine ⟨rfl, rfl, fun i k hi hk => ?_⟩
  change i < 5 at hi; change k < 5 at hk
  have ho := rotOf_orth' hq
  obtain ⟨X, hX⟩ : ∃ X, X = rotOf q * sym2 k * (rotOf q)ᵀ := ⟨_, rfl⟩
  have hs : Xᵀ = X := by rw [hX]; simp [Matrix.transpose_mul, sym2_symm hk, Matrix.mul_assoc]
  have ht : X.trace = 0 := by
    rw [hX, Matrix.trace_mul_comm, ← Matrix.mul_assoc, ho, one_mul, sym2_trace hk]
  have hc := sym2_complete hs ht
  change (sym2 i * (rotOf (p * q) * sym2 k * (rotOf (p * q))ᵀ)).trace =
    ∑ m ∈ Finset.range 5, (sym2 i * (rotOf p * sym2 m * (rotOf p)ᵀ)).trace * (sym2 m * (rotOf q * sym2 k * (rotOf q)ᵀ)).trace
  rw [← hX, rotOf_mul, Matrix.transpose_mul,
    show rotOf p * rotOf q * sym2 k * ((rotOf q)ᵀ * (rotOf p)ᵀ) = rotOf p * X * (rotOf p)ᵀ by rw [hX]; simp [Matrix.mul_assoc]]
  conv_lhs => rw [hc]
  simp only [Finset.mul_sum, Finset.sum_mul, Matrix.trace_sum, Matrix.mul_smul, Matrix.smul_mul, Matrix.trace_smul, smul_eq_mul]
  exact Finset.sum_congr rfl fun m _ => mul_comm _ _

theorem wigner2_ok : Wigner 2 wigner2 where
  rows _ _ := rfl
  cols _ _ := rfl
  ext p q _ _ h := by unfold wigner2; rw [h]
  mul p q _ hq := wigner2_mul hq
  ortho q hq := ortho_of_star wigner2 (fun _ => rfl) (fun _ => rfl) (fun p q h => wigner2_mul h)
    (fun q => by
      refine ⟨rfl, rfl, fun i m hi hm => ?_⟩
      change i < 5 at hi; change m < 5 at hm
      change (sym2 m * (rotOf q * sym2 i * (rotOf q)ᵀ)).trace = (sym2 i * (rotOf (star q) * sym2 m * (rotOf (star q))ᵀ)).trace
      rw [rotOf_star, Matrix.transpose_transpose, ← Matrix.trace_transpose]
      simp only [Matrix.transpose_mul, Matrix.transpose_transpose, sym2_symm hm, sym2_symm hi]
      rw [Matrix.mul_assoc, Matrix.trace_mul_comm]
      simp only [Matrix.mul_assoc])
    (by
      refine ⟨rfl, rfl, fun i k hi hk => ?_⟩
      change i < 5 at hi; change k < 5 at hk
      change (sym2 i * (rotOf 1 * sym2 k * (rotOf 1)ᵀ)).trace = _
      rw [rotOf_one, one_mul, Matrix.transpose_one, mul_one, sym2_ortho hi hk]
      simp [NpMat.eye]) hq
  z q θ _ h := by
    refine ⟨rfl, rfl, fun i k hi hk => ?_⟩
    change i < 5 at hi; change k < 5 at hk
    have h2 := two_inv
    have h6 := six_inv
    obtain ⟨c, hc⟩ : ∃ c, c = (√2)⁻¹ := ⟨_, rfl⟩
    obtain ⟨d, hd⟩ : ∃ d, d = (√6)⁻¹ := ⟨_, rfl⟩
    rw [← hc] at h2
    rw [← hd] at h6
    have h2' : c ^ 2 = 1 / 2 := by rw [pow_two, h2]
    have h6' : d ^ 2 = 1 / 6 := by rw [pow_two, h6]
    have hcs := sin_sq θ
    simp only [wigner2, zRot, h, rotZ, Matrix.trace_fin_three, Matrix.mul_apply, Fin.sum_univ_three, Matrix.transpose_apply, sym2,
      ← hc, ← hd]
    interval_cases i <;> interval_cases k <;> simp [cos_two_mul, sin_two_mul] <;> ring_nf <;>
      (try simp only [h2', h6', hcs]) <;> norm_num <;> (try ring_nf) <;> (try simp [cos_two_mul, sin_two_mul]) <;> (try rw [mul_comm θ 2]) <;> (try simp only [cos_two_mul, sin_two_mul]) <;> (try ring)
  y q _ h := by
    refine ⟨rfl, rfl, fun i k hi hk => ?_⟩
    change i < 5 at hi; change k < 5 at hk
    have h2 := two_inv
    have h6 := six_inv
    simp only [wigner2, yTurn, h, flipY, Matrix.trace_fin_three, Matrix.mul_apply, Fin.sum_univ_three, Matrix.transpose_apply, sym2]
    interval_cases i <;> interval_cases k <;> simp [-mul_inv_rev] <;> nlinarith
  one h := by simp at h

/-- Matrices which meet the contract for the degrees up to two. -/
def wignerUpTo2 (l : ℕ) : ℍ[ℝ] → NpMat ℝ := if l = 1 then wigner1 else wigner2

theorem wignerUpTo2_ok {l : ℕ} (h0 : l ≠ 0) (h : l ≤ 2) : Wigner l (wignerUpTo2 l) := by
  obtain rfl | rfl : l = 1 ∨ l = 2 := by omega
  · exact wigner1_ok
  · exact wigner2_ok

end

end Escnn
