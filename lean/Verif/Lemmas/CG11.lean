import Verif.Lemmas.WignerExample
import Verif.Lemmas.HarmonicR3

/-!
# The Clebsch–Gordan coefficients of two vectors

Two vectors have a scalar product, a cross product and a symmetric traceless product: an instance of the contract on the coefficients of SO(3) and O(3).
-/

namespace Escnn

open Real Quaternion NpMat
open scoped Matrix

noncomputable section

/-- The antisymmetric matrices. -/
def asym (m : ℕ) : Mat3 :=
  if m = 0 then (√2)⁻¹ • !![0, 0, 1; 0, 0, 0; -1, 0, 0] else if m = 1 then (√2)⁻¹ • !![0, -1, 0; 1, 0, 0; 0, 0, 0]
  else (√2)⁻¹ • !![0, 0, 0; 0, 0, -1; 0, 1, 0]

/-- The products of frequency `l`. -/
def prod11 (l c : ℕ) : Mat3 := if l = 0 then (√3)⁻¹ • 1 else if l = 1 then asym c else sym2 c

theorem three_inv : (√3)⁻¹ * (√3)⁻¹ = (1 / 3 : ℝ) := by rw [← mul_inv, mul_self_sqrt (by norm_num)]; norm_num

theorem prod11_ortho {l l' c c' : ℕ} (hl : l ≤ 2) (hl' : l' ≤ 2) (hc : c < 2 * l + 1) (hc' : c' < 2 * l' + 1) :
    ((prod11 l c)ᵀ * prod11 l' c').trace = if (l, c) = (l', c') then 1 else 0 := by
  have h2 := two_inv
  have h3 := three_inv
  have ht : ∀ X : Mat3, X.trace = 0 → ((√3)⁻¹ • (1 : Mat3) * X).trace = 0 := fun X hX => by rw [Matrix.smul_mul, one_mul, Matrix.trace_smul, hX, smul_zero]
  have hsa : ∀ S A : Mat3, Sᵀ = S → Aᵀ = -A → (S * A).trace = 0 := fun S A hS hA => by
    have e : (S * A).trace = -(S * A).trace := by
      conv_lhs => rw [← Matrix.trace_transpose, Matrix.transpose_mul, hS, hA, Matrix.neg_mul, Matrix.trace_neg, Matrix.trace_mul_comm]
    linarith
  have ha : ∀ m, (asym m)ᵀ = -asym m := fun m => by
    unfold asym
    split_ifs <;> ext i k <;> fin_cases i <;> fin_cases k <;> simp
  have ha0 : ∀ m, (asym m).trace = 0 := fun m => by
    unfold asym
    split_ifs <;> simp [Matrix.trace_fin_three]
  obtain rfl | rfl | rfl : l = 0 ∨ l = 1 ∨ l = 2 := by omega
  · obtain rfl : c = 0 := by omega
    obtain rfl | rfl | rfl : l' = 0 ∨ l' = 1 ∨ l' = 2 := by omega
    · obtain rfl : c' = 0 := by omega
      simp [prod11, Matrix.trace_fin_three, -mul_inv_rev]
      linarith
    · simpa [prod11] using ht _ (ha0 c')
    · simpa [prod11] using ht _ (sym2_trace (by omega : c' < 5))
  · obtain rfl | rfl | rfl : l' = 0 ∨ l' = 1 ∨ l' = 2 := by omega
    · simpa [prod11, ha] using ha0 c
    · interval_cases c <;> interval_cases c' <;> simp [prod11, asym, Matrix.trace_fin_three, Matrix.mul_apply, Fin.sum_univ_three, -mul_inv_rev] <;> linarith
    · have := hsa _ _ (sym2_symm (by omega : c' < 5)) (ha c)
      rw [Matrix.trace_mul_comm] at this
      simpa [prod11, ha] using this
  · obtain rfl | rfl | rfl : l' = 0 ∨ l' = 1 ∨ l' = 2 := by omega
    · have := sym2_trace (by omega : c < 5)
      simp [prod11, this]
    · simpa [prod11, sym2_symm (by omega : c < 5)] using hsa _ _ (sym2_symm (by omega : c < 5)) (ha c')
    · simpa [prod11, sym2_symm (by omega : c < 5)] using sym2_ortho (by omega : c < 5) (by omega : c' < 5)

/-- A rotation is its own matrix of cofactors. -/
theorem rot_adjugate {R : Mat3} (h : R * Rᵀ = 1) (hd : R.det = 1) : Rᵀ = R.adjugate := by
  have e : R.adjugate * R = 1 := by rw [Matrix.adjugate_mul, hd, one_smul]
  calc Rᵀ = R.adjugate * R * Rᵀ := by rw [e, one_mul]
    _ = R.adjugate := by rw [Matrix.mul_assoc, h, mul_one]

theorem prod11_intertwines {q : ℍ[ℝ]} (hq : normSq q = 1) {l c : ℕ} (hl : l ≤ 2) (hc : c < 2 * l + 1) :
    rotOf q * prod11 l c * (rotOf q)ᵀ = ∑ c' ∈ Finset.range (2 * l + 1), (SO3.irrepMat wignerUpTo2 l q).get c' c • prod11 l c' := by
  obtain rfl | rfl | rfl : l = 0 ∨ l = 1 ∨ l = 2 := by omega
  · obtain rfl : c = 0 := by omega
    simp [prod11, SO3.irrepMat, eye, rotOf_orth hq]
  · have ha := rot_adjugate (rotOf_orth hq) (rotOf_det hq)
    rw [Matrix.adjugate_fin_three] at ha
    have a := fun i k => congrFun (congrFun ha i) k
    generalize hR : rotOf q = R at *
    have e00 := a 0 0; have e01 := a 0 1; have e02 := a 0 2
    have e10 := a 1 0; have e11 := a 1 1; have e12 := a 1 2
    have e20 := a 2 0; have e21 := a 2 1; have e22 := a 2 2
    simp at e00 e01 e02 e10 e11 e12 e20 e21 e22
    have hw : ∀ c', (SO3.irrepMat wignerUpTo2 1 q).get c' c = R (harmonicAxis c') (harmonicAxis c) := fun c' => by
      simp [SO3.irrepMat, wignerUpTo2, wigner1, hR]
    simp only [hw, Finset.sum_range_succ, Finset.sum_range_zero, prod11]
    ext i k
    simp only [Matrix.mul_apply, Fin.sum_univ_three, Matrix.transpose_apply]
    obtain ⟨s, hs⟩ : ∃ s, s = (√2)⁻¹ := ⟨_, rfl⟩
    interval_cases c <;> fin_cases i <;> fin_cases k <;> simp [asym, harmonicAxis, ← hs] <;> first | ring1 | linear_combination (s) * e00 | linear_combination (-s) * e00 | linear_combination (s) * e01 | linear_combination (-s) * e01 | linear_combination (s) * e02 | linear_combination (-s) * e02 | linear_combination (s) * e10 | linear_combination (-s) * e10 | linear_combination (s) * e11 | linear_combination (-s) * e11 | linear_combination (s) * e12 | linear_combination (-s) * e12 | linear_combination (s) * e20 | linear_combination (-s) * e20 | linear_combination (s) * e21 | linear_combination (-s) * e21 | linear_combination (s) * e22 | linear_combination (-s) * e22
  · have hc' : c < 5 := hc
    have ho := rotOf_orth' hq
    obtain ⟨X, hX⟩ : ∃ X, X = rotOf q * sym2 c * (rotOf q)ᵀ := ⟨_, rfl⟩
    have hs : Xᵀ = X := by rw [hX]; simp [Matrix.transpose_mul, sym2_symm hc', Matrix.mul_assoc]
    have ht : X.trace = 0 := by rw [hX, Matrix.trace_mul_comm, ← Matrix.mul_assoc, ho, one_mul, sym2_trace hc']
    have := sym2_complete hs ht
    show rotOf q * sym2 c * (rotOf q)ᵀ = _
    rw [← hX]
    conv_lhs => rw [this]
    refine Finset.sum_congr rfl fun c' _ => ?_
    simp [prod11, SO3.irrepMat, wignerUpTo2, wigner2, hX]

/-- The coefficients of two vectors. -/
def cg11 (l : ℕ) : CGArray := ⟨1, fun a b _ c => prod11 l c (harmonicAxis a) (harmonicAxis b)⟩

theorem cg11_inner {l l' c c' : ℕ} (hl : l ≤ 2) (hl' : l' ≤ 2) (hc : c < 2 * l + 1) (hc' : c' < 2 * l' + 1) (s s' : ℕ) :
    cgInner 3 3 (cg11 l) (cg11 l') s c s' c' = if (l, c) = (l', c') then 1 else 0 := by
  rw [← prod11_ortho hl hl' hc hc']
  simp only [cgInner, cg11, Finset.sum_range_succ, Finset.sum_range_zero, harmonicAxis, Matrix.trace_fin_three, Matrix.mul_apply, Fin.sum_univ_three, Matrix.transpose_apply]
  simp
  ring

theorem cg11_intertwines {q : ℍ[ℝ]} (hq : normSq q = 1) {l : ℕ} (hl : l ≤ 2) :
    Intertwines (SO3.irrepMat wignerUpTo2 1 q) (SO3.irrepMat wignerUpTo2 1 q) (SO3.irrepMat wignerUpTo2 l q) (cg11 l) := by
  have hr : (SO3.irrepMat wignerUpTo2 l q).rows = 2 * l + 1 := by
    obtain rfl | rfl | rfl : l = 0 ∨ l = 1 ∨ l = 2 := by omega
    · rfl
    · rfl
    · rfl
  intro a b s c ha hb hs hc
  rw [hr] at hc ⊢
  have h := congrFun (congrFun (prod11_intertwines hq hl hc) (harmonicAxis a)) (harmonicAxis b)
  rw [Matrix.sum_apply] at h
  simp only [Matrix.smul_apply, smul_eq_mul] at h
  have hw : ∀ a a', (SO3.irrepMat wignerUpTo2 1 q).get a a' = rotOf q (harmonicAxis a) (harmonicAxis a') := fun a a' => rfl
  have hcols : (SO3.irrepMat wignerUpTo2 1 q).cols = 3 := rfl
  rw [hcols]
  simp only [cg11, mul_comm (prod11 l _ _ _), hw]
  rw [← h]
  simp only [Finset.sum_range_succ, Finset.sum_range_zero, Matrix.mul_apply, Fin.sum_univ_three, Matrix.transpose_apply]
  simp [harmonicAxis]
  ring

/-- The coefficients of SO(3) which the examples use. -/
def cgSO3 (_ _ : ℕ) (l : ℕ) : CGArray := cg11 l

/-- The coefficients of O(3) which the examples use. -/
def cgO3 (_ _ : ℕ × ℕ) (l : ℕ × ℕ) : CGArray := cg11 l.2

theorem cgSO3_law : CGLaw (fun q => normSq q = 1) (SO3.table wignerUpTo2 2).ok (SO3.table wignerUpTo2 2).size (SO3.table wignerUpTo2 2).mat SO3.tensorIrreps cgSO3 1 1 := by
  have hs : ∀ l, (SO3.table wignerUpTo2 2).size l = 2 * l + 1 := fun l => by
    show SO3.irrepSize l = _
    unfold SO3.irrepSize
    split_ifs with h <;> omega
  have ht : SO3.tensorIrreps 1 1 = [(0, 1), (1, 1), (2, 1)] := rfl
  have hle : ∀ e ∈ SO3.tensorIrreps 1 1, e.1 ≤ 2 ∧ e.2 = 1 := fun e he => by
    rw [ht] at he
    simp at he
    rcases he with rfl | rfl | rfl <;> simp
  refine ⟨by rw [ht]; decide, fun e he => decide_eq_true (hle e he).1, fun e he => (hle e he).2.symm, by rw [ht]; simp [hs], fun e he q hq => cg11_intertwines hq (hle e he).1, ?_⟩
  intro p hp p' hp' s c s' c' h1 h2 h3 h4
  rw [hs] at h2 h4
  rw [hs]
  refine (cg11_inner (hle p hp).1 (hle p' hp').1 h2 h4 s s').trans ?_
  rw [(hle p hp).2] at h1
  rw [(hle p' hp').2] at h3
  obtain rfl : s = 0 := by omega
  obtain rfl : s' = 0 := by omega
  simp

theorem cgO3_law : CGLaw O3El (O3.table wignerUpTo2 2).ok (O3.table wignerUpTo2 2).size (O3.table wignerUpTo2 2).mat O3.tensorIrreps cgO3 (1, 1) (1, 1) := by
  have hs : ∀ l, (O3.table wignerUpTo2 2).size l = 2 * l.2 + 1 := fun l => O3.table_size l
  have ht : O3.tensorIrreps (1, 1) (1, 1) = [((0, 0), 1), ((0, 1), 1), ((0, 2), 1)] := rfl
  have hle : ∀ e ∈ O3.tensorIrreps (1, 1) (1, 1), e.1.1 = 0 ∧ e.1.2 ≤ 2 ∧ e.2 = 1 := fun e he => by
    rw [ht] at he
    simp at he
    rcases he with rfl | rfl | rfl <;> simp
  refine ⟨by rw [ht]; decide, fun e he => decide_eq_true ⟨by rw [(hle e he).1]; exact Nat.zero_le _, (hle e he).2.1⟩, fun e he => (hle e he).2.2.symm, by rw [ht]; simp [hs], ?_, ?_⟩
  · intro e he g hg
    obtain ⟨⟨j, l⟩, m⟩ := e
    obtain ⟨rfl, hl, rfl⟩ : j = 0 ∧ l ≤ 2 ∧ m = 1 := hle _ he
    have h := cg11_intertwines hg.2 hl
    have e1 : (O3.table wignerUpTo2 2).mat (0, l) g = SO3.irrepMat wignerUpTo2 l g.2 := by
      show O3.irrepMat wignerUpTo2 0 l g = _
      unfold O3.irrepMat SO3.irrepMat
      by_cases h0 : l = 0
      · rw [if_pos ⟨h0, rfl⟩, if_pos h0]
      · rw [if_neg (fun h => h0 h.1), if_neg h0, if_neg h0]
        simp [O3.invAction]
    rw [e1]
    intro a b s c ha hb hs' hc
    have := h a b s c ha hb hs' hc
    have hi : O3.invAction 1 g * O3.invAction 1 g = 1 := by
      unfold O3.invAction
      split_ifs <;> norm_num
    show ∑ a' ∈ Finset.range 3, ∑ b' ∈ Finset.range 3, (wigner1 g.2).get a a' * O3.invAction 1 g * ((wigner1 g.2).get b b' * O3.invAction 1 g) * (cg11 l).get a' b' s c = _
    refine Eq.trans ?_ this
    refine Finset.sum_congr rfl fun a' _ => Finset.sum_congr rfl fun b' _ => ?_
    show _ = (wigner1 g.2).get a a' * (wigner1 g.2).get b b' * (cg11 l).get a' b' s c
    linear_combination ((wigner1 g.2).get a a' * (wigner1 g.2).get b b' * (cg11 l).get a' b' s c) * hi
  · intro p hp p' hp' s c s' c' h1 h2 h3 h4
    obtain ⟨⟨j, l⟩, m⟩ := p
    obtain ⟨rfl, hl, rfl⟩ : j = 0 ∧ l ≤ 2 ∧ m = 1 := hle _ hp
    obtain ⟨⟨j', l'⟩, m'⟩ := p'
    obtain ⟨rfl, hl', rfl⟩ : j' = 0 ∧ l' ≤ 2 ∧ m' = 1 := hle _ hp'
    rw [hs] at h2 h4
    obtain rfl : s = 0 := Nat.lt_one_iff.1 h1
    obtain rfl : s' = 0 := Nat.lt_one_iff.1 h3
    rw [hs]
    refine (cg11_inner hl hl' h2 h4 0 0).trans ?_
    simp

end

end Escnn
