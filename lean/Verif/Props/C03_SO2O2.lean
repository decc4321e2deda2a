import Verif.Lemmas.Angle
import Mathlib.LinearAlgebra.UnitaryGroup
import Mathlib.Analysis.Real.Pi.Bounds

/-!
# C03 — SO(2) and O(2) satisfy the group laws
-/

namespace Escnn

open Real

namespace SO2

/-- **C03** `SO(2)`: results are stored angles in `[0, 2π)`, the operations do not depend on the representatives, and
satisfy the group laws. -/
theorem C03_so2_laws :
    (∀ a b, IsElement (combine a b)) ∧ (∀ a, IsElement (inverse a)) ∧ IsElement identity ∧
    (∀ (a b : ℝ) (m n : ℤ), combine (a + m * (2 * π)) (b + n * (2 * π)) = combine a b) ∧
    (∀ (a : ℝ) (m : ℤ), inverse (a + m * (2 * π)) = inverse a) ∧
    (∀ a b c, combine (combine a b) c = combine a (combine b c)) ∧
    (∀ a, IsElement a → combine identity a = a ∧ combine a identity = a) ∧
    (∀ a, combine a (inverse a) = identity ∧ combine (inverse a) a = identity) := by
  have hm : ∀ (x : ℝ) (m : ℤ), mod2pi (x + m * (2 * π)) = mod2pi x := fun x m => mod2pi_eq_iff.2 ⟨m, rfl⟩
  refine ⟨fun a b => ⟨mod2pi_nonneg _, mod2pi_lt _⟩, fun a => ⟨mod2pi_nonneg _, mod2pi_lt _⟩, ⟨le_rfl, two_pi_pos⟩,
    ?_, ?_, ?_, ?_, ?_⟩
  · intro a b m n; simp only [combine, hm]
  · intro a m; simp only [inverse, hm]
  · intro a b c
    simp only [combine, mod2pi_mod2pi, mod2pi_add_mod2pi]
    rw [← angle_eq_iff]; simp only [Real.Angle.coe_add, Real.Angle.coe_neg, coe_mod2pi]; rw [add_assoc]
  · rintro a ⟨h0, h1⟩
    simp [combine, identity, mod2pi_eq_self h0 h1]
  · intro a
    constructor <;>
    · simp only [combine, inverse, identity, mod2pi_mod2pi]
      rw [show (0 : ℝ) = mod2pi 0 by simp, ← angle_eq_iff]; simp only [Real.Angle.coe_add, Real.Angle.coe_neg, coe_mod2pi]; simp

/-- **C03** (independent specification) The stored elements of `SO(2)` are in bijection with Mathlib's angles `ℝ/2πℤ`;
composition is addition and inversion is negation. -/
theorem C03_so2_iso_angle :
    (∀ z : Real.Angle, ∃! e : ℝ, IsElement e ∧ (e : Real.Angle) = z) ∧
    (∀ a b, ((combine a b : ℝ) : Real.Angle) = a + b) ∧
    (∀ a, ((inverse a : ℝ) : Real.Angle) = -a) := by
  refine ⟨?_, ?_, ?_⟩
  · intro z
    induction z using Real.Angle.induction_on with
    | _ x =>
      refine ⟨mod2pi x, ⟨⟨mod2pi_nonneg _, mod2pi_lt _⟩, coe_mod2pi x⟩, ?_⟩
      rintro y ⟨⟨h0, h1⟩, hy⟩
      rw [angle_eq_iff, mod2pi_eq_self h0 h1] at hy
      exact hy
  · intro a b; simp only [combine]; simp only [Real.Angle.coe_add, Real.Angle.coe_neg, coe_mod2pi]
  · intro a; simp only [inverse]; simp only [Real.Angle.coe_add, Real.Angle.coe_neg, coe_mod2pi]

example : combine (3 * π / 2) (3 * π / 2) = π := by
  have := pi_pos
  simp only [combine, mod2pi_mod2pi, mod2pi_add_mod2pi]
  have h := (mod2pi_eq_iff (x := 3 * π / 2 + 3 * π / 2) (y := π)).2 ⟨1, by push_cast; ring⟩
  rw [h, mod2pi_eq_self] <;> linarith

end SO2

namespace O2

/-- The matrix in `O(2)` an element `(flip, θ)` stands for: rotate by `θ` after flipping the second axis. -/
noncomputable def toMat (e : Elem) : Matrix (Fin 2) (Fin 2) ℝ :=
  !![cos e.2, -sin e.2; sin e.2, cos e.2] * (if e.1 = 0 then 1 else !![1, 0; 0, -1])

theorem toMat_zero (θ : ℝ) : toMat (0, θ) = !![cos θ, -sin θ; sin θ, cos θ] := by simp [toMat]
theorem toMat_one (θ : ℝ) : toMat (1, θ) = !![cos θ, sin θ; sin θ, -cos θ] := by
  simp [toMat]

theorem toMat_reduce (e : Elem) : toMat (reduce e) = toMat e := by
  have hc := cos_nat_mul_mod2pi 1 e.2
  have hs := sin_nat_mul_mod2pi 1 e.2
  simp only [Nat.cast_one, one_mul] at hc hs
  simp only [toMat, reduce, hc, hs]
  rfl

theorem toMat_combine_raw (e₁ e₂ : Elem) (h₁ : e₁.1 = 0 ∨ e₁.1 = 1) (h₂ : e₂.1 = 0 ∨ e₂.1 = 1) :
    toMat ((e₁.1 + e₂.1) % 2, e₁.2 + sgn e₁.1 * e₂.2) = toMat e₁ * toMat e₂ := by
  obtain ⟨f, θ⟩ := e₁
  obtain ⟨f', θ'⟩ := e₂
  simp only at h₁ h₂
  rcases h₁ with rfl | rfl <;> rcases h₂ with rfl | rfl <;> norm_num [toMat_zero, toMat_one, sgn] <;>
    refine ⟨⟨?_, ?_⟩, ?_, ?_⟩ <;>
    simp [Real.cos_add, Real.sin_add, ← sub_eq_add_neg, Real.cos_sub, Real.sin_sub] <;> ring

theorem toMat_combine (e₁ e₂ : Elem) (h₁ : e₁.1 = 0 ∨ e₁.1 = 1) (h₂ : e₂.1 = 0 ∨ e₂.1 = 1) :
    toMat (combine e₁ e₂) = toMat e₁ * toMat e₂ := by
  rw [combine, toMat_reduce, ← toMat_reduce e₁, ← toMat_reduce e₂]
  exact toMat_combine_raw (reduce e₁) (reduce e₂) h₁ h₂

theorem toMat_mem (e : Elem) (h : e.1 = 0 ∨ e.1 = 1) : toMat e ∈ Matrix.orthogonalGroup (Fin 2) ℝ := by
  rw [Matrix.mem_orthogonalGroup_iff]
  obtain ⟨f, θ⟩ := e
  have := Real.cos_sq_add_sin_sq θ
  simp only at h
  rcases h with rfl | rfl
  · rw [toMat_zero]
    ext i j; fin_cases i <;> fin_cases j <;> simp [Matrix.mul_apply, Fin.sum_univ_two, Matrix.star_apply] <;> nlinarith
  · rw [toMat_one]
    ext i j; fin_cases i <;> fin_cases j <;> simp [Matrix.mul_apply, Fin.sum_univ_two, Matrix.star_apply] <;> nlinarith

theorem toMat_inj {a b : Elem} (ha : IsElement a) (hb : IsElement b) (h : toMat a = toMat b) : a = b := by
  obtain ⟨f, θ⟩ := a
  obtain ⟨f', θ'⟩ := b
  obtain ⟨h1, h2, h3⟩ := ha
  obtain ⟨h1', h2', h3'⟩ := hb
  simp only at *
  have key : cos θ = cos θ' → sin θ = sin θ' → θ = θ' := by
    intro hc hs
    have := Real.Angle.cos_sin_inj hc hs
    rwa [angle_eq_iff, mod2pi_eq_self h2 h3, mod2pi_eq_self h2' h3'] at this
  have hsq := Real.cos_sq_add_sin_sq θ
  rcases h1 with rfl | rfl <;> rcases h1' with rfl | rfl <;> simp only [toMat_zero, toMat_one] at h
  · have hc := congrFun (congrFun h 0) 0
    have hs := congrFun (congrFun h 1) 0
    simp at hc hs
    rw [key hc hs]
  · have a1 := congrFun (congrFun h 0) 0
    have a2 := congrFun (congrFun h 1) 1
    have a3 := congrFun (congrFun h 0) 1
    have a4 := congrFun (congrFun h 1) 0
    simp at a1 a2 a3 a4
    nlinarith
  · have a1 := congrFun (congrFun h 0) 0
    have a2 := congrFun (congrFun h 1) 1
    have a3 := congrFun (congrFun h 0) 1
    have a4 := congrFun (congrFun h 1) 0
    simp at a1 a2 a3 a4
    nlinarith
  · have hc := congrFun (congrFun h 0) 0
    have hs := congrFun (congrFun h 1) 0
    simp at hc hs
    rw [key hc hs]

theorem isElement_reduce (e : Elem) (h : e.1 = 0 ∨ e.1 = 1) : IsElement (reduce e) :=
  ⟨h, mod2pi_nonneg _, mod2pi_lt _⟩

theorem isElement_combine (a b : Elem) : IsElement (combine a b) := by
  refine isElement_reduce _ ?_
  simp only; omega

theorem isElement_inverse (a : Elem) (ha : a.1 = 0 ∨ a.1 = 1) : IsElement (inverse a) := isElement_reduce _ ha

theorem isElement_identity : IsElement identity := ⟨.inl rfl, le_rfl, two_pi_pos⟩

theorem toMat_identity : toMat identity = 1 := by
  rw [identity, toMat_zero]; ext i j; fin_cases i <;> fin_cases j <;> simp

theorem toMat_inverse (a : Elem) (ha : a.1 = 0 ∨ a.1 = 1) : toMat (inverse a) = (toMat a).transpose := by
  have h : (reduce a).1 = 0 ∨ (reduce a).1 = 1 := ha
  rw [inverse, toMat_reduce, ← toMat_reduce a]
  generalize reduce a = b at h ⊢
  obtain ⟨f, θ⟩ := b
  simp only at h
  rcases h with rfl | rfl
  · simp only [sgn, sgnR_zero, mul_one]
    rw [toMat_zero, toMat_zero]; ext i j; fin_cases i <;> fin_cases j <;> simp
  · simp only [sgn, sgnR_one, mul_neg, mul_one, neg_neg]
    rw [toMat_one]; ext i j; fin_cases i <;> fin_cases j <;> simp

/-- **C03** (independent specification) The stored elements of `O(2)` are in bijection with the orthogonal `2 × 2`
matrices; composition is the matrix product and inversion the transpose. -/
theorem C03_o2_iso_matrix :
    (∀ A ∈ Matrix.orthogonalGroup (Fin 2) ℝ, ∃! e : Elem, IsElement e ∧ toMat e = A) ∧
    (∀ a b, IsElement a → IsElement b → toMat (combine a b) = toMat a * toMat b) ∧
    (∀ a, IsElement a → toMat (inverse a) = (toMat a).transpose) := by
  refine ⟨?_, fun a b ha hb => toMat_combine a b ha.1 hb.1, fun a ha => toMat_inverse a ha.1⟩
  intro A hA
  suffices h : ∃ e : Elem, (e.1 = 0 ∨ e.1 = 1) ∧ toMat e = A by
    obtain ⟨e, he, hA'⟩ := h
    refine ⟨reduce e, ⟨isElement_reduce e he, (toMat_reduce e).trans hA'⟩, ?_⟩
    rintro y ⟨hy, hy'⟩
    exact toMat_inj hy (isElement_reduce e he) (hy'.trans (hA'.symm.trans (toMat_reduce e).symm))
  have h1 := (Matrix.mem_orthogonalGroup_iff' (Fin 2) ℝ).1 hA
  have e00 := congrFun (congrFun h1 0) 0
  have e01 := congrFun (congrFun h1 0) 1
  have e11 := congrFun (congrFun h1 1) 1
  simp [Matrix.mul_apply, Fin.sum_univ_two, Matrix.star_apply] at e00 e01 e11
  set a := A 0 0
  set b := A 0 1
  set c := A 1 0
  set d := A 1 1
  obtain ⟨θ, ha, hc⟩ := exists_angle e00
  set t := a * d - b * c with ht
  have hb' : b = -t * c := by rw [ht]; linear_combination (-b) * e00 + a * e01
  have hd' : d = t * a := by rw [ht]; linear_combination (-d) * e00 + c * e01
  have ht2 : t * t = 1 := by
    have : b * b + d * d = t * t * (a * a + c * c) := by rw [hb', hd']; ring
    rw [e00, e11] at this; linarith
  rcases mul_self_eq_one_iff.1 ht2 with h | h
  · refine ⟨(0, θ), .inl rfl, ?_⟩
    rw [toMat_zero, ← ha, ← hc]
    rw [h] at hb' hd'
    ext i j; fin_cases i <;> fin_cases j
    · rfl
    · simp; rw [show A 0 1 = b from rfl, hb']; ring
    · rfl
    · simp; rw [show A 1 1 = d from rfl, hd']; ring
  · refine ⟨(1, θ), .inr rfl, ?_⟩
    rw [toMat_one, ← ha, ← hc]
    rw [h] at hb' hd'
    ext i j; fin_cases i <;> fin_cases j
    · rfl
    · simp; rw [show A 0 1 = b from rfl, hb']; ring
    · rfl
    · simp; rw [show A 1 1 = d from rfl, hd']; ring

/-- **C03** `O(2)`: stored results, independence of the representatives, group laws, additive flip parity. -/
theorem C03_o2_laws :
    (∀ a b, IsElement (combine a b)) ∧ (∀ a, IsElement a → IsElement (inverse a)) ∧ IsElement identity ∧
    (∀ (f f' : ℤ) (x y : ℝ) (m n : ℤ), combine (f, x + m * (2 * π)) (f', y + n * (2 * π)) = combine (f, x) (f', y)) ∧
    (∀ (f : ℤ) (x : ℝ) (m : ℤ), inverse (f, x + m * (2 * π)) = inverse (f, x)) ∧
    (∀ a b c, IsElement a → IsElement b → IsElement c → combine (combine a b) c = combine a (combine b c)) ∧
    (∀ a, IsElement a → combine identity a = a ∧ combine a identity = a) ∧
    (∀ a, IsElement a → combine a (inverse a) = identity ∧ combine (inverse a) a = identity) ∧
    (∀ a b, (combine a b).1 = (a.1 + b.1) % 2) := by
  have hm : ∀ (x : ℝ) (m : ℤ), mod2pi (x + m * (2 * π)) = mod2pi x := fun x m => mod2pi_eq_iff.2 ⟨m, rfl⟩
  have iso := C03_o2_iso_matrix
  refine ⟨isElement_combine, fun a ha => isElement_inverse a ha.1, isElement_identity, ?_, ?_, ?_, ?_, ?_,
    fun _ _ => rfl⟩
  · intro f f' x y m n; simp only [combine, reduce, hm]
  · intro f x m; simp only [inverse, reduce, hm]
  · intro a b c ha hb hc
    refine toMat_inj (isElement_combine _ _) (isElement_combine _ _) ?_
    rw [toMat_combine _ _ (isElement_combine _ _).1 hc.1, toMat_combine _ _ ha.1 hb.1,
      toMat_combine _ _ ha.1 (isElement_combine _ _).1, toMat_combine _ _ hb.1 hc.1, Matrix.mul_assoc]
  · intro a ha
    constructor <;> refine toMat_inj (isElement_combine _ _) ha ?_
    · rw [toMat_combine _ _ (.inl rfl) ha.1, toMat_identity, Matrix.one_mul]
    · rw [toMat_combine _ _ ha.1 (.inl rfl), toMat_identity, Matrix.mul_one]
  · intro a ha
    have hi := isElement_inverse a ha.1
    have hmem := toMat_mem a ha.1
    constructor <;> refine toMat_inj (isElement_combine _ _) isElement_identity ?_
    · rw [toMat_combine _ _ ha.1 hi.1, toMat_identity, toMat_inverse a ha.1]
      simpa [Matrix.star_eq_conjTranspose] using (Matrix.mem_orthogonalGroup_iff (Fin 2) ℝ).1 hmem
    · rw [toMat_combine _ _ hi.1 ha.1, toMat_identity, toMat_inverse a ha.1]
      simpa [Matrix.star_eq_conjTranspose] using (Matrix.mem_orthogonalGroup_iff' (Fin 2) ℝ).1 hmem

/-- A reflection is its own inverse in the model (a non-trivial instance of the laws). -/
example : combine (1, 1) (1, 1) = identity := by
  have h2 : (1 : ℝ) < 2 * π := by have := Real.pi_gt_three; linarith
  have h : inverse (1, 1) = (1, 1) := by
    simp only [inverse, reduce, sgn, sgnR_one]
    rw [mod2pi_eq_self zero_le_one h2]; simp [mod2pi_eq_self zero_le_one h2]
  have := (C03_o2_laws.2.2.2.2.2.2.2.1 (1, 1) ⟨.inr rfl, zero_le_one, h2⟩).1
  rwa [h] at this

end O2
end Escnn
