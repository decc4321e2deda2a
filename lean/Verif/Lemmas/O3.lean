import Verif.Lemmas.Planar
import Verif.Model.O3

/-!
# Lemmas on O(3)
-/

namespace Escnn

open Real Matrix Quaternion

/-- From matrices to the claim about the maps. -/
theorem RealisesAs.mk' {G H : Type} {ElG : G → Prop} {act : G → Mat3} {A : Mat3} (hA : A * Aᵀ = 1)
    {ElH : H → Prop} {eqH : H → H → Prop} {mulH : H → H → H} {ρ : H → Mat3} {parent : H → Except Err G}
    {child : G → Except Err (Option H)}
    (hel : ∀ h h', ElH h → ElH h' → ElH (mulH h h'))
    (hq : ∀ h, ElH h → ∃ g, parent h = .ok g ∧ ElG g ∧ act g = Aᵀ * ρ h * A)
    (hmul : ∀ h h', ElH h → ElH h' → ρ (mulH h h') = ρ h * ρ h')
    (hinj : ∀ h h', ElH h → ElH h' → ρ h = ρ h' → eqH h h')
    (hc : ∀ h g, ElH h → ElG g → act g = Aᵀ * ρ h * A → ∃ h', child g = .ok (some h') ∧ eqH h' h) :
    RealisesAs ElG act ElH eqH mulH A ρ parent child := by
  have key : ∀ M : Mat3, A * (Aᵀ * M * A) * Aᵀ = M := fun M => by
    rw [mul_assoc, mul_assoc, mul_assoc, hA, mul_one, ← mul_assoc, hA, one_mul]
  refine ⟨hq, ?_, ?_, hc⟩
  · intro h h' g g' hh hh' hg hg'
    obtain ⟨q, h1, h2, h3⟩ := hq h hh
    obtain ⟨q', h1', h2', h3'⟩ := hq h' hh'
    obtain ⟨k, h1k, h2k, h3k⟩ := hq _ (hel h h' hh hh')
    refine ⟨_, h1k, ?_⟩
    rw [h1] at hg; rw [h1'] at hg'
    simp only [Except.ok.injEq] at hg hg'
    subst hg hg'
    rw [h3k, h3, h3', hmul h h' hh hh']
    calc Aᵀ * (ρ h * ρ h') * A = Aᵀ * ρ h * 1 * ρ h' * A := by simp only [mul_assoc, one_mul]
      _ = _ := by rw [← hA]; simp only [mul_assoc]
  · intro h h' g g' hh hh' hg hg' he
    obtain ⟨q, h1, h2, h3⟩ := hq h hh
    obtain ⟨q', h1', h2', h3'⟩ := hq h' hh'
    rw [h1] at hg; rw [h1'] at hg'
    simp only [Except.ok.injEq] at hg hg'
    subst hg hg'
    rw [h3, h3'] at he
    refine hinj h h' hh hh' ?_
    rw [← key (ρ h), he, key]

namespace O3

variable {aq : UQuat → UQuat}

theorem sign_cases {f : ℤ} (h : f = 0 ∨ f = 1) : (f = 0 ∧ (-1 : ℝ) ^ f.toNat = 1) ∨ (f = 1 ∧ (-1 : ℝ) ^ f.toNat = -1) := by
  rcases h with rfl | rfl
  · left; simp
  · right; simp

theorem sign_add {f g : ℤ} (hf : f = 0 ∨ f = 1) (hg : g = 0 ∨ g = 1) :
    (-1 : ℝ) ^ ((f + g) % 2).toNat = (-1) ^ f.toNat * (-1) ^ g.toNat := by
  rcases hf with rfl | rfl <;> rcases hg with rfl | rfl <;> norm_num

theorem isElement_two {f : ℤ} : Cyclic.isElement 2 f = true ↔ f = 0 ∨ f = 1 := by
  rw [Cyclic.isElement_iff]
  push_cast
  omega

theorem element_ok {e : Elem} (h : O3El e) : element e = .ok e := if_pos h

theorem orth {e : Elem} (h : O3El e) : act3 e * (act3 e)ᵀ = 1 ∧ (act3 e)ᵀ * act3 e = 1 := by
  have hs : ((-1 : ℝ) ^ e.1.toNat) * (-1) ^ e.1.toNat = 1 := by rw [← mul_pow]; norm_num
  constructor <;> rw [act3, Matrix.transpose_smul, Matrix.smul_mul, Matrix.mul_smul, smul_smul, hs, one_smul]
  · exact rotOf_orth h.2
  · exact rotOf_orth' h.2

theorem combine_el (haq : AsQuat aq) {e e' : Elem} (h : O3El e) (h' : O3El e') : O3El (combine aq e e') := by
  refine ⟨?_, SO3.combine_unit haq h.2 h'.2⟩
  have := h.1
  have := h'.1
  simp only [combine]; omega

theorem combine_act (haq : AsQuat aq) {e e' : Elem} (h : O3El e) (h' : O3El e') :
    act3 (combine aq e e') = act3 e * act3 e' := by
  simp only [act3, combine]
  rw [sign_add h.1 h'.1, SO3.combine_spec haq, Matrix.smul_mul, Matrix.mul_smul, smul_smul]

theorem inverse_el (haq : AsQuat aq) {e : Elem} (h : O3El e) : O3El (inverse aq e) := ⟨h.1, SO3.inverse_unit haq h.2⟩

theorem inverse_act (haq : AsQuat aq) (e : Elem) : act3 (inverse aq e) = (act3 e)ᵀ := by
  simp only [act3, inverse]
  rw [SO3.inverse_spec haq, Matrix.transpose_smul]

theorem intoParent_spec (haq : AsQuat aq) {adj : Elem} (ha : O3El adj) (e : Elem) (he : O3El e) :
    O3El (intoParent aq adj e) ∧ act3 (intoParent aq adj e) = (act3 adj)ᵀ * act3 e * act3 adj := by
  have h1 := inverse_el haq ha
  have h2 := combine_el haq h1 he
  refine ⟨combine_el haq h2 ha, ?_⟩
  rw [intoParent, combine_act haq h2 ha, combine_act haq h1 he, inverse_act haq]

theorem intoChild_spec (haq : AsQuat aq) {adj : Elem} (ha : O3El adj) (e : Elem) (he : O3El e) :
    O3El (intoChild aq adj e) ∧ act3 (intoChild aq adj e) = act3 adj * act3 e * (act3 adj)ᵀ := by
  have h1 := inverse_el haq ha
  have h2 := combine_el haq ha he
  refine ⟨combine_el haq h2 h1, ?_⟩
  rw [intoChild, combine_act haq h2 h1, combine_act haq ha he, inverse_act haq]

/-- The determinant separates the inversion from the rotation. -/
theorem act_split {e : Elem} (he : O3El e) {f : ℤ} (hf : f = 0 ∨ f = 1) {M : Mat3} (hM : M.det = 1)
    (h : act3 e = (-1 : ℝ) ^ f.toNat • M) : e.1 = f ∧ rotOf e.2 = M := by
  have hd := congrArg Matrix.det h
  rw [act3, Matrix.det_smul, Matrix.det_smul, rotOf_det he.2, hM] at hd
  rw [act3] at h
  rcases sign_cases he.1 with ⟨h1, h2⟩ | ⟨h1, h2⟩ <;> rcases sign_cases hf with ⟨h3, h4⟩ | ⟨h3, h4⟩ <;>
    rw [h2, h4] at h hd <;> norm_num at hd
  · exact ⟨by omega, by simpa using h⟩
  · exact ⟨by omega, by simpa using h⟩

theorem act_rot {e : Elem} (he : O3El e) {M : Mat3} (hM : M.det = 1) (h : act3 e = M) : e.1 = 0 ∧ rotOf e.2 = M :=
  act_split he (.inl rfl) hM (by simpa using h)

theorem flipX_det : flipX.det = 1 := by
  rw [Matrix.det_fin_three]; simp [flipX]

theorem mirrorY_det : mirrorY.det = -1 := by
  rw [Matrix.det_fin_three]; simp [mirrorY]

theorem rotZ_flip_det (a : ℝ) (n : ℕ) : (rotZ a * flipX ^ n).det = 1 := by
  rw [Matrix.det_mul, rotZ_det, Matrix.det_pow, flipX_det, one_pow, one_mul]

theorem refl_el : O3El (1, quat 0 1 0 0) := ⟨.inr rfl, by rw [SO3.normSq_quat]; norm_num⟩

theorem refl_act : act3 (1, quat 0 1 0 0) = mirrorY := by
  ext i j
  fin_cases i <;> fin_cases j <;> simp [act3, rotOf, quat, mirrorY]

theorem refl_ok : reflection = .ok (1, quat 0 1 0 0) := element_ok refl_el

theorem mirrorY_transpose : mirrorYᵀ = mirrorY := by
  ext i j
  fin_cases i <;> fin_cases j <;> simp [mirrorY]

theorem identity_el : O3El identity := ⟨.inl rfl, by rw [identity, SO3.identity, SO3.normSq_quat]; norm_num⟩

theorem identity_act : act3 identity = 1 := by
  simp only [act3, identity, SO3.identity, Int.toNat_zero, pow_zero, one_smul]
  exact rotOf_one

end O3

end Escnn
