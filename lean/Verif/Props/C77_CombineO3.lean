import Verif.Props.C77_Combine3

/-!
# C77: subgroups of subgroups of O(3), restriction of gspaces of `R^3`
-/

namespace Escnn

open Real Matrix Quaternion

variable {aq : UQuat → UQuat}

namespace O3

theorem combine_adj (haq : AsQuat aq) {a b : Elem} (ha : O3El a) (hb : O3El b) :
    O3El (combine aq a (adjointMap aq (inverse aq a) b)) ∧
      act3 (combine aq a (adjointMap aq (inverse aq a) b)) = act3 b * act3 a := by
  have h1 := inverse_el haq ha
  have h2 := combine_el haq h1 hb
  have h3 := inverse_el haq h1
  have h4 := combine_el haq h2 h3
  refine ⟨combine_el haq ha h4, ?_⟩
  change act3 (combine aq a (combine aq (combine aq (inverse aq a) b) (inverse aq (inverse aq a)))) = _
  rw [combine_act haq ha h4, combine_act haq h2 h3, combine_act haq h1 hb, inverse_act haq,
    inverse_act haq, inverse_act haq, Matrix.transpose_transpose, ← mul_assoc, ← mul_assoc, (orth ha).1, one_mul]

/-- The adjoint element of the group of the inversion is not used. -/
theorem subgroupOf_idem {ico octa : RotGroup} (id : Id) (adj adj' : Elem) :
    subgroupOf aq ico octa (.id (processId aq id adj).1) adj' = subgroup aq ico octa (processId aq id adj).1 adj' := by
  obtain ⟨h1, h2⟩ := processId_idem (aq := aq) id adj adj'
  by_cases h : (processId aq id adj).1 = .sub true (.pair false 1)
  · rw [subgroupOf, h1, h]; rfl
  · rw [subgroupOf, h1, h2 h]

/-- **C77** O(3): the subgroup `id₂` of the conjugate of O(3) by `adj₁`. -/
theorem C77_self (haq : AsQuat aq) {ico octa : RotGroup} (hI : ico.Lawful) (hO : octa.Lawful)
    {adj₁ adj₂ : Elem} (h₁ : O3El adj₁) (h₂ : O3El adj₂) {id₂ : Id} {D : SubData Elem}
    (hD : subgroupOf aq ico octa (.id id₂) adj₂ = .ok D) :
    ∃ P₁ C₁ P C, subgroupOf aq ico octa (.id .o3) adj₁ = .ok ⟨Elem, O3El, combine aq, P₁, C₁⟩ ∧
      GSpace3D.restrict aq ico octa .o3 adj₁ (.o3 id₂ adj₂) = .ok ⟨D.H, D.El, D.mul, P, C⟩ ∧
      SameInclusion act3 D.El P fun h => after (D.parent h) P₁ := by
  obtain ⟨P₁, C₁, e₁, hr⟩ := C76_self haq ico octa h₁
  have hp := processId_el haq id₂ h₂
  obtain ⟨ρ, hc⟩ := conj haq hI hO hp hD
  obtain ⟨hu, ha⟩ := combine_adj haq h₁ hp
  obtain ⟨P, C, e, h⟩ := hc _ hu
  refine ⟨P₁, C₁, P, C, e₁, ?_, SameInclusion.of
    (fun x => (act3 adj₁)ᵀ * ((act3 (processId aq id₂ adj₂).2)ᵀ * ρ x * act3 (processId aq id₂ adj₂).2) * act3 adj₁)
    ?_ ?_⟩
  · have e2 : combineSubgroups aq ico octa .o3 adj₁ (.o3 id₂ adj₂) = .ok (.id (processId aq id₂ adj₂).1,
        combine aq adj₁ (adjointMap aq (inverse aq adj₁) (processId aq id₂ adj₂).2)) := rfl
    rw [GSpace3D.restrict, after_ok e2, subgroupOf_idem]
    exact e
  · intro x hx
    obtain ⟨g, hg, -, he⟩ := h x hx
    exact ⟨g, hg, by rw [he, ha, conj_conj]⟩
  · intro x hx
    obtain ⟨g, hg, hu, he⟩ := hc.parent hp hD x hx
    obtain ⟨g', hg', -, he'⟩ := hr.parent_ok g hu
    exact ⟨g', by rw [after_ok hg]; exact hg', by rw [he', he]⟩

theorem processId_false (id : SO3.Id) (q q' : UQuat) (adj : Elem) :
    processId aq (.sub false (SO3.processId aq id q).1) adj = (.sub false (SO3.processId aq id q).1, adj) := by
  have h := SO3.processId_idem (aq := aq) id q q'
  rcases he : (SO3.processId aq id q).1 with s | ⟨flip, n⟩ | ⟨a, n⟩
  · rfl
  · cases flip
    · rfl
    · refine processId_flip (fun hn => ?_) _ _
      rw [he, hn] at h
      exact absurd (congrArg Prod.fst h) (by simp [SO3.processId])
  · rw [he] at h
    have h2 := congrArg Prod.fst h
    simp only [SO3.processId] at h2
    split at h2 <;> simp at h2

/-- **C77** O(3): the subgroup `id₂` of a conjugate of SO(3).  This is also the id used by the bases of kernels of the
subgroups of SO(3), kernels/r3.py L205. -/
theorem C77_so3 (haq : AsQuat aq) {ico octa : RotGroup} (hI : ico.Lawful) (hO : octa.Lawful)
    {adj₁ : Elem} {adj₂ : UQuat} (h₁ : O3El adj₁) (h₂ : normSq adj₂ = 1) {id₂ : SO3.Id} {D : SubData UQuat}
    (hD : SO3.subgroupOf aq ico octa id₂ adj₂ = .ok D) :
    ∃ P₁ C₁ P C, subgroupOf aq ico octa (.id .so3) adj₁ =
        .ok ⟨UQuat, fun q => normSq q = 1, SO3.combine aq, P₁, C₁⟩ ∧
      GSpace3D.restrict aq ico octa .so3 adj₁ (.so3 id₂ adj₂) = .ok ⟨D.H, D.El, D.mul, P, C⟩ ∧
      SameInclusion act3 D.El P fun h => after (D.parent h) P₁ := by
  obtain ⟨P₁, C₁, e₁, hr, -⟩ := C76_so3 haq ico octa h₁
  have hp := SO3.processId_unit haq id₂ h₂
  obtain ⟨ρ, hc, hl⟩ := SO3.conj_lift haq hI hO hp hD
  obtain ⟨a, ha, hae, haa⟩ : ∃ a, so3ToO3 aq adj₁ (SO3.processId aq id₂ adj₂).2 = .ok a ∧ O3El a ∧
      act3 a = (act3 adj₁)ᵀ * rotOf (SO3.processId aq id₂ adj₂).2 * act3 adj₁ := by
    have hP : so3ToO3 aq adj₁ = P₁ := by
      have e0 : subgroup aq ico octa (.sub false (.str "so3")) adj₁ =
        .ok ⟨UQuat, fun q => normSq q = 1, SO3.combine aq, so3ToO3 aq adj₁, o3ToSo3 aq SO3.element adj₁⟩ := rfl
      have := Except.ok.inj (e0.symm.trans e₁)
      simp only [SubData.mk.injEq, heq_eq_eq, true_and] at this
      exact this.1
    rw [hP]
    exact hr.parent_ok _ hp
  have hu := combine_el haq h₁ hae
  have hca : act3 (combine aq adj₁ a) = rotOf (SO3.processId aq id₂ adj₂).2 * act3 adj₁ := by
    rw [combine_act haq h₁ hae, haa, ← mul_assoc, ← mul_assoc, (orth h₁).1, one_mul]
  obtain ⟨P, C, e, h⟩ := hl _ hu
  refine ⟨P₁, C₁, P, C, e₁, ?_, SameInclusion.of (fun x => (act3 adj₁)ᵀ *
    ((rotOf (SO3.processId aq id₂ adj₂).2)ᵀ * ρ x * rotOf (SO3.processId aq id₂ adj₂).2) * act3 adj₁) ?_ ?_⟩
  · have e2 : combineSubgroups aq ico octa .so3 adj₁ (.so3 id₂ adj₂) =
        .ok (.id (.sub false (SO3.processId aq id₂ adj₂).1), combine aq adj₁ a) := by
      change (so3ToO3 aq adj₁ (SO3.processId aq id₂ adj₂).2).bind (fun a =>
        .ok (NewId.id (.sub false (SO3.processId aq id₂ adj₂).1), combine aq adj₁ a)) = _
      rw [ha]; rfl
    rw [GSpace3D.restrict, after_ok e2, subgroupOf, processId_false id₂ adj₂ 0]
    exact e
  · intro x hx
    obtain ⟨g, hg, -, he⟩ := h x hx
    exact ⟨g, hg, by rw [he, hca, conj_conj]⟩
  · intro x hx
    obtain ⟨g, hg, hu, he⟩ := hc.parent hp hD x hx
    obtain ⟨g', hg', -, he'⟩ := hr.parent_ok g hu
    exact ⟨g', by rw [after_ok hg]; exact hg', by rw [he', he]⟩

/-! ### Cones and pyramids -/

theorem cone_conj (a t : ℝ) (A : Mat3) (f : ℤ) (hf : f = 0 ∨ f = 1) :
    (rotZ a * A)ᵀ * (rotZ t * mirrorY ^ f.toNat) * (rotZ a * A) = Aᵀ * (rotZ (t - 2 * a * f) * mirrorY ^ f.toNat) * A := by
  have key : rotZ (-a) * (rotZ t * mirrorY ^ f.toNat) * rotZ a = rotZ (t - 2 * a * f) * mirrorY ^ f.toNat := by
    rcases hf with rfl | rfl
    · simp only [Int.toNat_zero, pow_zero, mul_one, Int.cast_zero, mul_zero, sub_zero]
      rw [← rotZ_add, ← rotZ_add]; congr 1; ring
    · simp only [Int.toNat_one, pow_one, Int.cast_one, mul_one]
      rw [mul_assoc, mul_assoc, mirrorY_rotZ, ← mul_assoc, ← mul_assoc, ← rotZ_add, ← rotZ_add]; congr 2; ring
  rw [Matrix.transpose_mul, rotZ_transpose, ← key]
  simp only [mul_assoc]

/-- The adjoint element of a subgroup of a cone: the rotation by `a` around the axis. -/
theorem cone_adj (haq : AsQuat aq) {adj b : Elem} (hadj : O3El adj) {a : ℝ} (hb : O3El b)
    (hact : act3 b = (act3 adj)ᵀ * rotZ a * act3 adj) :
    O3El (combine aq adj b) ∧ act3 (combine aq adj b) = rotZ a * act3 adj := by
  refine ⟨combine_el haq hadj hb, ?_⟩
  rw [combine_act haq hadj hb, hact, ← mul_assoc, ← mul_assoc, (orth hadj).1, one_mul]

theorem conj_inj {A M M' : Mat3} (h1 : A * Aᵀ = 1) (h : Aᵀ * M * A = Aᵀ * M' * A) : M = M' := by
  have e : ∀ X : Mat3, A * (Aᵀ * X * A) * Aᵀ = X := fun X => by
    rw [← mul_assoc, ← mul_assoc, h1, one_mul, mul_assoc, h1, mul_one]
  rw [← e M, h, e]

/-- Reflections at `t - 2 a` instead of `t + a` are the same only for three axes. -/
theorem cone_iff {H : Type} {El : H → Prop} {A : Mat3} (hA : A * Aᵀ = 1) {θ : H → ℝ} {F : H → ℤ}
    (hF : ∀ h, El h → F h = 0 ∨ F h = 1) {x : H} (hx : El x) (hFx : F x = 1) {a : ℝ} {P Q : H → Except Err Elem}
    (hP : ∀ h, El h → ∃ g, P h = .ok g ∧ act3 g = Aᵀ * (rotZ (θ h - 2 * a * F h) * mirrorY ^ (F h).toNat) * A)
    (hQ : ∀ h, El h → ∃ g, Q h = .ok g ∧ act3 g = Aᵀ * (rotZ (θ h + F h * a) * mirrorY ^ (F h).toNat) * A) :
    SameInclusion act3 El P Q ↔ rotZ (3 * a) = 1 := by
  constructor
  · intro h
    obtain ⟨g, g', h1, h2, h3⟩ := h x hx
    obtain ⟨p, hp, hp'⟩ := hP x hx
    obtain ⟨q, hq, hq'⟩ := hQ x hx
    obtain rfl := Except.ok.inj (h1.symm.trans hp)
    obtain rfl := Except.ok.inj (h2.symm.trans hq)
    rw [hp', hq'] at h3
    have h4 := conj_inj hA h3
    rw [hFx, Int.toNat_one, pow_one, Int.cast_one, mul_one, one_mul] at h4
    have h5 := rotZ_mirror_cancel h4
    have e : 3 * a = -(θ x - 2 * a) + (θ x + a) := by ring
    rw [e, rotZ_add, ← h5, ← rotZ_add, neg_add_cancel, rotZ_zero]
  · intro h
    refine SameInclusion.of _ hP fun y hy => ?_
    obtain ⟨q, hq, hq'⟩ := hQ y hy
    refine ⟨q, hq, hq'.trans ?_⟩
    congr 3
    rcases hF y hy with h0 | h0
    · rw [h0]; simp
    · rw [h0, Int.cast_one, mul_one, one_mul, show θ y + a = θ y - 2 * a + 3 * a by ring, rotZ_add, h, mul_one]

/-- **C77** cones: what the subgroup of a cone at the axis `a` is.  The angles between its reflections and those of the
composition of the inclusions are `3 a`. -/
theorem C77_cone_partial (haq : AsQuat aq) (ico octa : RotGroup) {adj : Elem} (hadj : O3El adj) (a : ℝ) :
    ∃ P₁ C₁, subgroupOf aq ico octa (.id (.cone (-1))) adj = .ok ⟨O2.Elem, O2.IsElement, O2.combine, P₁, C₁⟩ ∧
      (∀ m : ℕ, 1 < m → ∃ P C, GSpace3D.restrict aq ico octa (.cone (-1)) adj (.planar (.o2 (some a) m)) =
          .ok ⟨Dihedral.Elem, fun e => Dihedral.isElement m e = true, Dihedral.combine m, P, C⟩ ∧
        (SameInclusion act3 (fun e => Dihedral.isElement m e = true) P (fun h => after (O2.dnToO2 m a h) P₁) ↔
          rotZ (3 * a) = 1)) ∧
      (∃ P C, GSpace3D.restrict aq ico octa (.cone (-1)) adj (.planar (.o2 (some a) 1)) =
          .ok ⟨ℤ, fun e => Cyclic.isElement 2 e = true, Cyclic.combine 2, P, C⟩ ∧
        (SameInclusion act3 (fun e => Cyclic.isElement 2 e = true) P (fun h => after (O2.flipToO2 a h) P₁) ↔
          rotZ (3 * a) = 1)) ∧
      (∃ P C, GSpace3D.restrict aq ico octa (.cone (-1)) adj (.planar (.o2 (some a) (-1))) =
          .ok ⟨O2.Elem, O2.IsElement, O2.combine, P, C⟩ ∧
        (SameInclusion act3 O2.IsElement P (fun h => P₁ (O2.selfParent a h)) ↔ rotZ (3 * a) = 1)) := by
  obtain ⟨P₁, C₁, e₁, hr, -⟩ := C76_cone haq ico octa hadj
  have hel' : ∀ (f : ℤ) (t : ℝ), (f = 0 ∨ f = 1) → O2.element (f, t) = .ok (O2.reduce (f, t)) := fun f t hf => if_pos hf
  have hred : ∀ (f : ℤ) (t : ℝ), (f = 0 ∨ f = 1) → ∃ g, P₁ (O2.reduce (f, t)) = .ok g ∧ O3El g ∧
      act3 g = (act3 adj)ᵀ * (rotZ t * mirrorY ^ f.toNat) * act3 adj := fun f t hf => by
    obtain ⟨g, h1, h0, h2⟩ := hr.parent_ok (O2.reduce (f, t)) ⟨hf, mod2pi_nonneg _, mod2pi_lt _⟩
    refine ⟨g, h1, h0, h2.trans ?_⟩
    rw [show (O2.reduce (f, t)).2 = mod2pi t from rfl, rotZ_mod2pi]
    rfl
  have hP₁ : (fun e => conToO3 aq adj (O2.reduce e)) = P₁ := by
    have e0 : subgroup aq ico octa (.cone (-1)) adj = .ok ⟨O2.Elem, O2.IsElement, O2.combine,
        fun e => conToO3 aq adj (O2.reduce e), o3ToCon aq (fun e => O2.elementOf .radians (e.1, .rad e.2)) adj⟩ := by
      rw [subgroup, if_pos rfl]
    have := Except.ok.inj (e0.symm.trans e₁)
    simp only [SubData.mk.injEq, heq_eq_eq, true_and] at this
    exact this.1
  obtain ⟨b, hb, hbe, hba⟩ := hred 0 a (.inl rfl)
  have hb' : conToO3 aq adj (O2.reduce (O2.reduce (0, a))) = .ok b := (congrFun hP₁ _).trans hb
  simp only [Int.toNat_zero, pow_zero, mul_one] at hba
  obtain ⟨hu, hua⟩ := cone_adj haq hadj hbe hba
  have hcomb : ∀ m : ℤ, GSpace3D.restrict aq ico octa (.cone (-1)) adj (.planar (.o2 (some a) m)) =
      subgroup aq ico octa (.cone m) (combine aq adj b) := by
    intro m
    have : combineSubgroups aq ico octa (.cone (-1)) adj (.planar (.o2 (some a) m)) =
        .ok (.id (.cone m), combine aq adj b) := by
      unfold combineSubgroups
      rw [show processId aq (.cone (-1)) adj = (.cone (-1), adj) from rfl]
      simp only
      rw [after_ok e₁, if_pos trivial, hel' 0 a (.inl rfl)]
      change (conToO3 aq adj (O2.reduce (O2.reduce (0, a)))).bind (fun b =>
        .ok (NewId.id (.cone m), combine aq adj b)) = _
      rw [hb']; rfl
    rw [GSpace3D.restrict, after_ok this]; rfl
  refine ⟨P₁, C₁, e₁, ?_, ?_, ?_⟩
  · intro m hm
    obtain ⟨P, C, e, h, -⟩ := C76_pyramid haq ico octa hu m hm
    refine ⟨P, C, (hcomb m).trans e, cone_iff (orth hadj).1 (θ := fun x => x.2 * (2 * π / m)) (F := fun x => x.1)
      (fun x hx => (Dihedral.isElement_iff.1 hx).1) (x := (1, 0)) ?_ rfl ?_ ?_⟩
    · rw [Dihedral.isElement_iff]; simp; omega
    · rintro ⟨f, x⟩ hx
      obtain ⟨g, h1, -, h2⟩ := h.parent_ok (f, x) hx
      exact ⟨g, h1, by rw [h2, hua, cone_conj _ _ _ _ (Dihedral.isElement_iff.1 hx).1]⟩
    · rintro ⟨f, x⟩ hx
      have hf' := (Dihedral.isElement_iff.1 hx).1
      obtain ⟨g, h1, -, h2⟩ := hred f (x * 2 * π / m + f * a) hf'
      refine ⟨g, by rw [O2.dnToO2, after_ok (hel' _ _ hf')]; exact h1, h2.trans ?_⟩
      congr 5; ring
  · obtain ⟨P, C, e, h, -⟩ := C76_mirror haq ico octa hu
    refine ⟨P, C, (hcomb 1).trans e, cone_iff (orth hadj).1 (θ := fun _ => 0) (F := fun x => x)
      (fun x hx => isElement_two.1 hx) (x := 1) (isElement_two.2 (.inr rfl)) rfl ?_ ?_⟩
    · intro x hx
      obtain ⟨g, h1, -, h2⟩ := h.parent_ok x hx
      refine ⟨g, h1, h2.trans ?_⟩
      rw [hua, ← cone_conj _ _ _ _ (isElement_two.1 hx), rotZ_zero, one_mul (mirrorY ^ x.toNat)]
    · intro x hx
      rcases isElement_two.1 hx with rfl | rfl
      · obtain ⟨g, h1, -, h2⟩ := hr.parent_ok O2.identity ⟨.inl rfl, le_refl _, by simp [O2.identity]; positivity⟩
        refine ⟨g, h1, h2.trans ?_⟩
        simp [O2.identity]
      · obtain ⟨g, h1, -, h2⟩ := hred 1 a (.inr rfl)
        refine ⟨g, ?_, h2.trans ?_⟩
        · rw [O2.flipToO2, if_neg (by omega), after_ok (hel' _ _ (.inr rfl))]; exact h1
        · simp
  · obtain ⟨P, C, e, h, -⟩ := C76_cone haq ico octa hu
    refine ⟨P, C, (hcomb (-1)).trans e, cone_iff (orth hadj).1 (θ := fun x => x.2) (F := fun x => x.1)
      (fun x hx => hx.1) (x := (1, 0)) ⟨.inr rfl, le_refl _, by simp; positivity⟩ rfl ?_ ?_⟩
    · rintro ⟨f, x⟩ hx
      obtain ⟨g, h1, -, h2⟩ := h.parent_ok (f, x) hx
      exact ⟨g, h1, by rw [h2, hua, cone_conj _ _ _ _ hx.1]⟩
    · rintro ⟨f, x⟩ hx
      obtain ⟨g, h1, -, h2⟩ := hred f (x + f * a) hx.1
      refine ⟨g, ?_, h2⟩
      have hk := O2.selfParent_reduce a f hx.1 x
      rw [show O2.reduce (f, x) = (f, x) from O2.reduce_of_isElement hx] at hk
      rw [hk]; exact h1

/-- **C77** pyramids: the subgroup of a pyramid at the axis `k`, whose angle is `2πk/n`. -/
theorem C77_pyramid_partial (haq : AsQuat aq) (ico octa : RotGroup) {adj : Elem} (hadj : O3El adj) (n m : ℕ) (hn : 1 < n)
    (hm : m ∣ n) (k : ℤ) (hk : 0 ≤ k ∧ k < (n / m : ℕ)) :
    ∃ P₁ C₁, subgroupOf aq ico octa (.id (.cone n)) adj =
        .ok ⟨Dihedral.Elem, fun e => Dihedral.isElement n e = true, Dihedral.combine n, P₁, C₁⟩ ∧
      (1 < m → ∃ P C, GSpace3D.restrict aq ico octa (.cone n) adj (.planar (.dih (some k) m)) =
          .ok ⟨Dihedral.Elem, fun e => Dihedral.isElement m e = true, Dihedral.combine m, P, C⟩ ∧
        (SameInclusion act3 (fun e => Dihedral.isElement m e = true) P (fun h => after (Dihedral.dmToDn n m k h) P₁) ↔
          rotZ (3 * (k * (2 * π / n))) = 1)) ∧
      (m = 1 → ∃ P C, GSpace3D.restrict aq ico octa (.cone n) adj (.planar (.dih (some k) 1)) =
          .ok ⟨ℤ, fun e => Cyclic.isElement 2 e = true, Cyclic.combine 2, P, C⟩ ∧
        (SameInclusion act3 (fun e => Cyclic.isElement 2 e = true) P (fun h => after (Dihedral.flipToDn n k h) P₁) ↔
          rotZ (3 * (k * (2 * π / n))) = 1)) := by
  have hm0 : 0 < m := Nat.pos_of_dvd_of_pos hm (by omega)
  obtain ⟨P₁, C₁, e₁, hr, -⟩ := C76_pyramid haq ico octa hadj n hn
  have hel' : ∀ e : Dihedral.Elem, Dihedral.isElement n e = true → Dihedral.element n e = .ok e := fun e he => by
    rw [Dihedral.element, if_pos he]
  have hP : ∀ e : Dihedral.Elem, Dihedral.isElement n e = true → ∃ g, after (Dihedral.element n e) P₁ = .ok g ∧
      act3 g = (act3 adj)ᵀ * (rotZ (e.2 * (2 * π / n)) * mirrorY ^ e.1.toNat) * act3 adj := fun e he =>
    let ⟨g, h1, _, h2⟩ := hr.parent_ok e he
    ⟨g, by rw [hel' e he]; exact h1, h2⟩
  obtain ⟨r, rfl⟩ := hm
  have hr0 : 0 < r := Nat.pos_of_mul_pos_left (lt_trans Nat.zero_lt_one hn)
  have hdiv : m * r / m = r := Nat.mul_div_cancel_left _ hm0
  rw [hdiv] at hk
  have hel : ∀ f x : ℤ, Dihedral.isElement m (f, x) = true → Dihedral.isElement (m * r) (f, x * r + f * k) = true := by
    intro f x hx
    rw [Dihedral.isElement_iff] at hx ⊢
    refine ⟨hx.1, ?_⟩
    obtain ⟨h0, h1⟩ := hx.2
    simp only at h0 h1 ⊢
    have hf := hx.1
    simp only at hf
    have h2 : x * r + r ≤ m * r := by nlinarith
    have h3 : 0 ≤ x * r := by positivity
    push_cast
    rcases hf with rfl | rfl <;> constructor <;> omega
  have hk0 : Dihedral.isElement (m * r) (0, k) = true := by
    rw [Dihedral.isElement_iff]
    refine ⟨.inl rfl, hk.1, ?_⟩
    have : (r : ℤ) ≤ (m * r : ℕ) := by push_cast; nlinarith
    simp only; omega
  have hP₁ : (fun e => conToO3 aq adj (e.1, Dihedral.radians (m * r) e)) = P₁ := by
    have e0 : subgroup aq ico octa (.cone (m * r : ℕ)) adj = .ok ⟨Dihedral.Elem, fun e => Dihedral.isElement (m * r) e = true,
        Dihedral.combine (m * r), fun e => conToO3 aq adj (e.1, Dihedral.radians (m * r) e),
        o3ToCon aq (fun e => Dihedral.elementOf (m * r) .radians (e.1, .rad e.2)) adj⟩ := by
      rw [subgroup, if_neg (by omega), if_pos (by omega)]; rfl
    have := Except.ok.inj (e0.symm.trans e₁)
    simp only [SubData.mk.injEq, heq_eq_eq, true_and] at this
    exact this.1
  obtain ⟨b, hb, hbe, hba⟩ := hr.parent_ok (0, k) hk0
  have hb' : conToO3 aq adj (0, Dihedral.radians (m * r) (0, k)) = .ok b := (congrFun hP₁ (0, k)).trans hb
  simp only [Int.toNat_zero, pow_zero, mul_one] at hba
  obtain ⟨hu, hua⟩ := cone_adj haq hadj hbe hba
  have hcomb : ∀ m' : ℕ, GSpace3D.restrict aq ico octa (.cone (m * r : ℕ)) adj (.planar (.dih (some k) m')) =
      subgroup aq ico octa (.cone m') (combine aq adj b) := by
    intro m'
    have : combineSubgroups aq ico octa (.cone (m * r : ℕ)) adj (.planar (.dih (some k) m')) =
        .ok (.id (.cone m'), combine aq adj b) := by
      unfold combineSubgroups
      rw [show processId aq (.cone (m * r : ℕ)) adj = (.cone (m * r : ℕ), adj) from rfl]
      simp only
      rw [after_ok e₁, if_pos (by omega), Int.toNat_natCast, hel' _ hk0]
      change (conToO3 aq adj (0, Dihedral.radians (m * r) (0, k))).bind (fun b =>
        .ok (NewId.id (.cone m'), combine aq adj b)) = _
      rw [hb']; rfl
    rw [GSpace3D.restrict, after_ok this]; rfl
  have hnR : ((m * r : ℕ) : ℝ) = m * r := by push_cast; ring
  have hmR : (m : ℝ) ≠ 0 := by positivity
  have hrR : (r : ℝ) ≠ 0 := by positivity
  refine ⟨P₁, C₁, e₁, ?_, ?_⟩
  · intro hm1
    obtain ⟨P, C, e, h, -⟩ := C76_pyramid haq ico octa hu m hm1
    refine ⟨P, C, (hcomb m).trans e, cone_iff (orth hadj).1 (θ := fun x => x.2 * (2 * π / m)) (F := fun x => x.1)
      (fun x hx => (Dihedral.isElement_iff.1 hx).1) (x := (1, 0)) ?_ rfl ?_ ?_⟩
    · rw [Dihedral.isElement_iff]; simp; omega
    · rintro ⟨f, x⟩ hx
      obtain ⟨g, h1, -, h2⟩ := h.parent_ok (f, x) hx
      exact ⟨g, h1, by rw [h2, hua, cone_conj _ _ _ _ (Dihedral.isElement_iff.1 hx).1]⟩
    · rintro ⟨f, x⟩ hx
      obtain ⟨g, h1, h2⟩ := hP _ (hel f x hx)
      refine ⟨g, by rw [Dihedral.dmToDn, hdiv]; exact h1, h2.trans ?_⟩
      congr 4; rw [hnR]; push_cast; field_simp
  · rintro rfl
    obtain ⟨P, C, e, h, -⟩ := C76_mirror haq ico octa hu
    refine ⟨P, C, (hcomb 1).trans e, cone_iff (orth hadj).1 (θ := fun _ => 0) (F := fun x => x)
      (fun x hx => isElement_two.1 hx) (x := 1) (isElement_two.2 (.inr rfl)) rfl ?_ ?_⟩
    · intro x hx
      obtain ⟨g, h1, -, h2⟩ := h.parent_ok x hx
      refine ⟨g, h1, h2.trans ?_⟩
      rw [hua, ← cone_conj _ _ _ _ (isElement_two.1 hx), rotZ_zero, one_mul (mirrorY ^ x.toNat)]
    · intro x hx
      rcases isElement_two.1 hx with rfl | rfl
      · obtain ⟨g, h1, -, h2⟩ := hr.parent_ok Dihedral.identity (by
          rw [Dihedral.isElement_iff]; exact ⟨.inl rfl, le_refl _, by simp [Dihedral.identity]; omega⟩)
        refine ⟨g, h1, h2.trans ?_⟩
        simp [Dihedral.identity]
      · have h0 := hel 1 0 (by rw [Dihedral.isElement_iff]; simp)
        simp only [zero_mul, one_mul, zero_add] at h0
        obtain ⟨g, h1, h2⟩ := hP (1, k) (by simpa using h0)
        refine ⟨g, ?_, h2.trans ?_⟩
        · rw [Dihedral.flipToDn, if_neg (by omega)]; exact h1
        · simp

/-! ### Violations -/

theorem rotZ_pi_ne : rotZ (3 * π) ≠ 1 := by
  intro h
  have := congrFun (congrFun h 0) 0
  rw [show 3 * π = π + (1 : ℤ) * (2 * π) by push_cast; ring, rotZ_periodic] at this
  simp [rotZ] at this
  norm_num at this

/-- **C77 is violated** for the mirror of a cone at the axis `π`. -/
theorem C77_cone_violated (haq : AsQuat aq) (ico octa : RotGroup) {adj : Elem} (hadj : O3El adj) :
    ∃ P₁ C₁ P C, subgroupOf aq ico octa (.id (.cone (-1))) adj = .ok ⟨O2.Elem, O2.IsElement, O2.combine, P₁, C₁⟩ ∧
      GSpace3D.restrict aq ico octa (.cone (-1)) adj (.planar (.o2 (some π) 1)) =
          .ok ⟨ℤ, fun e => Cyclic.isElement 2 e = true, Cyclic.combine 2, P, C⟩ ∧
      ¬ SameInclusion act3 (fun e => Cyclic.isElement 2 e = true) P (fun h => after (O2.flipToO2 π h) P₁) := by
  obtain ⟨P₁, C₁, e₁, -, ⟨P, C, h1, h2⟩, -⟩ := C77_cone_partial haq ico octa hadj π
  exact ⟨P₁, C₁, P, C, e₁, h1, fun h => rotZ_pi_ne (h2.1 h)⟩

/-- **C77 is violated** for the rotations of a cone: the restriction always fails. -/
theorem C77_cone_rotations_violated (haq : AsQuat aq) (ico octa : RotGroup) {adj : Elem} (hadj : O3El adj) :
    (∀ m : ℤ, GSpace3D.restrict aq ico octa (.cone (-1)) adj (.planar (.o2 none m)) = .error .assertion) ∧
    ∀ n m : ℕ, 1 < n → GSpace3D.restrict aq ico octa (.cone n) adj (.planar (.dih none m)) = .error .assertion := by
  constructor
  · intro m
    obtain ⟨P₁, C₁, e₁, -⟩ := C76_cone haq ico octa hadj
    have : combineSubgroups aq ico octa (.cone (-1)) adj (.planar (.o2 none m)) = .ok (.noAxis m, adj) := by
      unfold combineSubgroups
      rw [show processId aq (.cone (-1)) adj = (.cone (-1), adj) from rfl]
      simp only
      rw [after_ok e₁, if_pos trivial]
    rw [GSpace3D.restrict, after_ok this]; rfl
  · intro n m hn
    obtain ⟨P₁, C₁, e₁, -⟩ := C76_pyramid haq ico octa hadj n hn
    have : combineSubgroups aq ico octa (.cone n) adj (.planar (.dih none m)) = .ok (.noAxis m, adj) := by
      unfold combineSubgroups
      rw [show processId aq (.cone n) adj = (.cone n, adj) from rfl]
      simp only
      rw [after_ok e₁, if_pos (by omega)]
    rw [GSpace3D.restrict, after_ok this]; rfl

/-- **C77 is violated** for the trivial subgroup of a mirror group: the restriction is the mirror group, which contains a
reflection. -/
theorem C77_mirror_violated (haq : AsQuat aq) (ico octa : RotGroup) {adj : Elem} (hadj : O3El adj) :
    ∃ D, GSpace3D.restrict aq ico octa (.cone 1) adj (.planar (.cyc 1)) = .ok D ∧
      ∃ h g, D.El h ∧ D.parent h = .ok g ∧ act3 g = (act3 adj)ᵀ * mirrorY * act3 adj := by
  obtain ⟨P₁, C₁, e₁, hr, -⟩ := C76_mirror haq ico octa hadj
  have : combineSubgroups aq ico octa (.cone 1) adj (.planar (.cyc 1)) = .ok (.id (.cone 1), adj) := by
    unfold combineSubgroups
    rw [show processId aq (.cone 1) adj = (.cone 1, adj) from rfl]
    simp only
    rw [after_ok e₁, if_pos trivial, if_pos (by norm_num)]
  obtain ⟨g, h1, -, h2⟩ := hr.parent_ok 1 (isElement_two.2 (.inr rfl))
  exact ⟨⟨ℤ, _, _, P₁, C₁⟩, by rw [GSpace3D.restrict, after_ok this]; exact e₁, (1 : ℤ), g, isElement_two.2 (.inr rfl), h1, by simpa using h2⟩

/-- **C77 is violated** for the groups of rotations: the restriction to their subgroups always fails. -/
theorem C77_rotations_violated (ico octa : RotGroup) (x : SO3.Id) (hx : x ≠ .str "so3") (adj : Elem) (id₂ : SubId) :
    ∃ e, GSpace3D.restrict aq ico octa (.sub false x) adj id₂ = .error e := by
  obtain ⟨y, adj', hp, hy⟩ : ∃ y adj', processId aq (.sub false x) adj = (.sub false y, adj') ∧ y ≠ .str "so3" ∧
      ∀ a n, y ≠ .axis a n := by
    rcases x with s | ⟨flip, n⟩ | ⟨a, n⟩
    · exact ⟨_, _, rfl, hx, by simp⟩
    · by_cases h : flip = true ∧ n = 1
      · obtain ⟨rfl, rfl⟩ := h
        exact ⟨_, _, rfl, by simp, by simp⟩
      · refine ⟨.pair flip n, adj, ?_, by simp, by simp⟩
        cases flip
        · rfl
        · exact processId_flip (fun hn => h ⟨rfl, hn⟩) _ _
    · by_cases h : n = 1
      · subst h
        exact ⟨_, _, rfl, by simp, by simp⟩
      · refine ⟨.pair true n, combine aq (inverse aq (0, quat 0 0 (sin (a / 2 / 2)) (cos (a / 2 / 2)))) adj, ?_, by simp,
          by simp⟩
        change processId aq (.sub false (.pair true n)) _ = _
        rw [processId_flip h]
  suffices h : ∃ e, combineSubgroups aq ico octa (.sub false x) adj id₂ = .error e by
    obtain ⟨e, he⟩ := h
    exact ⟨e, by rw [GSpace3D.restrict, he]; rfl⟩
  unfold combineSubgroups
  rw [hp]
  simp only
  rcases hs : subgroup aq ico octa (.sub false y) adj' with e | D
  · exact ⟨e, rfl⟩
  rcases y with s | ⟨flip, n⟩ | ⟨a, n⟩
  · exact ⟨.notImplemented, by simp only [after]; exact if_neg fun h => hy.1 (by rw [h])⟩
  · cases flip
    · exact ⟨_, rfl⟩
    · by_cases hn : n = -1
      · subst hn
        rcases id₂ with _ | _ | _ | (_ | _ | _) | _ <;> exact ⟨.assertion, rfl⟩
      · have hn' : ∀ {α : Type} (r : Except Err α), (if n = -1 then Except.error Err.assertion else r) = r := fun r => if_neg hn
        rcases id₂ with _ | _ | _ | (_ | ⟨k, m⟩ | _) | _
        rotate_left 4
        · simp only [after, hn']
          rcases Dihedral.combineSubgroups n.toNat (some 1, n.toNat) (.inr (k, m)) with e | d
          · exact ⟨e, rfl⟩
          · exact ⟨.attribute, rfl⟩
        all_goals exact ⟨.type, if_neg hn⟩
  · exact absurd rfl (hy.2 a n)

/-- **C77 is violated** for the products of the inversion with rotations: the trivial subgroup of the factor C_2 gives the
group with the inversion, the whole factor C_2 fails. -/
theorem C77_cylinder_violated (haq : AsQuat aq) (ico octa : RotGroup) {adj : Elem} (hadj : O3El adj) (m : ℕ) (hm : 1 < m) :
    (∃ D, GSpace3D.restrict aq ico octa (.sub true (.pair false (-1))) adj (.prod 1 (.cyc m)) = .ok D ∧
      ∃ h g, D.El h ∧ D.parent h = .ok g ∧ act3 g = -1) ∧
    GSpace3D.restrict aq ico octa (.sub true (.pair false (-1))) adj (.prod 2 (.cyc m)) = .error .value := by
  obtain ⟨P₁, C₁, e₁, -⟩ := C76_cylinder haq ico octa hadj
  have key : ∀ i : ℤ, combineSubgroups aq ico octa (.sub true (.pair false (-1))) adj (.prod i (.cyc m)) =
      .ok (.int i m, adj) := by
    intro i
    unfold combineSubgroups
    rw [show processId aq (.sub true (.pair false (-1))) adj = (.sub true (.pair false (-1)), adj) from rfl]
    simp only
    rw [after_ok e₁, if_neg (by norm_num)]
  obtain ⟨P, C, e, hr, -⟩ := C76_cylinder_discrete haq ico octa hadj m hm
  constructor
  · have hel : Cyclic.isElement 2 (1, (0 : ℤ)).1 = true ∧ Cyclic.isElement m ((1 : ℤ), (0 : ℤ)).2 = true :=
      ⟨isElement_two.2 (.inr rfl), by rw [Cyclic.isElement_iff]; simp; omega⟩
    obtain ⟨g, h1, -, h2⟩ := hr.parent_ok (1, 0) hel
    refine ⟨⟨ℤ × ℤ, fun e => Cyclic.isElement 2 e.1 = true ∧ Cyclic.isElement m e.2 = true, pairMul (Cyclic.combine m), P, C⟩, ?_,
      ((1, 0) : ℤ × ℤ), g, hel, h1, ?_⟩
    · rw [GSpace3D.restrict, after_ok (key 1), subgroupOf, if_pos rfl]
      have : processId aq (.sub true (.pair false m)) adj = (.sub true (.pair false m), adj) := by
        unfold processId
        simp only
        split
        · rename_i h; injection h with _ h; injection h with _ h; exact absurd h (by omega)
        · simp_all
        · rfl
      rw [this]; exact e
    · rw [h2]; simp [rotZ_zero, (orth hadj).2]
  · rw [GSpace3D.restrict, after_ok (key 2), subgroupOf, if_neg (by norm_num), if_neg (by norm_num)]

/-- **C77 is violated** for the group of the inversion: its trivial subgroup is itself, itself fails. -/
theorem C77_inversion_violated (ico octa : RotGroup) (adj : Elem) :
    (∃ D, GSpace3D.restrict aq ico octa (.sub true (.pair false 1)) adj (.planar (.cyc 1)) = .ok D ∧
      ∃ h g, D.El h ∧ D.parent h = .ok g ∧ act3 g = -1) ∧
    GSpace3D.restrict aq ico octa (.sub true (.pair false 1)) adj (.planar (.cyc 2)) = .error .value := by
  obtain ⟨P, C, e, hr, -⟩ := C76_inversion (aq := aq) ico octa identity_el
  have key : ∀ m : ℤ, combineSubgroups aq ico octa (.sub true (.pair false 1)) adj (.planar (.cyc m)) =
      .ok (.int m 1, identity) := by
    intro m
    unfold combineSubgroups
    rw [show processId aq (.sub true (.pair false 1)) adj = (.sub true (.pair false 1), identity) from rfl]
    simp only
    rw [after_ok e, if_pos trivial]
  constructor
  · obtain ⟨g, h1, -, h2⟩ := hr.parent_ok 1 (isElement_two.2 (.inr rfl))
    refine ⟨⟨ℤ, fun e => Cyclic.isElement 2 e = true, Cyclic.combine 2, P, C⟩, ?_, (1 : ℤ), g, isElement_two.2 (.inr rfl), h1, ?_⟩
    · rw [GSpace3D.restrict, after_ok (key 1), subgroupOf, if_pos rfl]
      exact e
    · rw [h2, identity_act]; simp
  · rw [GSpace3D.restrict, after_ok (key 2), subgroupOf, if_neg (by norm_num), if_neg (by norm_num)]

/-! ### The hypotheses are satisfied -/

/-- The subgroup D_6 of D_12 at the axis 1, of a cone and of a group of rotations; the adjoint element is a rotation by 90
degrees around the first axis. -/
example : O3El (1, quat (sin (π / 4)) 0 0 (cos (π / 4))) ∧ 6 ∣ 12 ∧ (0 : ℤ) ≤ 1 ∧ (1 : ℤ) < (12 / 6 : ℕ) := by
  refine ⟨⟨.inr rfl, ?_⟩, by norm_num, by norm_num, by norm_num⟩
  rw [SO3.normSq_quat]; nlinarith [sin_sq_add_cos_sq (π / 4)]

/-- A subgroup of the subgroup SO(3) of O(3) that exists: four rotations. -/
example (ico octa : RotGroup) : ∃ D, SO3.subgroupOf aq ico octa (.pair false 4) SO3.identity = .ok D := by
  rw [SO3.subgroupOf, show SO3.processId aq (.pair false 4) SO3.identity = (.pair false 4, SO3.identity) from rfl,
    SO3.subgroup, if_neg (by simp), if_neg (by simp), if_pos (by simp)]
  exact ⟨_, rfl⟩

/-- A subgroup of O(3) that exists: the mirror group. -/
example (ico octa : RotGroup) : ∃ D, subgroupOf aq ico octa (.id (.cone 1)) identity = .ok D := by
  rw [subgroupOf, show processId aq (.cone 1) identity = (.cone 1, identity) from rfl, subgroup, if_neg (by omega),
    if_neg (by omega), if_pos rfl]
  exact ⟨_, rfl⟩

end O3

end Escnn
