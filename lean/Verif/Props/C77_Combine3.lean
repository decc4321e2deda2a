import Verif.Lemmas.Subgroups3
import Verif.Props.C07_O2Subgroups

/-!
# C77: subgroups of subgroups of SO(3) and O(3)
-/

namespace Escnn

open Real Matrix Quaternion

variable {aq : UQuat → UQuat}

theorem SameInclusion.of {G H : Type} {act : G → Mat3} {El : H → Prop} {P Q : H → Except Err G} (M : H → Mat3)
    (h1 : ∀ x, El x → ∃ g, P x = .ok g ∧ act g = M x) (h2 : ∀ x, El x → ∃ g, Q x = .ok g ∧ act g = M x) :
    SameInclusion act El P Q := fun x hx =>
  let ⟨g, hg, e⟩ := h1 x hx
  let ⟨g', hg', e'⟩ := h2 x hx
  ⟨g, g', hg, hg', e.trans e'.symm⟩

theorem after_ok {α β : Type*} {r : Except Err α} {k : α → Except Err β} {a : α} (h : r = .ok a) : after r k = k a := by
  rw [h]; rfl

theorem conj_conj (A B M : Mat3) : (B * A)ᵀ * M * (B * A) = Aᵀ * (Bᵀ * M * B) * A := by
  rw [Matrix.transpose_mul]; simp only [mul_assoc]

namespace SO3

theorem combine_adj (haq : AsQuat aq) {a b : UQuat} (ha : normSq a = 1) (hb : normSq b = 1) :
    normSq (combine aq a (adjointMap aq (inverse aq a) b)) = 1 ∧
      rotOf (combine aq a (adjointMap aq (inverse aq a) b)) = rotOf b * rotOf a := by
  refine ⟨combine_unit haq ha (combine_unit haq (combine_unit haq (inverse_unit haq ha) hb)
    (inverse_unit haq (inverse_unit haq ha))), ?_⟩
  rw [adjointMap, combine_spec haq, combine_spec haq, combine_spec haq, inverse_spec haq, inverse_spec haq, inverse_spec haq,
    Matrix.transpose_transpose, ← mul_assoc, ← mul_assoc, rotOf_orth ha, one_mul]

/-- **C77** SO(3): the subgroup `id₂` of the conjugate `('so3', adj₁)`. -/
theorem C77_self (haq : AsQuat aq) (qOf : Mat3 → UQuat) {ico octa : RotGroup} (hI : ico.Lawful) (hO : octa.Lawful)
    {adj₁ adj₂ : UQuat} (h₁ : normSq adj₁ = 1) (h₂ : normSq adj₂ = 1) {id₂ : Id} {D : SubData UQuat}
    (hD : subgroupOf aq ico octa id₂ adj₂ = .ok D) :
    ∃ P₁ C₁ P C, subgroupOf aq ico octa (.str "so3") adj₁ =
        .ok ⟨UQuat, fun q => normSq q = 1, combine aq, P₁, C₁⟩ ∧
      combined aq qOf ico octa (.str "so3") adj₁ (.so3 id₂ adj₂) = .ok ⟨D.H, D.El, D.mul, P, C⟩ ∧
      SameInclusion rotOf D.El P fun h => after (D.parent h) P₁ := by
  obtain ⟨P₁, C₁, e₁, hr⟩ := C75_self haq ico octa h₁
  have hp := processId_unit haq id₂ h₂
  obtain ⟨ρ, hc, -⟩ := conj_lift haq hI hO hp hD
  obtain ⟨hu, ha⟩ := combine_adj haq h₁ hp
  obtain ⟨P, C, e, h⟩ := hc _ hu
  refine ⟨P₁, C₁, P, C, e₁, ?_, SameInclusion.of
    (fun x => (rotOf adj₁)ᵀ * ((rotOf (processId aq id₂ adj₂).2)ᵀ * ρ x * rotOf (processId aq id₂ adj₂).2) * rotOf adj₁)
    ?_ ?_⟩
  · have e2 : combineSubgroups aq qOf ico octa (.str "so3") adj₁ (.so3 id₂ adj₂) = .ok ((processId aq id₂ adj₂).1,
        combine aq adj₁ (adjointMap aq (inverse aq adj₁) (processId aq id₂ adj₂).2)) := rfl
    rw [combined, after_ok e2, subgroupOf, processId_idem]
    exact e
  · intro x hx
    obtain ⟨g, hg, -, he⟩ := h x hx
    exact ⟨g, hg, by rw [he, ha, conj_conj]⟩
  · intro x hx
    obtain ⟨g, hg, hu, he⟩ := hc.parent hp hD x hx
    obtain ⟨g', hg', -, he'⟩ := hr.parent_ok g hu
    exact ⟨g', by rw [after_ok hg]; exact hg', by rw [he', he]⟩

theorem processId_flip {n : ℤ} (hn : n ≠ 1) (adj : UQuat) : processId aq (.pair true n) adj = (.pair true n, adj) := by
  simp only [processId]
  split <;> simp_all

/-- The branches without a new adjoint element. -/
theorem combined_false {qOf : Mat3 → UQuat} {ico octa : RotGroup} {n m : ℤ} {adj : UQuat} {D : SubData UQuat}
    (h : subgroup aq ico octa (.pair false n) adj = .ok D) :
    combined aq qOf ico octa (.pair false n) adj (.planar (.cyc m)) = subgroup aq ico octa (.pair false m) adj := by
  change after (after (subgroup aq ico octa (.pair false n) adj) fun _ => Except.ok (Id.pair false m, adj)) _ = _
  rw [h]; rfl

theorem combined_o2_none {qOf : Mat3 → UQuat} {ico octa : RotGroup} {n m : ℤ} (hn : n ≠ 1) {adj : UQuat} {D : SubData UQuat}
    (h : subgroup aq ico octa (.pair true n) adj = .ok D) :
    combined aq qOf ico octa (.pair true n) adj (.planar (.o2 none m)) = subgroup aq ico octa (.pair false m) adj := by
  unfold combined combineSubgroups
  simp only [processId_flip hn, h]
  rfl

theorem combined_dih_none {qOf : Mat3 → UQuat} {ico octa : RotGroup} {n : ℤ} {m : ℕ} (hn : n ≠ 1) {adj : UQuat}
    {D : SubData UQuat} (h : subgroup aq ico octa (.pair true n) adj = .ok D) :
    combined aq qOf ico octa (.pair true n) adj (.planar (.dih none m)) = subgroup aq ico octa (.pair false m) adj := by
  unfold combined combineSubgroups
  simp only [processId_flip hn, h]
  rfl

theorem combined_o2_some {qOf : Mat3 → UQuat} {ico octa : RotGroup} {n m : ℤ} (hn : n ≠ 1) {adj : UQuat} {a : ℝ}
    {D : SubData UQuat} (h : subgroup aq ico octa (.pair true n) adj = .ok D) :
    combined aq qOf ico octa (.pair true n) adj (.planar (.o2 (some a) m)) = subgroupOf aq ico octa (.axis a m) adj := by
  unfold combined combineSubgroups
  simp only [processId_flip hn, h]
  rfl

theorem combined_dih_some {qOf : Mat3 → UQuat} {ico octa : RotGroup} {n : ℤ} {m : ℕ} (hn : n ≠ 1) {adj : UQuat} {k : ℤ}
    {D : SubData UQuat} (h : subgroup aq ico octa (.pair true n) adj = .ok D) :
    combined aq qOf ico octa (.pair true n) adj (.planar (.dih (some k) m)) =
      subgroupOf aq ico octa (.axis (k * 2 * π / n) m) adj := by
  unfold combined combineSubgroups
  simp only [processId_flip hn, h]
  rfl

/-- **C77** SO(3): the subgroups of the group of all rotations around an axis. -/
theorem C77_so2 (haq : AsQuat aq) (qOf : Mat3 → UQuat) (ico octa : RotGroup) {adj : UQuat} (hadj : normSq adj = 1) (m : ℕ)
    (hm : 0 < m) :
    ∃ P₁ C₁, subgroupOf aq ico octa (.pair false (-1)) adj = .ok ⟨ℝ, SO2.IsElement, SO2.combine, P₁, C₁⟩ ∧
      (∃ P C, combined aq qOf ico octa (.pair false (-1)) adj (.planar (.cyc m)) =
          .ok ⟨ℤ, fun e => Cyclic.isElement m e = true, Cyclic.combine m, P, C⟩ ∧
        SameInclusion rotOf (fun e => Cyclic.isElement m e = true) P fun h => P₁ (SO2.parentMap m h)) ∧
      ∃ P C, combined aq qOf ico octa (.pair false (-1)) adj (.planar (.cyc (-1))) =
          .ok ⟨ℝ, SO2.IsElement, SO2.combine, P, C⟩ ∧
        SameInclusion rotOf SO2.IsElement P P₁ := by
  obtain ⟨P₁, C₁, e₁, hr, -⟩ := C75_so2 haq ico octa hadj
  obtain ⟨P, C, e, h, -⟩ := C75_cyclic haq ico octa hadj m hm
  refine ⟨P₁, C₁, e₁, ⟨P, C, (combined_false e₁).trans e, ?_⟩, P₁, C₁, (combined_false e₁).trans e₁, fun x hx => ?_⟩
  · refine SameInclusion.of (fun x => (rotOf adj)ᵀ * rotZ (x * (2 * π / m)) * rotOf adj) ?_ ?_
    · intro x hx
      obtain ⟨g, h1, -, h2⟩ := h.parent_ok x hx
      exact ⟨g, h1, h2⟩
    · intro x hx
      obtain ⟨g, h1, -, h2⟩ := hr.parent_ok (SO2.parentMap m x) ⟨mod2pi_nonneg _, mod2pi_lt _⟩
      refine ⟨g, h1, h2.trans ?_⟩
      rw [SO2.parentMap, rotZ_mod2pi]
      congr 3; ring
  · obtain ⟨g, h1, -, -⟩ := hr.parent_ok x hx
    exact ⟨g, g, h1, h1, rfl⟩

theorem turn_el {m r : ℕ} (hr : 0 < r) {x : ℤ} (hx : Cyclic.isElement m x = true) : Cyclic.isElement (m * r) (x * r) = true := by
  simp only [Cyclic.isElement, Bool.and_eq_true, decide_eq_true_eq] at hx ⊢
  push_cast
  exact ⟨mul_nonneg hx.1 (by positivity), mul_lt_mul_of_pos_right hx.2 (by exact_mod_cast hr)⟩

theorem turn_eq {m r : ℕ} (hm : 0 < m) (hr : 0 < r) (x : ℤ) :
    ((x * r : ℤ) : ℝ) * (2 * π / ((m * r : ℕ) : ℝ)) = x * (2 * π / m) := by
  push_cast
  field_simp

/-- **C77** SO(3): the subgroups of a cyclic group of rotations. -/
theorem C77_cyclic (haq : AsQuat aq) (qOf : Mat3 → UQuat) (ico octa : RotGroup) {adj : UQuat} (hadj : normSq adj = 1)
    (n m : ℕ) (hn : 0 < n) (hm : m ∣ n) :
    ∃ P₁ C₁ P C, subgroupOf aq ico octa (.pair false n) adj =
        .ok ⟨ℤ, fun e => Cyclic.isElement n e = true, Cyclic.combine n, P₁, C₁⟩ ∧
      combined aq qOf ico octa (.pair false n) adj (.planar (.cyc m)) =
        .ok ⟨ℤ, fun e => Cyclic.isElement m e = true, Cyclic.combine m, P, C⟩ ∧
      SameInclusion rotOf (fun e => Cyclic.isElement m e = true) P fun h => after (Cyclic.parentMap n m h) P₁ := by
  have hm0 : 0 < m := Nat.pos_of_dvd_of_pos hm hn
  obtain ⟨P₁, C₁, e₁, hr, -⟩ := C75_cyclic haq ico octa hadj n hn
  obtain ⟨P, C, e, h, -⟩ := C75_cyclic haq ico octa hadj m hm0
  refine ⟨P₁, C₁, P, C, e₁, (combined_false e₁).trans e, ?_⟩
  refine SameInclusion.of (fun x => (rotOf adj)ᵀ * rotZ (x * (2 * π / m)) * rotOf adj) ?_ ?_
  · intro x hx
    obtain ⟨g, h1, -, h2⟩ := h.parent_ok x hx
    exact ⟨g, h1, h2⟩
  · intro x hx
    obtain ⟨r, rfl⟩ := hm
    have hr0 : 0 < r := Nat.pos_of_mul_pos_left hn
    have hv : x * ((m * r : ℕ) : ℤ) / m = x * r := by
      push_cast
      rw [show x * ((m : ℤ) * r) = x * r * m by ring, Int.mul_ediv_cancel _ (by exact_mod_cast hm0.ne')]
    obtain ⟨g, h1, -, h2⟩ := hr.parent_ok (x * r) (turn_el hr0 hx)
    have h3 : Cyclic.parentMap (m * r) m x = .ok (x * r) := by
      rw [Cyclic.parentMap, hv, Cyclic.element, if_pos (turn_el hr0 hx)]
    refine ⟨g, by rw [after_ok h3]; exact h1, h2.trans ?_⟩
    simp only [turn_eq hm0 hr0]

/-- **C77** SO(3): the subgroups of the group of all rotations around an axis and all flips. -/
theorem C77_o2 (haq : AsQuat aq) (qOf : Mat3 → UQuat) (ico octa : RotGroup) {adj : UQuat} (hadj : normSq adj = 1) (a : ℝ)
    (m : ℕ) :
    ∃ P₁ C₁, subgroupOf aq ico octa (.pair true (-1)) adj = .ok ⟨O2.Elem, O2.IsElement, O2.combine, P₁, C₁⟩ ∧
      (1 < m → ∃ P C, combined aq qOf ico octa (.pair true (-1)) adj (.planar (.o2 (some a) m)) =
          .ok ⟨Dihedral.Elem, fun e => Dihedral.isElement m e = true, Dihedral.combine m, P, C⟩ ∧
        SameInclusion rotOf (fun e => Dihedral.isElement m e = true) P fun h => after (O2.dnToO2 m a h) P₁) ∧
      (∃ P C, combined aq qOf ico octa (.pair true (-1)) adj (.planar (.o2 (some a) 1)) =
          .ok ⟨ℤ, fun e => Cyclic.isElement 2 e = true, Cyclic.combine 2, P, C⟩ ∧
        SameInclusion rotOf (fun e => Cyclic.isElement 2 e = true) P fun h => after (O2.flipToO2 a h) P₁) ∧
      (∃ P C, combined aq qOf ico octa (.pair true (-1)) adj (.planar (.o2 (some a) (-1))) =
          .ok ⟨O2.Elem, O2.IsElement, O2.combine, P, C⟩ ∧
        SameInclusion rotOf O2.IsElement P fun h => P₁ (O2.selfParent a h)) ∧
      (0 < m → ∃ P C, combined aq qOf ico octa (.pair true (-1)) adj (.planar (.o2 none m)) =
          .ok ⟨ℤ, fun e => Cyclic.isElement m e = true, Cyclic.combine m, P, C⟩ ∧
        SameInclusion rotOf (fun e => Cyclic.isElement m e = true) P fun h =>
          after (O2.so2ToO2 (Cyclic.radians m h)) P₁) ∧
      (∃ P C, combined aq qOf ico octa (.pair true (-1)) adj (.planar (.o2 none (-1))) =
          .ok ⟨ℝ, SO2.IsElement, SO2.combine, P, C⟩ ∧
        SameInclusion rotOf SO2.IsElement P fun h => after (O2.so2ToO2 h) P₁) := by
  obtain ⟨P₁, C₁, e₁, hr, -⟩ := C75_o2 haq ico octa hadj
  have eP : subgroupOf aq ico octa (.pair true (-1)) adj = .ok ⟨O2.Elem, O2.IsElement, O2.combine, P₁, C₁⟩ := by
    rw [subgroupOf, processId_flip (by omega)]; exact e₁
  have hP : ∀ e : O2.Elem, O2.IsElement e → ∃ g, P₁ e = .ok g ∧
      rotOf g = (rotOf adj)ᵀ * (rotZ e.2 * flipX ^ e.1.toNat) * rotOf adj := fun e he =>
    let ⟨g, h1, _, h2⟩ := hr.parent_ok e he
    ⟨g, h1, h2⟩
  have hel : ∀ (f : ℤ) (t : ℝ), (f = 0 ∨ f = 1) → O2.IsElement (O2.reduce (f, t)) := fun f t hf =>
    ⟨hf, mod2pi_nonneg _, mod2pi_lt _⟩
  have hel' : ∀ (f : ℤ) (t : ℝ), (f = 0 ∨ f = 1) → O2.element (f, t) = .ok (O2.reduce (f, t)) := fun f t hf => if_pos hf
  have hred : ∀ (f : ℤ) (t : ℝ), (f = 0 ∨ f = 1) → ∃ g, P₁ (O2.reduce (f, t)) = .ok g ∧
      rotOf g = (rotOf adj)ᵀ * (rotZ t * flipX ^ f.toNat) * rotOf adj := fun f t hf => by
    obtain ⟨g, h1, h2⟩ := hP _ (hel f t hf)
    refine ⟨g, h1, h2.trans ?_⟩
    rw [show (O2.reduce (f, t)).2 = mod2pi t from rfl, rotZ_mod2pi]
    rfl
  obtain ⟨hA, hB, -, -⟩ := C75_ids haq hadj a (-1)
  refine ⟨P₁, C₁, eP, ?_, ?_, ?_, ?_, ?_⟩
  · intro hm
    obtain ⟨adj', e', hu, hz, hf⟩ := (C75_ids haq hadj a m).1 (by omega)
    obtain ⟨P, C, e, h, -⟩ := C75_dihedral haq ico octa hu m hm
    refine ⟨P, C, (combined_o2_some (by omega) e₁).trans (by rw [subgroupOf, e']; exact e), ?_⟩
    refine SameInclusion.of (fun x => (rotOf adj)ᵀ * (rotZ (x.2 * 2 * π / m + x.1 * a) * flipX ^ x.1.toNat) * rotOf adj) ?_ ?_
    · rintro ⟨f, x⟩ hx
      obtain ⟨g, h1, -, h2⟩ := h.parent_ok (f, x) hx
      refine ⟨g, h1, h2.trans ?_⟩
      rcases (Dihedral.isElement_iff.1 hx).1 with rfl | rfl
      · simp only [Int.toNat_zero, pow_zero, mul_one, hz, Int.cast_zero, zero_mul, add_zero]
        congr 3; ring
      · simp only [Int.toNat_one, pow_one, hf, Int.cast_one, one_mul]
        congr 4; ring
    · rintro ⟨f, x⟩ hx
      have hf' := (Dihedral.isElement_iff.1 hx).1
      obtain ⟨g, h1, h2⟩ := hred f (x * 2 * π / m + f * a) hf'
      exact ⟨g, by rw [O2.dnToO2, after_ok (hel' _ _ hf')]; exact h1, h2⟩
  · obtain ⟨adj', e', hu, hf⟩ := hB
    obtain ⟨P, C, e, h, -⟩ := C75_cyclic haq ico octa hu 2 (by omega)
    refine ⟨P, C, (combined_o2_some (by omega) e₁).trans (by rw [subgroupOf, e']; exact e), ?_⟩
    refine SameInclusion.of (fun x => (rotOf adj)ᵀ * (rotZ (x * a) * flipX ^ x.toNat) * rotOf adj) ?_ ?_
    · intro x hx
      obtain ⟨g, h1, -, h2⟩ := h.parent_ok x hx
      refine ⟨g, h1, h2.trans ?_⟩
      rcases O3.isElement_two.1 hx with rfl | rfl
      · simp [rotZ_zero, rotOf_orth' hu, rotOf_orth' hadj]
      · simp only [Int.toNat_one, pow_one, Int.cast_one, one_mul]
        rw [← hf]; congr 3; simp
    · intro x hx
      rcases O3.isElement_two.1 hx with rfl | rfl
      · obtain ⟨g, h1, h2⟩ := hP O2.identity ⟨.inl rfl, le_refl _, by simp [O2.identity]; positivity⟩
        refine ⟨g, h1, h2.trans ?_⟩
        simp [O2.identity]
      · obtain ⟨g, h1, h2⟩ := hred 1 a (.inr rfl)
        refine ⟨g, ?_, h2.trans ?_⟩
        · rw [O2.flipToO2, if_neg (by omega), after_ok (hel' _ _ (.inr rfl))]; exact h1
        · simp
  · obtain ⟨adj', e', hu, hz, hf⟩ := hA (by omega)
    obtain ⟨P, C, e, h, -⟩ := C75_o2 haq ico octa hu
    refine ⟨P, C, (combined_o2_some (by omega) e₁).trans (by rw [subgroupOf, e']; exact e), ?_⟩
    refine SameInclusion.of (fun x => (rotOf adj)ᵀ * (rotZ (x.2 + x.1 * a) * flipX ^ x.1.toNat) * rotOf adj) ?_ ?_
    · rintro ⟨f, x⟩ hx
      obtain ⟨g, h1, -, h2⟩ := h.parent_ok (f, x) hx
      refine ⟨g, h1, h2.trans ?_⟩
      rcases hx.1 with h0 | h0 <;> simp only at h0 <;> subst h0
      · simp only [Int.toNat_zero, pow_zero, mul_one, hz, Int.cast_zero, zero_mul, add_zero]
      · simp only [Int.toNat_one, pow_one, hf, Int.cast_one, one_mul]
    · rintro ⟨f, x⟩ hx
      obtain ⟨g, h1, h2⟩ := hred f (x + f * a) hx.1
      refine ⟨g, ?_, h2⟩
      have hk := O2.selfParent_reduce a f hx.1 x
      rw [show O2.reduce (f, x) = (f, x) from O2.reduce_of_isElement hx] at hk
      rw [hk]; exact h1
  · intro hm
    obtain ⟨P, C, e, h, -⟩ := C75_cyclic haq ico octa hadj m hm
    refine ⟨P, C, (combined_o2_none (by omega) e₁).trans e, ?_⟩
    refine SameInclusion.of (fun x => (rotOf adj)ᵀ * rotZ (x * (2 * π / m)) * rotOf adj) ?_ ?_
    · intro x hx
      obtain ⟨g, h1, -, h2⟩ := h.parent_ok x hx
      exact ⟨g, h1, h2⟩
    · intro x hx
      obtain ⟨g, h1, h2⟩ := hred 0 (Cyclic.radians m x) (.inl rfl)
      refine ⟨g, by rw [O2.so2ToO2, after_ok (hel' _ _ (.inl rfl))]; exact h1, h2.trans ?_⟩
      rw [Cyclic.radians]
      simp only [Int.toNat_zero, pow_zero, mul_one]
      congr 3; ring
  · obtain ⟨P, C, e, h, -⟩ := C75_so2 haq ico octa hadj
    refine ⟨P, C, (combined_o2_none (by omega) e₁).trans e, ?_⟩
    refine SameInclusion.of (fun x => (rotOf adj)ᵀ * rotZ x * rotOf adj) ?_ ?_
    · intro x hx
      obtain ⟨g, h1, -, h2⟩ := h.parent_ok x hx
      exact ⟨g, h1, h2⟩
    · intro x hx
      obtain ⟨g, h1, h2⟩ := hred 0 x (.inl rfl)
      refine ⟨g, by rw [O2.so2ToO2, after_ok (hel' _ _ (.inl rfl))]; exact h1, h2.trans ?_⟩
      simp

/-- **C77** SO(3): the subgroups of a dihedral group of rotations. -/
theorem C77_dihedral (haq : AsQuat aq) (qOf : Mat3 → UQuat) (ico octa : RotGroup) {adj : UQuat} (hadj : normSq adj = 1)
    (n m : ℕ) (hn : 1 < n) (hm : m ∣ n) (k : ℤ) (hk : 0 ≤ k ∧ k < (n / m : ℕ)) :
    ∃ P₁ C₁, subgroupOf aq ico octa (.pair true n) adj =
        .ok ⟨Dihedral.Elem, fun e => Dihedral.isElement n e = true, Dihedral.combine n, P₁, C₁⟩ ∧
      (1 < m → ∃ P C, combined aq qOf ico octa (.pair true n) adj (.planar (.dih (some k) m)) =
          .ok ⟨Dihedral.Elem, fun e => Dihedral.isElement m e = true, Dihedral.combine m, P, C⟩ ∧
        SameInclusion rotOf (fun e => Dihedral.isElement m e = true) P fun h => after (Dihedral.dmToDn n m k h) P₁) ∧
      (m = 1 → ∃ P C, combined aq qOf ico octa (.pair true n) adj (.planar (.dih (some k) 1)) =
          .ok ⟨ℤ, fun e => Cyclic.isElement 2 e = true, Cyclic.combine 2, P, C⟩ ∧
        SameInclusion rotOf (fun e => Cyclic.isElement 2 e = true) P fun h => after (Dihedral.flipToDn n k h) P₁) ∧
      (∃ P C, combined aq qOf ico octa (.pair true n) adj (.planar (.dih none m)) =
          .ok ⟨ℤ, fun e => Cyclic.isElement m e = true, Cyclic.combine m, P, C⟩ ∧
        SameInclusion rotOf (fun e => Cyclic.isElement m e = true) P fun h => after (Dihedral.cnToDn n m h) P₁) := by
  have hm0 : 0 < m := Nat.pos_of_dvd_of_pos hm (by omega)
  obtain ⟨P₁, C₁, e₁, hr, -⟩ := C75_dihedral haq ico octa hadj n hn
  have eP : subgroupOf aq ico octa (.pair true n) adj =
      .ok ⟨Dihedral.Elem, fun e => Dihedral.isElement n e = true, Dihedral.combine n, P₁, C₁⟩ := by
    rw [subgroupOf, processId_flip (by omega)]; exact e₁
  have hP : ∀ e : Dihedral.Elem, Dihedral.isElement n e = true → ∃ g, after (Dihedral.element n e) P₁ = .ok g ∧
      rotOf g = (rotOf adj)ᵀ * (rotZ (e.2 * (2 * π / n)) * flipX ^ e.1.toNat) * rotOf adj := fun e he =>
    let ⟨g, h1, _, h2⟩ := hr.parent_ok e he
    ⟨g, by rw [Dihedral.element, if_pos he]; exact h1, h2⟩
  obtain ⟨r, rfl⟩ := hm
  have hr0 : 0 < r := Nat.pos_of_mul_pos_left (lt_trans Nat.zero_lt_one hn)
  have hdiv : m * r / m = r := Nat.mul_div_cancel_left _ hm0
  rw [hdiv] at hk
  have hel : ∀ f x : ℤ, Dihedral.isElement m (f, x) = true → Dihedral.isElement (m * r) (f, x * r + f * k) = true := by
    intro f x hx
    rw [Dihedral.isElement_iff] at hx ⊢
    refine ⟨hx.1, ?_⟩
    obtain ⟨h0, h1⟩ := hx.2
    simp only at h0 h1 ⊢
    have hf := hx.1
    simp only at hf
    have h2 : x * r + r ≤ m * r := by nlinarith
    have h3 : 0 ≤ x * r := by positivity
    push_cast
    rcases hf with rfl | rfl <;> constructor <;> omega
  have hnR : ((m * r : ℕ) : ℝ) = m * r := by push_cast; ring
  have hmR : (m : ℝ) ≠ 0 := by positivity
  have hrR : (r : ℝ) ≠ 0 := by positivity
  refine ⟨P₁, C₁, eP, ?_, ?_, ?_⟩
  · intro hm1
    obtain ⟨adj', e', hu, hz, hf⟩ := (C75_ids haq hadj (k * 2 * π / ((m * r : ℕ) : ℤ)) m).1 (by omega)
    obtain ⟨P, C, e, h, -⟩ := C75_dihedral haq ico octa hu m hm1
    refine ⟨P, C, (combined_dih_some (by omega) e₁).trans (by rw [subgroupOf, e']; exact e), ?_⟩
    refine SameInclusion.of (fun x => (rotOf adj)ᵀ * (rotZ (((x.2 * r + x.1 * k : ℤ) : ℝ) * (2 * π / (m * r : ℕ))) *
      flipX ^ x.1.toNat) * rotOf adj) ?_ ?_
    · rintro ⟨f, x⟩ hx
      obtain ⟨g, h1, -, h2⟩ := h.parent_ok (f, x) hx
      refine ⟨g, h1, h2.trans ?_⟩
      rcases (Dihedral.isElement_iff.1 hx).1 with h0 | h0 <;> simp only at h0 <;> subst h0
      · simp only [Int.toNat_zero, pow_zero, mul_one, hz]
        congr 3; rw [hnR]; push_cast; field_simp; ring
      · simp only [Int.toNat_one, pow_one, hf]
        congr 4; push_cast; field_simp
    · rintro ⟨f, x⟩ hx
      obtain ⟨g, h1, h2⟩ := hP _ (hel f x hx)
      exact ⟨g, by rw [Dihedral.dmToDn, hdiv]; exact h1, h2⟩
  · rintro rfl
    obtain ⟨adj', e', hu, hf⟩ := (C75_ids haq hadj (k * 2 * π / ((1 * r : ℕ) : ℤ)) 1).2.1
    obtain ⟨P, C, e, h, -⟩ := C75_cyclic haq ico octa hu 2 (by omega)
    refine ⟨P, C, (combined_dih_some (by omega) e₁).trans (by rw [subgroupOf]; push_cast at e' ⊢; rw [e']; exact e), ?_⟩
    refine SameInclusion.of (fun x => (rotOf adj)ᵀ * (rotZ (x * (k * (2 * π / (1 * r : ℕ)))) * flipX ^ x.toNat) * rotOf adj) ?_ ?_
    · intro x hx
      obtain ⟨g, h1, -, h2⟩ := h.parent_ok x hx
      refine ⟨g, h1, h2.trans ?_⟩
      rcases O3.isElement_two.1 hx with rfl | rfl
      · simp [rotZ_zero, rotOf_orth' hu, rotOf_orth' hadj]
      · simp only [Int.toNat_one, pow_one, Int.cast_one, one_mul]
        rw [show (2 * π / ((2 : ℕ) : ℝ)) = π by push_cast; ring, hf]
        congr 4; push_cast; ring
    · intro x hx
      rcases O3.isElement_two.1 hx with rfl | rfl
      · obtain ⟨g, h1, -, h2⟩ := hr.parent_ok Dihedral.identity (by
          rw [Dihedral.isElement_iff]; exact ⟨.inl rfl, le_refl _, by simp [Dihedral.identity]; omega⟩)
        refine ⟨g, h1, h2.trans ?_⟩
        simp [Dihedral.identity]
      · have h0 := hel 1 0 (by rw [Dihedral.isElement_iff]; simp)
        simp only [zero_mul, one_mul, zero_add] at h0
        obtain ⟨g, h1, h2⟩ := hP (1, k) (by simpa using h0)
        refine ⟨g, ?_, h2.trans ?_⟩
        · rw [Dihedral.flipToDn, if_neg (by omega)]; exact h1
        · simp
  · obtain ⟨P, C, e, h, -⟩ := C75_cyclic haq ico octa hadj m hm0
    refine ⟨P, C, (combined_dih_none (by omega) e₁).trans e, ?_⟩
    refine SameInclusion.of (fun x => (rotOf adj)ᵀ * rotZ (x * (2 * π / m)) * rotOf adj) ?_ ?_
    · intro x hx
      obtain ⟨g, h1, -, h2⟩ := h.parent_ok x hx
      exact ⟨g, h1, h2⟩
    · intro x hx
      rw [Cyclic.isElement_iff] at hx
      have h0 := hel 0 x (by rw [Dihedral.isElement_iff]; exact ⟨.inl rfl, hx⟩)
      simp only [zero_mul, add_zero] at h0
      obtain ⟨g, h1, h2⟩ := hP _ h0
      refine ⟨g, by rw [Dihedral.cnToDn, hdiv]; exact h1, h2.trans ?_⟩
      simp only [Int.toNat_zero, pow_zero, mul_one, turn_eq hm0 hr0]

/-- The subgroup D_4 of D_12 at the axis 2, conjugated by a rotation by 90 degrees around the first axis. -/
example : normSq (quat (sin (π / 4)) 0 0 (cos (π / 4))) = 1 ∧ 1 < 12 ∧ 4 ∣ 12 ∧ (0 : ℤ) ≤ 2 ∧ (2 : ℤ) < (12 / 4 : ℕ) := by
  refine ⟨?_, by norm_num, by norm_num, by norm_num, by norm_num⟩
  rw [normSq_quat]; nlinarith [sin_sq_add_cos_sq (π / 4)]

end SO3

end Escnn
