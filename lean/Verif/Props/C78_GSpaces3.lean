import Verif.Spec.Symmetries3
import Verif.Props.C77_CombineO3
import Verif.Lemmas.RotSurj

/-!
# C78: the symmetries of the gspaces of `R^3`
-/

namespace Escnn

open Real Matrix Quaternion

variable {aq : UQuat → UQuat}

/-- The matrices by which a gspace acts: the standard representation of O(3) on the images of the inclusion. -/
def GSpace3D.symmetries (D : SubData O3.Elem) : Set Mat3 := {M | ∃ h g, D.El h ∧ D.parent h = .ok g ∧ act3 g = M}

namespace GSpace3D

theorem symmetries_of {H : Type} {El : H → Prop} {eqH : H → H → Prop} {mul : H → H → H} {A : Mat3} {ρ : H → Mat3}
    {P : H → Except Err O3.Elem} {C : O3.Elem → Except Err (Option H)} (h : RealisesAs O3El act3 El eqH mul A ρ P C) :
    symmetries ⟨H, El, mul, P, C⟩ = {X | ∃ x, El x ∧ X = Aᵀ * ρ x * A} := by
  ext X
  constructor
  · rintro ⟨x, g, hx, hg, rfl⟩
    obtain ⟨g', hg', -, e⟩ := h.parent_ok x hx
    obtain rfl := Except.ok.inj (hg.symm.trans hg')
    exact ⟨x, hx, e⟩
  · rintro ⟨x, hx, rfl⟩
    obtain ⟨g', hg', -, e⟩ := h.parent_ok x hx
    exact ⟨x, g', hx, hg', e⟩

theorem halfTurn_dir (a : ℝ) : halfTurn (dirXY a) = rotZ (2 * a) * flipX := by
  ext i j
  fin_cases i <;> fin_cases j <;>
    simp [halfTurn, dirXY, rotZ, flipX, Matrix.mul_apply, Fin.sum_univ_three, vecMulVec_apply, cos_two_mul, sin_two_mul]
  all_goals nlinarith [sin_sq_add_cos_sq a]

theorem reflectAt_dir (a : ℝ) : reflectAt (dirXY (a + π / 2)) = rotZ (2 * a) * mirrorY := by
  ext i j
  fin_cases i <;> fin_cases j <;>
    simp [reflectAt, dirXY, rotZ, mirrorY, Matrix.mul_apply, Fin.sum_univ_three, vecMulVec_apply, cos_two_mul, sin_two_mul,
      sin_add_pi_div_two, cos_add_pi_div_two]
  all_goals nlinarith [sin_sq_add_cos_sq a]

theorem turns_cyclic {n : ℕ} (hn : 0 < n) (X : Mat3) :
    (∃ k : ℤ, Cyclic.isElement n k = true ∧ X = rotZ (k * (2 * π / n))) ↔ ∃ t ∈ turns n, X = rotZ t := by
  have hn' : (n : ℝ) ≠ 0 := by positivity
  constructor
  · rintro ⟨k, -, rfl⟩
    exact ⟨_, .inr ⟨k, by push_cast; rfl⟩, rfl⟩
  · rintro ⟨t, h | ⟨k, rfl⟩, rfl⟩
    · omega
    · refine ⟨k % n, ?_, ?_⟩
      · rw [Cyclic.isElement_iff]
        exact ⟨Int.emod_nonneg _ (by omega), Int.emod_lt_of_pos _ (by omega)⟩
      · conv_lhs => rw [← Int.emod_add_mul_ediv k n]
        refine Eq.trans ?_ (rotZ_periodic _ (k / n))
        congr 1
        push_cast
        field_simp

theorem turns_so2 (X : Mat3) : (∃ t, SO2.IsElement t ∧ X = rotZ t) ↔ ∃ t ∈ turns (-1), X = rotZ t := by
  constructor
  · rintro ⟨t, -, rfl⟩
    exact ⟨t, .inl rfl, rfl⟩
  · rintro ⟨t, -, rfl⟩
    exact ⟨mod2pi t, ⟨mod2pi_nonneg _, mod2pi_lt _⟩, (rotZ_mod2pi t).symm⟩

theorem turns_dihedral {n : ℕ} (hn : 0 < n) (F X : Mat3) :
    (∃ e, Dihedral.isElement n e = true ∧ X = rotZ (e.2 * (2 * π / n)) * F ^ e.1.toNat) ↔
      ∃ t ∈ turns n, X = rotZ t ∨ X = rotZ t * F := by
  constructor
  · rintro ⟨⟨f, k⟩, he, rfl⟩
    refine ⟨_, .inr ⟨k, by push_cast; rfl⟩, ?_⟩
    rcases (Dihedral.isElement_iff.1 he).1 with h | h <;> simp only at h <;> subst h
    · left; simp
    · right; simp
  · rintro ⟨t, ht, h⟩
    obtain ⟨k, hk, e⟩ := (turns_cyclic hn (rotZ t)).2 ⟨t, ht, rfl⟩
    rw [Cyclic.isElement_iff] at hk
    rcases h with rfl | rfl
    · exact ⟨(0, k), by rw [Dihedral.isElement_iff]; exact ⟨.inl rfl, hk⟩, by rw [e]; simp⟩
    · exact ⟨(1, k), by rw [Dihedral.isElement_iff]; exact ⟨.inr rfl, hk⟩, by rw [e]; simp⟩

theorem turns_o2 (F X : Mat3) : (∃ e, O2.IsElement e ∧ X = rotZ e.2 * F ^ e.1.toNat) ↔
    ∃ t ∈ turns (-1), X = rotZ t ∨ X = rotZ t * F := by
  constructor
  · rintro ⟨⟨f, t⟩, he, rfl⟩
    refine ⟨t, .inl rfl, ?_⟩
    rcases he.1 with h | h <;> simp only at h <;> subst h
    · left; simp
    · right; simp
  · rintro ⟨t, -, h⟩
    have hm : 0 ≤ mod2pi t ∧ mod2pi t < 2 * π := ⟨mod2pi_nonneg _, mod2pi_lt _⟩
    rcases h with rfl | rfl
    · exact ⟨(0, mod2pi t), ⟨.inl rfl, hm⟩, by rw [rotZ_mod2pi]; simp⟩
    · exact ⟨(1, mod2pi t), ⟨.inr rfl, hm⟩, by rw [rotZ_mod2pi]; simp⟩

theorem checkN_ok {n : ℤ} (hn : n = -1 ∨ 0 < n) : checkN n = .ok () := if_pos hn

theorem adjOf_el {adjoint : Option O3.Elem} (h : ∀ e, adjoint = some e → O3El e) : O3El (adjOf adjoint) := by
  cases adjoint with
  | none => exact O3.identity_el
  | some e => exact h e rfl

theorem nat_cases {n : ℤ} (hn : n = -1 ∨ 0 < n) : n = -1 ∨ ∃ k : ℕ, 0 < k ∧ n = k :=
  hn.imp id fun h => ⟨n.toNat, by omega, by omega⟩

theorem symmetries_conj {H : Type} {El : H → Prop} {eqH : H → H → Prop} {mul : H → H → H} {A : Mat3} {ρ : H → Mat3}
    {P : H → Except Err O3.Elem} {C : O3.Elem → Except Err (Option H)} (h : RealisesAs O3El act3 El eqH mul A ρ P C)
    {S : Set Mat3} (hS : ∀ X, (∃ x, El x ∧ X = ρ x) ↔ X ∈ S) : symmetries ⟨H, El, mul, P, C⟩ = conjSet A S := by
  rw [symmetries_of h]
  ext X
  constructor
  · rintro ⟨x, hx, rfl⟩
    exact ⟨_, (hS _).1 ⟨x, hx, rfl⟩, rfl⟩
  · rintro ⟨M, hM, rfl⟩
    obtain ⟨x, hx, rfl⟩ := (hS _).2 hM
    exact ⟨x, hx, rfl⟩

/-- Conjugation by an element which moves the flips by the angle `a`. -/
theorem conjSet_axis {A A' F : Mat3} {a : ℝ} (T : Set ℝ) (hz : ∀ t, A'ᵀ * rotZ t * A' = Aᵀ * rotZ t * A)
    (hf : ∀ t, A'ᵀ * (rotZ t * F) * A' = Aᵀ * (rotZ (t + a) * F) * A) :
    conjSet A' {M | ∃ t ∈ T, M = rotZ t ∨ M = rotZ t * F} =
      conjSet A {M | ∃ t ∈ T, M = rotZ t ∨ M = rotZ t * (rotZ a * F)} := by
  have e : ∀ t, rotZ (t + a) * F = rotZ t * (rotZ a * F) := fun t => by rw [rotZ_add, mul_assoc]
  ext X
  constructor
  · rintro ⟨M, ⟨t, ht, rfl | rfl⟩, rfl⟩
    · exact ⟨_, ⟨t, ht, .inl rfl⟩, hz t⟩
    · exact ⟨_, ⟨t, ht, .inr rfl⟩, (hf t).trans (by rw [e])⟩
  · rintro ⟨M, ⟨t, ht, rfl | rfl⟩, rfl⟩
    · exact ⟨_, ⟨t, ht, .inl rfl⟩, (hz t).symm⟩
    · exact ⟨_, ⟨t, ht, .inr rfl⟩, by rw [hf, e]⟩

theorem conjSet_or_neg (A : Mat3) (S : Set Mat3) : conjSet A S ∪ {X | -X ∈ conjSet A S} = conjSet A {M | M ∈ S ∨ -M ∈ S} := by
  ext X
  constructor
  · rintro (⟨M, hM, rfl⟩ | ⟨M, hM, hX⟩)
    · exact ⟨M, .inl hM, rfl⟩
    · exact ⟨-M, .inr (by rwa [neg_neg]), by rw [Matrix.mul_neg, Matrix.neg_mul, ← hX, neg_neg]⟩
  · rintro ⟨M, hM | hM, rfl⟩
    · exact .inl ⟨M, hM, rfl⟩
    · exact .inr ⟨-M, hM, by rw [Matrix.mul_neg, Matrix.neg_mul]⟩

/-- The product with the inversion. -/
theorem signs_set {H : Type} {El : H → Prop} {ρ : H → Mat3} {S : Set Mat3} (hS : ∀ X, (∃ x, El x ∧ X = ρ x) ↔ X ∈ S) (X : Mat3) :
    (∃ e : ℤ × H, (Cyclic.isElement 2 e.1 = true ∧ El e.2) ∧ X = (-1 : ℝ) ^ e.1.toNat • ρ e.2) ↔ X ∈ {M | M ∈ S ∨ -M ∈ S} := by
  constructor
  · rintro ⟨⟨f, e⟩, ⟨hf, he⟩, rfl⟩
    rcases O3.isElement_two.1 hf with h | h <;> simp only at h <;> subst h
    · left; exact (hS _).1 ⟨e, he, by simp⟩
    · right; exact (hS _).1 ⟨e, he, by simp⟩
  · rintro (h | h)
    · obtain ⟨e, he, h⟩ := (hS _).2 h
      exact ⟨(0, e), ⟨O3.isElement_two.2 (.inl rfl), he⟩, by simpa using h⟩
    · obtain ⟨e, he, h⟩ := (hS _).2 h
      exact ⟨(1, e), ⟨O3.isElement_two.2 (.inr rfl), he⟩, by simpa using neg_eq_iff_eq_neg.1 h⟩

theorem turns_one {t : ℝ} (ht : t ∈ turns 1) : rotZ t = 1 := by
  rcases ht with h | ⟨k, rfl⟩
  · omega
  · rw [← rotZ_zero, ← rotZ_periodic 0 k]; congr 1; push_cast; ring

theorem zero_turns : (0 : ℝ) ∈ turns 1 := .inr ⟨0, by simp⟩

/-- **C78** `rot2dOnR3`: the rotations around `A⁻¹ (0, 0, 1)`. -/
theorem C78_rot2d (haq : AsQuat aq) (ico octa : RotGroup) {n : ℤ} (hn : n = -1 ∨ 0 < n) {adjoint : Option O3.Elem}
    (ha : ∀ e, adjoint = some e → O3El e) :
    ∃ D, rot2d aq ico octa n adjoint = .ok D ∧
      symmetries D = conjSet (act3 (adjOf adjoint)) {M | ∃ t ∈ turns n, M = rotZ t} := by
  rw [rot2d, after_ok (checkN_ok hn)]
  rcases nat_cases hn with rfl | ⟨k, hk, rfl⟩
  · obtain ⟨P, C, e, h, -⟩ := O3.C76_so2 haq ico octa (adjOf_el ha)
    exact ⟨_, e, symmetries_conj h turns_so2⟩
  · obtain ⟨P, C, e, h, -⟩ := O3.C76_cyclic haq ico octa (adjOf_el ha) k hk
    exact ⟨_, e, symmetries_conj h (turns_cyclic hk)⟩

/-- **C78** `cylindricalOnR3`: the rotations around `A⁻¹ (0, 0, 1)` and their negatives. -/
theorem C78_cylindrical (haq : AsQuat aq) (ico octa : RotGroup) {n : ℤ} (hn : n = -1 ∨ 0 < n) {adjoint : Option O3.Elem}
    (ha : ∀ e, adjoint = some e → O3El e) :
    ∃ D, cylindrical aq ico octa n adjoint = .ok D ∧
      symmetries D = conjSet (act3 (adjOf adjoint)) {M | ∃ t ∈ turns n, M = rotZ t ∨ -M = rotZ t} := by
  have hset : ∀ n, {M | ∃ t ∈ turns n, M = rotZ t ∨ -M = rotZ t} =
      {M | M ∈ {M | ∃ t ∈ turns n, M = rotZ t} ∨ -M ∈ {M | ∃ t ∈ turns n, M = rotZ t}} := fun n => by
    ext M; simp only [Set.mem_setOf_eq, and_or_left, exists_or]
  rw [cylindrical, after_ok (checkN_ok hn)]
  by_cases hn1 : n = 1
  · subst hn1
    obtain ⟨P, C, e, h, -⟩ := O3.C76_inversion (aq := aq) ico octa O3.identity_el
    refine ⟨_, e, ?_⟩
    rw [symmetries_of h, O3.identity_act]
    have ho := (O3.orth (adjOf_el ha)).2
    ext X
    constructor
    · rintro ⟨x, hx, rfl⟩
      rcases O3.isElement_two.1 hx with rfl | rfl
      · exact ⟨1, ⟨0, zero_turns, .inl rotZ_zero.symm⟩, by simp [ho]⟩
      · exact ⟨-1, ⟨0, zero_turns, .inr (by rw [neg_neg, rotZ_zero])⟩, by simp [ho]⟩
    · rintro ⟨M, ⟨t, ht, h⟩, rfl⟩
      rw [turns_one ht] at h
      rcases h with rfl | h
      · exact ⟨0, O3.isElement_two.2 (.inl rfl), by simp [ho]⟩
      · exact ⟨1, O3.isElement_two.2 (.inr rfl), by rw [neg_eq_iff_eq_neg.1 h]; simp [ho]⟩
  rw [hset]
  rcases nat_cases hn with rfl | ⟨k, hk, rfl⟩
  · obtain ⟨P, C, e, h, -⟩ := O3.C76_cylinder haq ico octa (adjOf_el ha)
    exact ⟨_, e, symmetries_conj h (signs_set turns_so2)⟩
  · obtain ⟨P, C, e, h, -⟩ := O3.C76_cylinder_discrete haq ico octa (adjOf_el ha) k (by omega)
    refine ⟨_, ?_, symmetries_conj h (signs_set (turns_cyclic hk))⟩
    rw [init]
    have : O3.processId aq (.sub true (.pair false k)) (adjOf adjoint) = (.sub true (.pair false k), adjOf adjoint) := by
      unfold O3.processId
      simp only
      split
      · rename_i h; injection h with _ h; injection h with _ h; exact absurd h (by omega)
      · simp_all
      · rfl
    rw [this]; exact e

/-- **C78** `dihedralOnR3`: the rotations around the axis, and the half turns around the line at the angle `axis` of the plane
XY composed with these rotations. -/
theorem C78_dihedral (haq : AsQuat aq) (ico octa : RotGroup) {n : ℤ} (hn : n = -1 ∨ 0 < n) (axis : ℝ)
    {adjoint : Option O3.Elem} (ha : ∀ e, adjoint = some e → O3El e) :
    ∃ D, dihedral aq ico octa n axis adjoint = .ok D ∧
      symmetries D = conjSet (act3 (adjOf adjoint)) {M | ∃ t ∈ turns n, M = rotZ t ∨ M = rotZ t * halfTurn (dirXY axis)} := by
  rw [dihedral, after_ok (checkN_ok hn), halfTurn_dir]
  obtain ⟨-, -, h1, h2, -⟩ := O3.C76_ids haq (adjOf_el ha) false (2 * axis) n
  by_cases hn1 : n = 1
  · subst hn1
    obtain ⟨adj', e', hu, hz⟩ := h2
    obtain ⟨P, C, e, h, -⟩ := O3.C76_cyclic haq ico octa hu 2 (by omega)
    refine ⟨_, by rw [init, e']; exact e, ?_⟩
    rw [symmetries_of h]
    have ho := O3.orth (adjOf_el ha)
    ext X
    constructor
    · rintro ⟨x, hx, rfl⟩
      rcases O3.isElement_two.1 hx with rfl | rfl
      · exact ⟨1, ⟨0, zero_turns, .inl rotZ_zero.symm⟩, by simp [rotZ_zero, (O3.orth hu).2, ho.2]⟩
      · refine ⟨_, ⟨0, zero_turns, .inr rfl⟩, ?_⟩
        rw [rotZ_zero, one_mul, ← hz]
        congr 3; simp
    · rintro ⟨M, ⟨t, ht, rfl | rfl⟩, rfl⟩
      · exact ⟨0, O3.isElement_two.2 (.inl rfl), by rw [turns_one ht]; simp [rotZ_zero, (O3.orth hu).2, ho.2]⟩
      · refine ⟨1, O3.isElement_two.2 (.inr rfl), ?_⟩
        rw [turns_one ht, one_mul, ← hz]
        congr 3; simp
  · obtain ⟨adj', e', hu, hz, hf⟩ := h1 hn1
    rw [init, e', ← conjSet_axis (turns n) hz hf]
    rcases nat_cases hn with rfl | ⟨k, hk, rfl⟩
    · obtain ⟨P, C, e, h, -⟩ := O3.C76_o2 haq ico octa hu
      exact ⟨_, e, symmetries_conj h (turns_o2 _)⟩
    · obtain ⟨P, C, e, h, -⟩ := O3.C76_dihedral haq ico octa hu k (by omega)
      exact ⟨_, e, symmetries_conj h (turns_dihedral hk _)⟩

/-- **C78** `fullCylindricalOnR3`: the rotations around the axis, the half turns around the line at the angle `axis / 2` composed
with them, and the negatives of both.  `dihedralOnR3` doubles its axis, this function does not. -/
theorem C78_fullCylindrical (haq : AsQuat aq) (ico octa : RotGroup) {n : ℤ} (hn : n = -1 ∨ 0 < n) (axis : ℝ)
    {adjoint : Option O3.Elem} (ha : ∀ e, adjoint = some e → O3El e) :
    ∃ D, fullCylindrical aq ico octa n axis adjoint = .ok D ∧
      symmetries D = conjSet (act3 (adjOf adjoint)) {M | ∃ t ∈ turns n, (M = rotZ t ∨ M = rotZ t * halfTurn (dirXY (axis / 2))) ∨
        (-M = rotZ t ∨ -M = rotZ t * halfTurn (dirXY (axis / 2)))} := by
  have hset : ∀ (n : ℤ) (F : Mat3), {M | ∃ t ∈ turns n, (M = rotZ t ∨ M = rotZ t * F) ∨ (-M = rotZ t ∨ -M = rotZ t * F)} =
      {M | M ∈ {M | ∃ t ∈ turns n, M = rotZ t ∨ M = rotZ t * F} ∨ -M ∈ {M | ∃ t ∈ turns n, M = rotZ t ∨ M = rotZ t * F}} :=
    fun n F => by ext M; simp only [Set.mem_setOf_eq, and_or_left, exists_or]
  rw [fullCylindrical, after_ok (checkN_ok hn), halfTurn_dir, show 2 * (axis / 2) = axis by ring]
  obtain ⟨-, -, h1, h2, -⟩ := O3.C76_ids haq (adjOf_el ha) true axis n
  by_cases hn1 : n = 1
  · subst hn1
    obtain ⟨adj', e', hu, hz⟩ := h2
    obtain ⟨P, C, e, h, -⟩ := O3.C76_cylinder_discrete haq ico octa hu 2 (by omega)
    refine ⟨_, by rw [init, e']; exact e, ?_⟩
    rw [symmetries_of h]
    have ho := (O3.orth (adjOf_el ha)).2
    have hpi : (2 * π / ((2 : ℕ) : ℝ)) = π := by push_cast; ring
    have hel : ∀ f x : ℤ, f = 0 ∨ f = 1 → x = 0 ∨ x = 1 → Cyclic.isElement 2 (f, x).1 = true ∧ Cyclic.isElement 2 (f, x).2 = true :=
      fun f x hf hx => ⟨O3.isElement_two.2 hf, O3.isElement_two.2 hx⟩
    ext X
    constructor
    · rintro ⟨⟨f, x⟩, ⟨hf, hx⟩, rfl⟩
      have key : (act3 adj')ᵀ * rotZ (x * (2 * π / ((2 : ℕ) : ℝ))) * act3 adj' = (act3 (adjOf adjoint))ᵀ * 1 * act3 (adjOf adjoint) ∨
          (act3 adj')ᵀ * rotZ (x * (2 * π / ((2 : ℕ) : ℝ))) * act3 adj' =
            (act3 (adjOf adjoint))ᵀ * (rotZ axis * flipX) * act3 (adjOf adjoint) := by
        rcases O3.isElement_two.1 hx with h | h <;> simp only at h <;> subst h
        · left; simp [rotZ_zero, (O3.orth hu).2, ho]
        · right; rw [hpi, ← hz]; simp
      rcases O3.isElement_two.1 hf with h | h <;> simp only at h <;> subst h <;> rcases key with key | key
      · exact ⟨1, ⟨0, zero_turns, .inl (.inl rotZ_zero.symm)⟩, by simpa using key⟩
      · exact ⟨_, ⟨0, zero_turns, .inl (.inr rfl)⟩, by simpa [rotZ_zero] using key⟩
      · exact ⟨-1, ⟨0, zero_turns, .inr (.inl (by rw [neg_neg, rotZ_zero]))⟩, by simpa using key⟩
      · exact ⟨-(rotZ axis * flipX), ⟨0, zero_turns, .inr (.inr (by rw [neg_neg, rotZ_zero, one_mul]))⟩, by simpa using key⟩
    · rintro ⟨M, ⟨t, ht, h⟩, rfl⟩
      rw [turns_one ht, one_mul] at h
      rcases h with (rfl | rfl) | (h | h)
      · exact ⟨(0, 0), hel 0 0 (.inl rfl) (.inl rfl), by simp [rotZ_zero, (O3.orth hu).2, ho]⟩
      · exact ⟨(0, 1), hel 0 1 (.inl rfl) (.inr rfl), by simp only [Int.cast_one, one_mul, hpi]; simpa using hz.symm⟩
      · exact ⟨(1, 0), hel 1 0 (.inr rfl) (.inl rfl), by
          rw [neg_eq_iff_eq_neg.1 h]; simp [rotZ_zero, (O3.orth hu).2, ho]⟩
      · exact ⟨(1, 1), hel 1 1 (.inr rfl) (.inr rfl), by
          rw [neg_eq_iff_eq_neg.1 h]; simp only [Int.cast_one, one_mul, hpi]; simpa using hz.symm⟩
  rw [hset]
  obtain ⟨adj', e', hu, hz, hf⟩ := h1 hn1
  rw [init, e', ← conjSet_or_neg, ← conjSet_axis (turns n) hz hf, conjSet_or_neg]
  rcases nat_cases hn with rfl | ⟨k, hk, rfl⟩
  · obtain ⟨P, C, e, h, -⟩ := O3.C76_fullcylinder haq ico octa hu
    exact ⟨_, e, symmetries_conj h (signs_set (turns_o2 _))⟩
  · obtain ⟨P, C, e, h, -⟩ := O3.C76_fullcylinder_discrete haq ico octa hu k (by omega)
    exact ⟨_, e, symmetries_conj h (signs_set (turns_dihedral hk _))⟩

/-- **C78** `conicalOnR3` and `mirOnR3`: the rotations around the axis, and the reflections whose plane contains Z and the
direction at the angle `-axis`, composed with these rotations (see `O3.C76_cone_axis_violated` for the sign). -/
theorem C78_conical (haq : AsQuat aq) (ico octa : RotGroup) {n : ℤ} (hn : n = -1 ∨ 0 < n) (axis : ℝ)
    {adjoint : Option O3.Elem} (ha : ∀ e, adjoint = some e → O3El e) :
    (∃ D, conical aq ico octa n axis adjoint = .ok D ∧
      symmetries D = conjSet (act3 (adjOf adjoint))
        {M | ∃ t ∈ turns n, M = rotZ t ∨ M = rotZ t * reflectAt (dirXY (-axis + π / 2))}) ∧
    ∃ D, mir aq ico octa axis adjoint = .ok D ∧
      symmetries D = conjSet (act3 (adjOf adjoint)) {1, reflectAt (dirXY (-axis + π / 2))} := by
  rw [conical, after_ok (checkN_ok hn), reflectAt_dir]
  have hone : ∃ D, mir aq ico octa axis adjoint = .ok D ∧
      symmetries D = conjSet (act3 (adjOf adjoint)) {1, rotZ (2 * -axis) * mirrorY} := by
    obtain ⟨adj', e', hu, hz, hf⟩ := O3.cone_axis haq (adjOf_el ha) (2 * axis) 1
    obtain ⟨P, C, e, h, -⟩ := O3.C76_mirror haq ico octa hu
    refine ⟨_, by rw [mir, init, e']; exact e, ?_⟩
    rw [symmetries_of h]
    have h1 := hz 0
    have h2 := hf 0
    rw [rotZ_zero] at h1 h2
    rw [one_mul, zero_sub, ← mul_neg] at h2
    ext X
    constructor
    · rintro ⟨x, hx, rfl⟩
      rcases O3.isElement_two.1 hx with rfl | rfl
      · exact ⟨1, .inl rfl, by simpa using h1⟩
      · exact ⟨_, .inr rfl, by simpa using h2⟩
    · rintro ⟨M, rfl | rfl, rfl⟩
      · exact ⟨0, O3.isElement_two.2 (.inl rfl), by simpa using h1.symm⟩
      · exact ⟨1, O3.isElement_two.2 (.inr rfl), by simpa using h2.symm⟩
  refine ⟨?_, hone⟩
  by_cases hn1 : n = 1
  · subst hn1
    obtain ⟨D, h1, h2⟩ := hone
    refine ⟨D, h1, h2.trans ?_⟩
    congr 1
    ext M
    constructor
    · rintro (rfl | rfl)
      · exact ⟨0, zero_turns, .inl rotZ_zero.symm⟩
      · exact ⟨0, zero_turns, .inr (by rw [rotZ_zero, one_mul])⟩
    · rintro ⟨t, ht, rfl | rfl⟩
      · exact .inl (turns_one ht)
      · exact .inr (by rw [turns_one ht, one_mul]; rfl)
  · obtain ⟨adj', e', hu, hz, hf⟩ := O3.cone_axis haq (adjOf_el ha) (2 * axis) n
    rw [init, e', ← conjSet_axis (turns n) hz (a := 2 * -axis) (fun t => by rw [hf]; congr 4; ring)]
    rcases nat_cases hn with rfl | ⟨k, hk, rfl⟩
    · obtain ⟨P, C, e, h, -⟩ := O3.C76_cone haq ico octa hu
      exact ⟨_, e, symmetries_conj h (turns_o2 _)⟩
    · obtain ⟨P, C, e, h, -⟩ := O3.C76_pyramid haq ico octa hu k (by omega)
      exact ⟨_, e, symmetries_conj h (turns_dihedral hk _)⟩

/-- **C78** `rot3dOnR3`, `flipRot3dOnR3`, `invOnR3`, `trivialOnR3`. -/
theorem C78_whole (haq : AsQuat aq) (ico octa : RotGroup) :
    (∃ D, rot3d aq ico octa = .ok D ∧ symmetries D = {M | M * Mᵀ = 1 ∧ M.det = 1}) ∧
    (∃ D, flipRot3d aq ico octa = .ok D ∧ symmetries D = {M | M * Mᵀ = 1}) ∧
    (∃ D, inv aq ico octa = .ok D ∧ symmetries D = {1, -1}) ∧
    ∃ D, trivial aq ico octa = .ok D ∧ symmetries D = {1} := by
  have hc : ∀ S, conjSet 1 S = S := fun S => by
    ext X; simp [conjSet]
  refine ⟨?_, ?_, ?_, ?_⟩
  · obtain ⟨P, C, e, h, -⟩ := O3.C76_so3 haq ico octa O3.identity_el
    refine ⟨_, e, ?_⟩
    rw [O3.identity_act] at h
    rw [symmetries_conj h (S := {M | M * Mᵀ = 1 ∧ M.det = 1}), hc]
    intro X
    constructor
    · rintro ⟨q, hq, rfl⟩
      exact ⟨rotOf_orth hq, rotOf_det hq⟩
    · rintro ⟨h1, h2⟩
      obtain ⟨q, hq, e⟩ := rotOf_surj (mul_eq_one_comm.1 h1) h2
      exact ⟨q, hq, e.symm⟩
  · obtain ⟨P, C, e, h⟩ := O3.C76_self haq ico octa O3.identity_el
    refine ⟨_, e, ?_⟩
    rw [O3.identity_act] at h
    rw [symmetries_conj h (S := {M | M * Mᵀ = 1}), hc]
    intro X
    constructor
    · rintro ⟨g, hg, rfl⟩
      exact (O3.orth hg).1
    · intro h1
      have hd : X.det * X.det = 1 := by
        have := congrArg Matrix.det h1
        rwa [Matrix.det_mul, Matrix.det_transpose, Matrix.det_one] at this
      rcases mul_self_eq_one_iff.1 hd with h2 | h2
      · obtain ⟨q, hq, e⟩ := rotOf_surj (mul_eq_one_comm.1 h1) h2
        exact ⟨(0, q), ⟨.inl rfl, hq⟩, by rw [act3]; simp [e]⟩
      · obtain ⟨q, hq, e⟩ := rotOf_surj (R := -X) (by rw [Matrix.transpose_neg, neg_mul_neg]; exact mul_eq_one_comm.1 h1)
          (by rw [Matrix.det_neg, h2]; simp; norm_num)
        exact ⟨(1, q), ⟨.inr rfl, hq⟩, by rw [act3]; simp [e]⟩
  · obtain ⟨P, C, e, h, -⟩ := O3.C76_inversion (aq := aq) ico octa O3.identity_el
    refine ⟨_, e, ?_⟩
    rw [O3.identity_act] at h
    rw [symmetries_conj h (S := {1, -1}), hc]
    intro X
    constructor
    · rintro ⟨f, hf, rfl⟩
      rcases O3.isElement_two.1 hf with rfl | rfl
      · left; simp
      · right; simp
    · rintro (rfl | rfl)
      · exact ⟨0, O3.isElement_two.2 (.inl rfl), by simp⟩
      · exact ⟨1, O3.isElement_two.2 (.inr rfl), by simp⟩
  · obtain ⟨P, C, e, h, -⟩ := O3.C76_cyclic haq ico octa O3.identity_el 1 (by omega)
    refine ⟨_, e, ?_⟩
    rw [O3.identity_act] at h
    rw [symmetries_conj h (S := {1}), hc]
    intro X
    constructor
    · rintro ⟨k, hk, rfl⟩
      rw [Cyclic.isElement_iff] at hk
      obtain rfl : k = 0 := by omega
      simp [rotZ_zero]
    · rintro rfl
      exact ⟨0, by rw [Cyclic.isElement_iff]; simp, by simp [rotZ_zero]⟩

/-- **C78** `icoOnR3`, `octaOnR3`, `fullIcoOnR3`, `fullOctaOnR3`: the rotations of the solid, and also their negatives. -/
theorem C78_solids (haq : AsQuat aq) {ico octa : RotGroup} (hI : ico.Lawful) (hO : octa.Lawful) :
    (∃ D, icoSpace aq ico octa = .ok D ∧ symmetries D = {M | ∃ h, ico.El h ∧ M = rotOf (ico.toQ h)}) ∧
    (∃ D, octaSpace aq ico octa = .ok D ∧ symmetries D = {M | ∃ h, octa.El h ∧ M = rotOf (octa.toQ h)}) ∧
    (∃ D, fullIco aq ico octa = .ok D ∧
      symmetries D = {M | ∃ h, ico.El h ∧ (M = rotOf (ico.toQ h) ∨ -M = rotOf (ico.toQ h))}) ∧
    ∃ D, fullOcta aq ico octa = .ok D ∧
      symmetries D = {M | ∃ h, octa.El h ∧ (M = rotOf (octa.toQ h) ∨ -M = rotOf (octa.toQ h))} := by
  have hc : ∀ S, conjSet 1 S = S := fun S => by
    ext X; simp [conjSet]
  have h2 : ∀ R : RotGroup, {M | ∃ h, R.El h ∧ (M = rotOf (R.toQ h) ∨ -M = rotOf (R.toQ h))} =
      {M | M ∈ {M | ∃ h, R.El h ∧ M = rotOf (R.toQ h)} ∨ -M ∈ {M | ∃ h, R.El h ∧ M = rotOf (R.toQ h)}} := fun R => by
    ext M; simp only [Set.mem_setOf_eq, and_or_left, exists_or]
  refine ⟨?_, ?_, ?_, ?_⟩
  · obtain ⟨P, C, e, h, -⟩ := O3.C76_plato haq ico octa O3.identity_el "ico" ico (.inl ⟨rfl, rfl⟩) hI
    refine ⟨_, e, ?_⟩
    rw [O3.identity_act] at h
    exact (symmetries_conj h (S := {M | ∃ h, ico.El h ∧ M = rotOf (ico.toQ h)}) fun X => Iff.rfl).trans (hc _)
  · obtain ⟨P, C, e, h, -⟩ := O3.C76_plato haq ico octa O3.identity_el "octa" octa (.inr ⟨rfl, rfl⟩) hO
    refine ⟨_, e, ?_⟩
    rw [O3.identity_act] at h
    exact (symmetries_conj h (S := {M | ∃ h, octa.El h ∧ M = rotOf (octa.toQ h)}) fun X => Iff.rfl).trans (hc _)
  · obtain ⟨P, C, e, h, -⟩ := O3.C76_fullplato haq ico octa O3.identity_el "ico" ico (.inl ⟨rfl, rfl⟩) hI
    refine ⟨_, e, ?_⟩
    rw [O3.identity_act] at h
    rw [h2]
    exact (symmetries_conj h (signs_set (S := {M | ∃ h, ico.El h ∧ M = rotOf (ico.toQ h)}) fun X => Iff.rfl)).trans (hc _)
  · obtain ⟨P, C, e, h, -⟩ := O3.C76_fullplato haq ico octa O3.identity_el "octa" octa (.inr ⟨rfl, rfl⟩) hO
    refine ⟨_, e, ?_⟩
    rw [O3.identity_act] at h
    rw [h2]
    exact (symmetries_conj h (signs_set (S := {M | ∃ h, octa.El h ∧ M = rotOf (octa.toQ h)}) fun X => Iff.rfl)).trans (hc _)

/-- **C78** other numbers of rotations are rejected. -/
theorem C78_rejects (ico octa : RotGroup) {n : ℤ} (hn : n ≠ -1 ∧ n ≤ 0) (axis : ℝ) (adjoint : Option O3.Elem) :
    rot2d aq ico octa n adjoint = .error .assertion ∧ dihedral aq ico octa n axis adjoint = .error .assertion ∧
    conical aq ico octa n axis adjoint = .error .assertion ∧ fullCylindrical aq ico octa n axis adjoint = .error .assertion ∧
    cylindrical aq ico octa n adjoint = .error .assertion := by
  have h : checkN n = .error .assertion := if_neg (by omega)
  simp only [rot2d, dihedral, conical, fullCylindrical, cylindrical, h, after, and_self]

/-- **C78 is violated** for `mirOnR3` and `conicalOnR3`: with `axis = π / 4` the reflection whose plane contains Z and the
direction at 45 degrees is missing. -/
theorem C78_axis_violated (haq : AsQuat aq) (ico octa : RotGroup) :
    ∃ D, mir aq ico octa (π / 4) none = .ok D ∧ reflectAt (dirXY (π / 4 + π / 2)) ∉ symmetries D := by
  obtain ⟨-, D, h1, h2⟩ := C78_conical haq ico octa (n := 1) (.inr (by omega)) (π / 4) (adjoint := none) (by simp)
  refine ⟨D, h1, ?_⟩
  rw [h2]
  rintro ⟨M, hM, e⟩
  rw [show adjOf none = O3.identity from rfl, O3.identity_act, Matrix.transpose_one, one_mul, mul_one, reflectAt_dir] at e
  rw [reflectAt_dir] at hM
  have h3 := congrFun (congrFun e 0) 1
  rcases hM with rfl | rfl
  · have h4 := congrFun (congrFun e 1) 0
    rw [show 2 * (π / 4) = π / 2 by ring] at h4
    simp [rotZ, mirrorY, Matrix.mul_apply, Fin.sum_univ_three] at h4
  · rw [show 2 * -(π / 4) = -(π / 2) by ring, show 2 * (π / 4) = π / 2 by ring] at h3
    simp [rotZ, mirrorY, Matrix.mul_apply, Fin.sum_univ_three] at h3
    norm_num at h3

/-- The adjoint element may be a rotation by 90 degrees composed with the inversion; the sets contain more than the identity:
the half turn around X. -/
example : (∀ e, some (1, quat (sin (π / 4)) 0 0 (cos (π / 4))) = some e → O3El e) ∧ halfTurn (dirXY 0) = flipX ∧
    halfTurn (dirXY 0) ≠ 1 := by
  refine ⟨?_, by rw [halfTurn_dir, mul_zero, rotZ_zero, one_mul], ?_⟩
  · rintro e he
    obtain rfl := Option.some.inj he
    exact ⟨.inr rfl, by rw [SO3.normSq_quat]; nlinarith [sin_sq_add_cos_sq (π / 4)]⟩
  · rw [halfTurn_dir, mul_zero, rotZ_zero, one_mul]
    intro h
    have := congrFun (congrFun h 1) 1
    simp [flipX] at this
    norm_num at this

end GSpace3D

end Escnn
