import Verif.Lemmas.Cycle
import Verif.Spec.Subgroup
import Verif.Props.C01_Cyclic
import Verif.Props.C03_SO2O2
import Verif.Props.C02_Dihedral

/-!
# C07 — subgroups of SO(2) and O(2); C08 for O(2)
-/

namespace Escnn

open Real

namespace SO2

/-- **C07** `SO(2) ⊇ C_M`, every order `M`. -/
theorem C07_so2_cyclic (M : ℕ) (hM : 0 < M) :
    SubgroupEmbedding IsElement combine (fun e => Cyclic.isElement M e = true) (Cyclic.combine M)
      (fun e => .ok (parentMap M e)) (childMap M) := by
  have hM' : (0 : ℝ) < M := by exact_mod_cast hM
  have hpi := pi_pos
  have hS : 0 < 2 * π / M := by positivity
  have hel : ∀ e, Cyclic.isElement M e = true ↔ 0 ≤ e ∧ e < M := fun e => by simp [Cyclic.isElement]
  refine ⟨fun h _ => ⟨_, rfl, mod2pi_nonneg _, mod2pi_lt _⟩, ?_, ?_, ?_⟩
  · intro h h' g g' _ _ hg hg'
    simp only [Except.ok.injEq] at hg hg' ⊢
    rw [← hg, ← hg']
    simp only [parentMap, combine, mod2pi_mod2pi, mod2pi_add_mod2pi, Cyclic.combine]
    rw [mod2pi_eq_iff]
    refine ⟨-((h + h') / (M : ℤ)), ?_⟩
    have e : ((h + h') % (M : ℤ) : ℤ) = h + h' - M * ((h + h') / (M : ℤ)) := by
      have := Int.emod_add_mul_ediv (h + h') M; omega
    rw [e]; push_cast; field_simp; ring
  · intro h h' hh hh' heq
    rw [hel] at hh hh'
    simp only [Except.ok.injEq, parentMap] at heq
    rw [mod2pi_mul_div_eq hM hh.1 hh.2, mod2pi_mul_div_eq hM hh'.1 hh'.2] at heq
    have : (h : ℝ) = h' := by field_simp at heq; exact heq
    exact_mod_cast this
  · intro h g hh hg
    have hh' := (hel h).1 hh
    simp only [Except.ok.injEq, parentMap] at hg
    rw [mod2pi_mul_div_eq hM hh'.1 hh'.2] at hg
    have hc : cycleIsclose g 0 (2 * π / M) := cycleIsclose_of_eq hS h (by rw [← hg]; ring)
    have hr : g * M / (2 * π) = ((h : ℤ) : ℝ) := by rw [← hg]; field_simp
    rw [childMap, if_neg (not_not.2 hc), hr, round_intCast, Cyclic.element, if_pos hh]
    rfl

/-- **C07** what the tolerance of the restriction means: a returned element is within tolerance, and `None` is returned only
away from the subgroup. -/
theorem C07_so2_child_tolerance (M : ℕ) (hM : 0 < M) (g : ℝ) :
    (∀ h, childMap M g = .ok (some h) → |g - h * (2 * π / M)| ≤ max (1 / 10 ^ 9 * (2 * π / M)) (1 / 10 ^ 11)) ∧
    (childMap M g = .ok none → ∀ h : ℤ, 1 / 10 ^ 11 < |g - h * (2 * π / M)|) := by
  have hM' : (0 : ℝ) < M := by exact_mod_cast hM
  have hpi := pi_pos
  have hS : 0 < 2 * π / M := by positivity
  constructor
  · intro h hh
    unfold childMap at hh
    split at hh
    · simp at hh
    · rename_i hc
      obtain ⟨k, hk⟩ := cycleIsclose_imp hS (not_not.1 hc)
      unfold Cyclic.element at hh
      split at hh
      · simp only [Except.map, Except.ok.injEq, Option.some.injEq] at hh
        refine le_trans ?_ hk
        have hr := round_le (g * M / (2 * π)) k
        rw [hh] at hr
        have e1 : ∀ z : ℤ, |g - z * (2 * π / M)| = (2 * π / M) * |g * M / (2 * π) - z| := by
          intro z
          rw [← abs_of_pos hS, ← abs_mul, abs_of_pos hS]
          congr 1; field_simp
        rw [sub_zero, e1, e1]
        exact mul_le_mul_of_nonneg_left hr hS.le
      · simp [Except.map] at hh
  · intro hn h
    by_contra hle
    push Not at hle
    unfold childMap at hn
    rw [if_neg (not_not.2 (cycleIsclose_of hS h (by simpa using hle)))] at hn
    unfold Cyclic.element at hn
    split at hn <;> simp [Except.map] at hn

/-- **C07** discrepancy: the restriction is not total — just below a full turn it raises `ValueError` instead of
returning the identity, for every order. -/
theorem C07_so2_child_raises (M : ℕ) (hM : 0 < M) :
    ∃ g, IsElement g ∧ childMap M g = .error .value := by
  have hM' : (0 : ℝ) < M := by exact_mod_cast hM
  have hM1 : (1 : ℝ) ≤ M := by exact_mod_cast hM
  have hpi := pi_pos
  have hpi3 := pi_gt_three
  have hS : 0 < 2 * π / M := by positivity
  set ε : ℝ := 1 / (10 ^ 12 * M) with hε
  have hε0 : 0 < ε := by positivity
  have hε1 : ε ≤ 1 / 10 ^ 12 := by
    rw [hε]; apply one_div_le_one_div_of_le (by norm_num); nlinarith
  refine ⟨2 * π - ε, ⟨by norm_num at hε1; linarith, by linarith⟩, ?_⟩
  have hc : cycleIsclose (2 * π - ε) 0 (2 * π / M) := by
    refine cycleIsclose_of hS M ?_
    have : 2 * π - ε - 0 - (M : ℤ) * (2 * π / M) = -ε := by
      push_cast; field_simp; ring
    rw [this, abs_neg, abs_of_pos hε0]
    refine hε1.trans (by norm_num)
  have hr : round ((2 * π - ε) * M / (2 * π)) = (M : ℤ) := by
    have e1 : (2 * π - ε) * M / (2 * π) = M - 1 / 10 ^ 12 / (2 * π) := by
      rw [hε]; field_simp
    have h1 : 1 / 10 ^ 12 / (2 * π) < 1 / 2 := by
      rw [div_lt_iff₀ (by positivity)]; norm_num; linarith
    have h2 : 0 < 1 / 10 ^ 12 / (2 * π) := by positivity
    rw [round_eq_iff, e1]
    constructor <;> push_cast <;> linarith
  rw [childMap, if_neg (not_not.2 hc), hr, Cyclic.element, if_neg (by simp [Cyclic.isElement])]
  rfl

end SO2

namespace O2

theorem element_ok {e : Elem} (h : e.1 = 0 ∨ e.1 = 1) : element e = .ok (reduce e) := by simp [element, h]

theorem element_eq_ok {e g : Elem} (h : element e = .ok g) : (e.1 = 0 ∨ e.1 = 1) ∧ g = reduce e := by
  unfold element at h
  split at h
  · rename_i hh; simp only [Except.ok.injEq] at h; exact ⟨hh, h.symm⟩
  · simp at h

/-- Two reduced elements agree when the flips agree and the angles differ by full turns. -/
theorem reduce_eq {f : ℤ} {x y : ℝ} (q : ℤ) (h : x = y + q * (2 * π)) : reduce (f, x) = reduce (f, y) := by
  simp only [reduce, mod2pi_eq_iff.2 ⟨q, h⟩]

/-- Composition of reduced elements in terms of unreduced angles. -/
theorem combine_reduce (f f' : ℤ) (x y : ℝ) :
    combine (reduce (f, x)) (reduce (f', y)) = reduce ((f + f') % 2, x + sgnR f * y) := by
  obtain ⟨q, hq⟩ := mod2pi_spec x
  obtain ⟨r, hr⟩ := mod2pi_spec y
  simp only [combine, reduce, mod2pi_mod2pi, sgn, Prod.mk.injEq, true_and]
  rw [mod2pi_eq_iff, hq, hr]
  unfold sgnR
  split
  · exact ⟨-q + r, by push_cast; ring⟩
  · exact ⟨-q - r, by push_cast; ring⟩

theorem inverse_reduce (f : ℤ) (x : ℝ) : inverse (reduce (f, x)) = reduce (f, -x * sgnR f) := by
  obtain ⟨q, hq⟩ := mod2pi_spec x
  simp only [inverse, reduce, mod2pi_mod2pi, sgn, Prod.mk.injEq, true_and]
  rw [mod2pi_eq_iff, hq]
  unfold sgnR
  split
  · exact ⟨-q, by push_cast; ring⟩
  · exact ⟨q, by push_cast; ring⟩

theorem reduce_of_isElement {e : Elem} (h : IsElement e) : reduce e = e := by
  simp only [reduce, mod2pi_eq_self h.2.1 h.2.2]

/-- **C07** `O(2) ⊇ SO(2)`. -/
theorem C07_o2_so2 :
    SubgroupEmbedding IsElement combine SO2.IsElement SO2.combine so2ToO2 (fun e => .ok (o2ToSo2 e)) := by
  refine ⟨fun h hh => ⟨_, element_ok (.inl rfl), isElement_reduce _ (.inl rfl)⟩, ?_, ?_, ?_⟩
  · intro h h' g g' _ _ hg hg'
    obtain ⟨_, rfl⟩ := element_eq_ok hg
    obtain ⟨_, rfl⟩ := element_eq_ok hg'
    rw [combine_reduce, so2ToO2, element_ok (.inl rfl)]
    simp [SO2.combine, mod2pi_add_mod2pi, reduce]
  · intro h h' hh hh' heq
    simp only [so2ToO2, element_ok (e := (0, h)) (.inl rfl), element_ok (e := (0, h')) (.inl rfl), Except.ok.injEq, reduce,
      Prod.mk.injEq, true_and] at heq
    rwa [mod2pi_eq_self hh.1 hh.2, mod2pi_eq_self hh'.1 hh'.2] at heq
  · intro h g hh hg
    obtain ⟨_, rfl⟩ := element_eq_ok hg
    simp [o2ToSo2, reduce, mod2pi_eq_self hh.1 hh.2]

/-- **C07** `O(2) ⊇ C_M` (rotations), every order. -/
theorem C07_o2_cyclic (M : ℕ) (hM : 0 < M) :
    SubgroupEmbedding IsElement combine (fun e => Cyclic.isElement M e = true) (Cyclic.combine M)
      (fun e => so2ToO2 (Cyclic.radians M e)) (fun e => .ok (o2ToCn M e)) := by
  have hM' : (0 : ℝ) < M := by exact_mod_cast hM
  have hpi := pi_pos
  have hS : 0 < 2 * π / M := by positivity
  have hel : ∀ e, Cyclic.isElement M e = true ↔ 0 ≤ e ∧ e < M := fun e => by simp [Cyclic.isElement]
  have hrad : ∀ e, Cyclic.isElement M e = true → mod2pi (Cyclic.radians M e) = Cyclic.radians M e := by
    intro e he
    have := mod2pi_mul_div_eq hM ((hel e).1 he).1 ((hel e).1 he).2
    simpa [Cyclic.radians, mul_assoc] using this
  refine ⟨fun h hh => ⟨_, element_ok (.inl rfl), isElement_reduce _ (.inl rfl)⟩, ?_, ?_, ?_⟩
  · intro h h' g g' _ _ hg hg'
    obtain ⟨_, rfl⟩ := element_eq_ok hg
    obtain ⟨_, rfl⟩ := element_eq_ok hg'
    rw [combine_reduce, so2ToO2, element_ok (.inl rfl)]
    simp only [Except.ok.injEq, add_zero, Int.zero_emod, sgnR_zero, one_mul]
    refine reduce_eq (-((h + h') / (M : ℤ))) ?_
    have e : ((h + h') % (M : ℤ) : ℤ) = h + h' - M * ((h + h') / (M : ℤ)) := by
      have := Int.emod_add_mul_ediv (h + h') M; omega
    simp only [Cyclic.combine, Cyclic.radians, e]; push_cast; field_simp; ring
  · intro h h' hh hh' heq
    simp only [so2ToO2, element, true_or, if_true, Except.ok.injEq, reduce,
      Prod.mk.injEq, true_and] at heq
    rw [hrad h hh, hrad h' hh'] at heq
    have : (h : ℝ) = h' := by simp only [Cyclic.radians] at heq; field_simp at heq; exact heq
    exact_mod_cast this
  · intro h g hh hg
    obtain ⟨_, rfl⟩ := element_eq_ok hg
    have hred : reduce (0, Cyclic.radians M h) = (0, Cyclic.radians M h) := by simp only [reduce, hrad h hh]
    rw [hred]
    simp only [o2ToCn, if_true, Except.ok.injEq]
    have hc : cycleIsclose (Cyclic.radians M h) 0 (2 * π / M) :=
      cycleIsclose_of_eq hS h (by simp only [Cyclic.radians]; ring)
    have hr : M * Cyclic.radians M h / (2 * π) = ((h : ℤ) : ℝ) := by simp only [Cyclic.radians]; field_simp
    rw [if_pos hc, hr, round_intCast, Int.emod_eq_of_lt ((hel h).1 hh).1 ((hel h).1 hh).2]

/-- **C07** `O(2) ⊇ C_2` generated by the reflection along an axis, every accepted axis in `[0, 2π]`. -/
theorem C07_o2_flip (axis : ℝ) :
    SubgroupEmbedding IsElement combine (fun e => Cyclic.isElement 2 e = true) (Cyclic.combine 2)
      (flipToO2 axis) (o2ToFlip axis) := by
  have hel : ∀ e : ℤ, Cyclic.isElement 2 e = true ↔ e = 0 ∨ e = 1 := fun e => by simp [Cyclic.isElement]; omega
  have h0 : flipToO2 axis 0 = .ok identity := by simp [flipToO2]
  have h1 : flipToO2 axis 1 = .ok (reduce (1, axis)) := by simp [flipToO2, element]
  have hid : identity = reduce (0, 0) := by simp [identity, reduce]
  refine ⟨?_, ?_, ?_, ?_⟩
  · intro h hh
    rcases (hel h).1 hh with rfl | rfl
    · exact ⟨_, h0, isElement_identity⟩
    · exact ⟨_, h1, isElement_reduce _ (.inr rfl)⟩
  · intro h h' g g' hh hh' hg hg'
    rcases (hel h).1 hh with rfl | rfl <;> rcases (hel h').1 hh' with rfl | rfl <;>
      simp only [h0, h1, Except.ok.injEq, hid] at hg hg' <;> subst hg hg' <;> rw [combine_reduce] <;>
      simp [Cyclic.combine, h0, h1, hid]
  · intro h h' hh hh' heq
    rcases (hel h).1 hh with rfl | rfl <;> rcases (hel h').1 hh' with rfl | rfl <;>
      simp [h0, h1, identity, reduce] at heq ⊢
  · intro h g hh hg
    rcases (hel h).1 hh with rfl | rfl
    · rw [h0] at hg
      simp only [Except.ok.injEq] at hg
      subst hg
      rw [o2ToFlip, if_pos ⟨rfl, cycleIsclose_of_eq two_pi_pos 0 (by simp [identity])⟩]
      rfl
    · rw [h1] at hg
      simp only [Except.ok.injEq] at hg
      subst hg
      obtain ⟨q, hq⟩ := mod2pi_spec axis
      rw [o2ToFlip, if_neg (by simp [reduce]), if_pos ⟨rfl, cycleIsclose_of_eq two_pi_pos (-q) (by
        simp only [reduce, hq]; push_cast; ring)⟩]
      rfl

/-- `selfParent axis` moves the angle of reflections by `axis` and keeps rotations. -/
theorem selfParent_reduce (axis : ℝ) (f : ℤ) (hf : f = 0 ∨ f = 1) (x : ℝ) :
    selfParent axis (reduce (f, x)) = reduce (f, x + f * axis) := by
  rw [selfParent, adjointMap, inverse_reduce, combine_reduce, combine_reduce]
  rcases hf with rfl | rfl
  · norm_num
  · norm_num; congr 2; ring

theorem selfChild_reduce (axis : ℝ) (f : ℤ) (hf : f = 0 ∨ f = 1) (x : ℝ) :
    selfChild axis (reduce (f, x)) = reduce (f, x - f * axis) := by
  rw [selfChild, adjointMap, inverse_reduce, combine_reduce, combine_reduce]
  rcases hf with rfl | rfl
  · norm_num
  · norm_num; congr 2; ring

/-- **C07** `O(2)` with another reference axis, every axis. -/
theorem C07_o2_self (axis : ℝ) :
    SubgroupEmbedding IsElement combine IsElement combine
      (fun e => .ok (selfParent axis e)) (fun e => .ok (some (selfChild axis e))) := by
  have key : ∀ h, IsElement h → selfParent axis h = reduce (h.1, h.2 + h.1 * axis) := by
    intro h hh
    have := selfParent_reduce axis h.1 hh.1 h.2
    rwa [show (h.1, h.2) = h from rfl, reduce_of_isElement hh] at this
  have inv : ∀ h, IsElement h → selfChild axis (selfParent axis h) = h := by
    intro h hh
    rw [key h hh, selfChild_reduce _ _ hh.1]
    rw [add_sub_cancel_right, show (h.1, h.2) = h from rfl, reduce_of_isElement hh]
  refine ⟨fun h hh => ⟨_, rfl, isElement_combine _ _⟩, ?_, ?_, ?_⟩
  · intro h h' g g' hh hh' hg hg'
    simp only [Except.ok.injEq] at hg hg' ⊢
    rw [← hg, ← hg', key h hh, key h' hh', key _ (isElement_combine _ _), combine_reduce]
    have e : combine h h' = reduce ((h.1 + h'.1) % 2, h.2 + sgnR h.1 * h'.2) := by
      have := combine_reduce h.1 h'.1 h.2 h'.2
      rwa [show (h.1, h.2) = h from rfl, reduce_of_isElement hh, show (h'.1, h'.2) = h' from rfl,
        reduce_of_isElement hh'] at this
    rw [e]
    obtain ⟨q, hq⟩ := mod2pi_spec (h.2 + sgnR h.1 * h'.2)
    simp only [reduce, Prod.mk.injEq, true_and, hq]
    rw [mod2pi_eq_iff]
    refine ⟨-q, ?_⟩
    rcases hh.1 with h1 | h1 <;> rcases hh'.1 with h2 | h2 <;> rw [h1, h2] <;> norm_num <;> ring
  · intro h h' hh hh' heq
    simp only [Except.ok.injEq] at heq
    rw [← inv h hh, heq, inv h' hh']
  · intro h g hh hg
    simp only [Except.ok.injEq] at hg ⊢
    rw [← hg, inv h hh]

theorem dnToO2_ok (M : ℕ) (axis : ℝ) {h : Dihedral.Elem} (hh : Dihedral.isElement M h = true) :
    dnToO2 M axis h = .ok (reduce (h.1, h.2 * 2 * π / M + h.1 * axis)) :=
  element_ok (Dihedral.isElement_iff.1 hh).1

/-- The restriction to `D_M` applied to the image of `(f, r)`: `axis < 2π/M` keeps the representative in range. -/
theorem o2ToDn_dnToO2 (M : ℕ) (hM : 0 < M) (axis : ℝ) (f r : ℤ) (q : ℤ) :
    o2ToDn M axis (f, r * 2 * π / M + f * axis - q * (2 * π)) = (Dihedral.element M (f, r - q * M)).map some := by
  have hM' : (0 : ℝ) < M := by exact_mod_cast hM
  have hpi := pi_pos
  have hS : 0 < 2 * π / M := by positivity
  have e1 : ((r : ℝ) * 2 * π / M + f * axis - q * (2 * π) - f * axis) = ((r - q * M : ℤ) : ℝ) * (2 * π / M) := by
    push_cast; field_simp; ring
  unfold o2ToDn
  rw [if_pos (cycleIsclose_of_eq hS (r - q * M) (by rw [sub_zero]; exact e1))]
  simp only [e1]
  have e2 : ((r - q * M : ℤ) : ℝ) * (2 * π / M) * M / (2 * π) = ((r - q * M : ℤ) : ℝ) := by field_simp
  rw [e2, round_intCast]

/-- **C07** (partial) `O(2) ⊇ D_M` for the axes `0 ≤ axis < 2π/M`.  Missing: the code accepts every axis up to `2π`,
but then the restriction raises; see `C07_o2_dn_iff`. -/
theorem C07_o2_dn_partial (M : ℕ) (hM : 0 < M) (axis : ℝ) (h0 : 0 ≤ axis) (h1 : axis < 2 * π / M) :
    SubgroupEmbedding IsElement combine (fun e => Dihedral.isElement M e = true) (Dihedral.combine M)
      (dnToO2 M axis) (o2ToDn M axis) := by
  have hM' : (0 : ℝ) < M := by exact_mod_cast hM
  have hpi := pi_pos
  have key : ∀ h, Dihedral.isElement M h = true → o2ToDn M axis (reduce (h.1, h.2 * 2 * π / M + h.1 * axis)) =
      .ok (some h) := by
    intro h hh
    obtain ⟨hf, hr0, hr1⟩ := Dihedral.isElement_iff.1 hh
    have hr0' : (0 : ℝ) ≤ h.2 := by exact_mod_cast hr0
    have hr1' : (h.2 : ℝ) ≤ M - 1 := by
      have : h.2 ≤ (M : ℤ) - 1 := by omega
      exact_mod_cast this
    have hred : reduce (h.1, h.2 * 2 * π / M + h.1 * axis) = (h.1, h.2 * 2 * π / M + h.1 * axis - (0 : ℤ) * (2 * π)) := by
      simp only [reduce, Prod.mk.injEq, true_and]
      rw [Int.cast_zero, zero_mul, sub_zero]
      have hf0 : (0 : ℝ) ≤ h.1 ∧ (h.1 : ℝ) ≤ 1 := by rcases hf with hf | hf <;> rw [hf] <;> norm_num
      refine mod2pi_eq_self ?_ ?_
      · have := mul_nonneg hf0.1 h0
        positivity
      · have h2 : (h.1 : ℝ) * axis ≤ axis := by nlinarith
        have h3 : (h.2 : ℝ) * 2 * π / M ≤ (M - 1) * (2 * π / M) := by
          rw [mul_assoc, mul_div_assoc]
          exact mul_le_mul_of_nonneg_right hr1' (by positivity)
        have h4 : ((M : ℝ) - 1) * (2 * π / M) + 2 * π / M = 2 * π := by field_simp; ring
        linarith
    rw [hred, o2ToDn_dnToO2 M hM]
    simp only [zero_mul, sub_zero]
    rw [Dihedral.element, if_pos hh]; rfl
  refine ⟨fun h hh => ⟨_, dnToO2_ok M axis hh, isElement_reduce _ (Dihedral.isElement_iff.1 hh).1⟩, ?_, ?_, ?_⟩
  · intro h h' g g' hh hh' hg hg'
    rw [dnToO2_ok M axis hh] at hg
    rw [dnToO2_ok M axis hh'] at hg'
    simp only [Except.ok.injEq] at hg hg'
    have hcl := (Dihedral.C02_dihedral_group_laws M hM).2.1 h h' hh hh'
    rw [dnToO2_ok M axis hcl, ← hg, ← hg', combine_reduce]
    simp only [Except.ok.injEq, Dihedral.combine]
    refine reduce_eq (-((h.2 + Dihedral.sgn h.1 * h'.2) / (M : ℤ))) ?_
    have e : ((h.2 + Dihedral.sgn h.1 * h'.2) % (M : ℤ) : ℤ) =
        h.2 + Dihedral.sgn h.1 * h'.2 - M * ((h.2 + Dihedral.sgn h.1 * h'.2) / (M : ℤ)) := by
      have := Int.emod_add_mul_ediv (h.2 + Dihedral.sgn h.1 * h'.2) M; omega
    rw [e]
    rcases (Dihedral.isElement_iff.1 hh).1 with h1 | h1 <;> rcases (Dihedral.isElement_iff.1 hh').1 with h2 | h2 <;>
      rw [h1, h2] <;> norm_num [Dihedral.sgn] <;> field_simp <;> ring
  · intro h h' hh hh' heq
    rw [dnToO2_ok M axis hh, dnToO2_ok M axis hh'] at heq
    simp only [Except.ok.injEq] at heq
    have := key h hh
    rw [heq, key h' hh'] at this
    simpa using this.symm
  · intro h g hh hg
    rw [dnToO2_ok M axis hh] at hg
    simp only [Except.ok.injEq] at hg
    rw [← hg, key h hh]

/-- **C07** (exact) For an accepted axis `0 ≤ axis ≤ 2π`, the maps returned for the id `(axis, M)` satisfy the property
exactly when `axis < 2π/M`. -/
theorem C07_o2_dn_iff (M : ℕ) (hM : 0 < M) (axis : ℝ) (h0 : 0 ≤ axis) (h2 : axis ≤ 2 * π) :
    SubgroupEmbedding IsElement combine (fun e => Dihedral.isElement M e = true) (Dihedral.combine M)
      (dnToO2 M axis) (o2ToDn M axis) ↔ axis < 2 * π / M := by
  refine ⟨fun S => ?_, C07_o2_dn_partial M hM axis h0⟩
  by_contra hge
  push Not at hge
  have hM' : (0 : ℝ) < M := by exact_mod_cast hM
  have hM1 : (1 : ℝ) ≤ M := by exact_mod_cast hM
  have hpi := pi_pos
  have hh : Dihedral.isElement M (1, (M : ℤ) - 1) = true := Dihedral.isElement_iff.2 ⟨.inr rfl, by omega, by omega⟩
  have hc := S.child_parent _ _ hh (dnToO2_ok M axis hh)
  -- the stored angle has been reduced at least once
  obtain ⟨q, hq⟩ := mod2pi_spec ((((M : ℤ) - 1 : ℤ) : ℝ) * 2 * π / M + ((1 : ℤ) : ℝ) * axis)
  have hred : reduce (1, (((M : ℤ) - 1 : ℤ) : ℝ) * 2 * π / M + ((1 : ℤ) : ℝ) * axis) =
      (1, (((M : ℤ) - 1 : ℤ) : ℝ) * 2 * π / M + ((1 : ℤ) : ℝ) * axis - q * (2 * π)) := by simp only [reduce, hq]
  have hq1 : 1 ≤ q := by
    by_contra hlt
    have hq0 : (q : ℝ) ≤ 0 := by exact_mod_cast (by omega : q ≤ 0)
    have hl := mod2pi_lt ((((M : ℤ) - 1 : ℤ) : ℝ) * 2 * π / M + ((1 : ℤ) : ℝ) * axis)
    rw [hq] at hl
    push_cast at hl
    have h4 : ((M : ℝ) - 1) * 2 * π / M + 2 * π / M = 2 * π := by field_simp; ring
    nlinarith
  rw [hred, o2ToDn_dnToO2 M hM, Dihedral.element] at hc
  split at hc
  · rename_i hel
    have := (Dihedral.isElement_iff.1 hel).2.1
    simp only at this
    nlinarith [Int.natCast_pos.2 hM]
  · simp [Except.map] at hc

/-- **C07** violation witness: `o2_group().subgroup((π, 4))` is accepted but its restriction raises on the image of its
own inclusion. -/
theorem C07_o2_dn_violated : SubgroupIdOk (some π, 4) ∧
    ¬ SubgroupEmbedding IsElement combine (fun e => Dihedral.isElement 4 e = true) (Dihedral.combine 4)
      (dnToO2 4 π) (o2ToDn 4 π) := by
  have hpi := pi_pos
  refine ⟨⟨?_, .inr (by norm_num)⟩, ?_⟩
  · intro a ha
    simp only [Option.some.injEq] at ha
    subst ha; constructor <;> linarith
  · rw [C07_o2_dn_iff 4 (by norm_num) π hpi.le (by linarith)]
    push_cast; linarith

example : SubgroupEmbedding IsElement combine (fun e => Dihedral.isElement 4 e = true) (Dihedral.combine 4)
      (dnToO2 4 (π / 4)) (o2ToDn 4 (π / 4)) := by
  have hpi := pi_pos
  exact C07_o2_dn_partial 4 (by norm_num) _ (by positivity) (by push_cast; linarith)

/-! ### C08 for `O(2)` -/

/-- **C08** Rotations of a rotation subgroup: `(None, M₁)` then `M₂` is `(None, M₂)`. -/
theorem C08_o2_rot (M₁ M₂ : ℕ) (h₁ : 0 < M₁) (h₂ : Cyclic.subgroupIdOk M₁ M₂ = true) :
    combineSubgroups (none, M₁) (.cyc M₂) = .ok (none, M₂) ∧
    ∀ h, Cyclic.isElement M₂ h = true →
      so2ToO2 (Cyclic.radians M₂ h) = (Cyclic.parentMap M₁ M₂ h) >>= fun e => so2ToO2 (Cyclic.radians M₁ e) := by
  refine ⟨rfl, fun h hh => ?_⟩
  obtain ⟨hM₂, hd⟩ : 0 < M₂ ∧ M₁ % M₂ = 0 := by simpa [Cyclic.subgroupIdOk] using h₂
  obtain ⟨r, rfl⟩ := Nat.dvd_of_mod_eq_zero hd
  have hr : 0 < r := Nat.pos_of_mul_pos_left h₁ |> fun h => by
    rcases Nat.eq_zero_or_pos r with h0 | h0
    · subst h0; simp at h₁
    · exact h0
  have hM₂' : (0 : ℝ) < M₂ := by exact_mod_cast hM₂
  have hr' : (0 : ℝ) < r := by exact_mod_cast hr
  obtain ⟨hh0, hh1⟩ : 0 ≤ h ∧ h < M₂ := by simpa [Cyclic.isElement] using hh
  have he : h * ((M₂ * r : ℕ) : ℤ) / (M₂ : ℤ) = h * r := by
    push_cast
    rw [show h * ((M₂ : ℤ) * r) = h * r * M₂ by ring]
    exact Int.mul_ediv_cancel _ (by exact_mod_cast hM₂.ne')
  have hel : Cyclic.isElement (M₂ * r) (h * r) = true := by
    simp only [Cyclic.isElement, Bool.and_eq_true, decide_eq_true_eq]
    refine ⟨by positivity, ?_⟩
    push_cast
    exact mul_lt_mul_of_pos_right hh1 (by exact_mod_cast hr)
  rw [Cyclic.parentMap, he, Cyclic.element, if_pos hel]
  simp only [bind, Except.bind]
  congr 1
  simp only [Cyclic.radians]; push_cast; field_simp

/-- **C08** A cyclic subgroup of `SO(2)`, seen in `O(2)`. -/
theorem C08_o2_so2 (M₂ : ℕ) (_h₂ : 0 < M₂) :
    combineSubgroups (none, -1) (.cyc M₂) = .ok (none, M₂) ∧
    ∀ h : ℤ, so2ToO2 (Cyclic.radians M₂ h) = so2ToO2 (SO2.parentMap M₂ h) := by
  refine ⟨rfl, fun h => ?_⟩
  rw [so2ToO2, so2ToO2, element_ok (.inl rfl), element_ok (.inl rfl)]
  simp only [Except.ok.injEq, reduce, Prod.mk.injEq, true_and, SO2.parentMap, mod2pi_mod2pi, Cyclic.radians, mul_assoc]

/-- **C08** Subgroups of a reflection subgroup. -/
theorem C08_o2_flip (axis : ℝ) (M₂ : ℕ) (h₂ : Cyclic.subgroupIdOk 2 M₂ = true) :
    (M₂ = 2 → combineSubgroups (some axis, 1) (.cyc M₂) = .ok (some axis, 1) ∧
      ∀ h, Cyclic.isElement 2 h = true → (Cyclic.parentMap 2 2 h >>= flipToO2 axis) = flipToO2 axis h) ∧
    (M₂ ≠ 2 → combineSubgroups (some axis, 1) (.cyc M₂) = .ok (none, 1) ∧
      ∀ h, Cyclic.isElement M₂ h = true →
        (Cyclic.parentMap 2 M₂ h >>= flipToO2 axis) = so2ToO2 (Cyclic.radians 1 h)) := by
  obtain ⟨hM₂, hd⟩ : 0 < M₂ ∧ 2 % M₂ = 0 := by simpa [Cyclic.subgroupIdOk] using h₂
  have hle : M₂ ≤ 2 := Nat.le_of_dvd (by norm_num) (Nat.dvd_of_mod_eq_zero hd)
  constructor
  · rintro rfl
    refine ⟨by simp [combineSubgroups], fun h hh => ?_⟩
    have he : h * ((2 : ℕ) : ℤ) / ((2 : ℕ) : ℤ) = h := by omega
    rw [Cyclic.parentMap, he, Cyclic.element, if_pos hh]; rfl
  · intro hne
    have : M₂ = 1 := by omega
    subst this
    refine ⟨by simp [combineSubgroups], fun h hh => ?_⟩
    have : h = 0 := by
      have : 0 ≤ h ∧ h < 1 := by simpa [Cyclic.isElement] using hh
      omega
    subst this
    simp [Cyclic.parentMap, Cyclic.element, Cyclic.isElement, bind, Except.bind, flipToO2, so2ToO2, element, reduce,
      identity, Cyclic.radians]

/-- **C08** A dihedral subgroup of a dihedral subgroup: the combined axis is `axis₁ + k·2π/M₁`, it is accepted again, and the
inclusions compose. -/
theorem C08_o2_dih (M₁ M₂ : ℕ) (axis : ℝ) (k : ℤ) (hM₁ : 1 < M₁) (h0 : 0 ≤ axis) (h1 : axis < 2 * π / M₁)
    (h₂ : Dihedral.subgroupIdOk M₁ (some k, M₂) = true) (hk : k < (M₁ / M₂ : ℕ)) :
    ∃ a, combineSubgroups (some axis, M₁) (.dih (some k) M₂) = .ok (some a, M₂) ∧ SubgroupIdOk (some a, M₂) ∧
      a < 2 * π / M₂ ∧
      ∀ h, Dihedral.isElement M₂ h = true →
        dnToO2 M₂ a h = (Dihedral.dmToDn M₁ M₂ k h) >>= dnToO2 M₁ axis := by
  obtain ⟨⟨hM₂, hd⟩, hk0, hk1⟩ : (1 ≤ M₂ ∧ M₁ % M₂ = 0) ∧ 0 ≤ k ∧ k < M₁ := by
    simpa [Dihedral.subgroupIdOk] using h₂
  obtain ⟨r, rfl⟩ := Nat.dvd_of_mod_eq_zero hd
  rw [Nat.mul_div_cancel_left _ hM₂] at hk
  have hr : 0 < r := by omega
  have hpi := pi_pos
  have hM₂' : (0 : ℝ) < M₂ := by exact_mod_cast hM₂
  have hM₂1 : (1 : ℝ) ≤ M₂ := by exact_mod_cast hM₂
  have hr' : (0 : ℝ) < r := by exact_mod_cast hr
  have hk0' : (0 : ℝ) ≤ k := by exact_mod_cast hk0
  have hk' : (k : ℝ) ≤ r - 1 := by exact_mod_cast (by omega : k ≤ (r : ℤ) - 1)
  have hel : Dihedral.isElement (M₂ * r) (0, k) = true := Dihedral.isElement_iff.2 ⟨.inl rfl, hk0, hk1⟩
  set a : ℝ := axis + k * 2 * π / (M₂ * r : ℕ) with ha
  have hMr : (0 : ℝ) < ((M₂ * r : ℕ) : ℝ) := by push_cast; positivity
  have hale : a < 2 * π / M₂ := by
    have e1 : (k : ℝ) * 2 * π / (M₂ * r : ℕ) ≤ (r - 1) * (2 * π / (M₂ * r : ℕ)) := by
      rw [mul_assoc, mul_div_assoc]
      exact mul_le_mul_of_nonneg_right hk' (by positivity)
    have e2 : ((r : ℝ) - 1) * (2 * π / (M₂ * r : ℕ)) + 2 * π / (M₂ * r : ℕ) = 2 * π / M₂ := by
      push_cast; field_simp; ring
    linarith
  have hale2 : 2 * π / M₂ ≤ 2 * π := div_le_self (by positivity) hM₂1
  have ha0 : 0 ≤ a := by positivity
  have hmod : mod2pi ((k : ℝ) * 2 * π / (M₂ * r : ℕ)) = k * 2 * π / (M₂ * r : ℕ) :=
    mod2pi_mul_div_eq (by omega) hk0 hk1
  refine ⟨a, ?_, ⟨?_, .inr (Int.natCast_pos.2 hM₂)⟩, hale, ?_⟩
  · have hne : ¬ ((M₂ * r : ℕ) : ℤ) = 1 := by omega
    simp only [combineSubgroups, if_neg hne, Int.toNat_natCast, Dihedral.element, if_pos hel, bind, Except.bind,
      dnToO2_ok _ _ hel]
    simp only [reduce, Except.ok.injEq, Prod.mk.injEq, Option.some.injEq, and_true]
    rw [ha, ← hmod]; simp
  · intro a' ha'
    simp only [Option.some.injEq] at ha'
    subst ha'
    exact ⟨ha0, by linarith⟩
  · intro h hh
    obtain ⟨hf, hr0, hr1⟩ := Dihedral.isElement_iff.1 hh
    have hf0 : 0 ≤ h.1 ∧ h.1 ≤ 1 := by omega
    have hel' : Dihedral.isElement (M₂ * r) (h.1, h.2 * r + h.1 * k) = true := by
      refine Dihedral.isElement_iff.2 ⟨hf, ?_, ?_⟩
      · have := mul_nonneg hf0.1 hk0
        positivity
      · simp only
        push_cast
        have e1 : h.1 * k ≤ k := by nlinarith
        have e2 : h.2 * r ≤ ((M₂ : ℤ) - 1) * r := mul_le_mul_of_nonneg_right (by omega) (by positivity)
        nlinarith
    rw [dnToO2_ok _ _ hh, Dihedral.dmToDn, Nat.mul_div_cancel_left _ hM₂, Dihedral.element, if_pos hel']
    simp only [bind, Except.bind]
    rw [dnToO2_ok _ _ hel']
    simp only [Except.ok.injEq]
    congr 2
    rw [ha]
    push_cast
    field_simp
    ring

/-- **C08** (partial) `O(2)` with axis `b` inside of `O(2)` with axis `a`: the combined id composes the inclusions.  Missing:
acceptance of the combined id, which needs `a + b ≤ 2π`, see `C08_o2_self_violated`. -/
theorem C08_o2_self_partial (a b : ℝ) (_ha : 0 ≤ a) (hb : 0 ≤ b) (hb' : b < 2 * π) (m : ℤ) :
    combineSubgroups (some a, -1) (.o2 (some b) m) = .ok (some (a + b), m) ∧
    (∀ h, IsElement h → selfParent (a + b) h = selfParent a (selfParent b h)) ∧
    (∀ M : ℕ, 0 < M → ∀ h, Dihedral.isElement M h = true →
      dnToO2 M (a + b) h = (dnToO2 M b h).map (selfParent a)) ∧
    (∀ h, flipToO2 (a + b) h = (flipToO2 b h).map (selfParent a)) := by
  have hred : ∀ h, IsElement h → reduce (h.1, h.2) = h := fun h hh => reduce_of_isElement hh
  refine ⟨?_, ?_, ?_, ?_⟩
  · simp only [combineSubgroups, bind, Except.bind, element_ok (e := (0, b)) (.inl rfl)]
    rw [if_neg (by norm_num), selfParent_reduce _ _ (.inl rfl)]
    simp [reduce, mod2pi_eq_self hb hb']
  · intro h hh
    rw [← hred h hh, selfParent_reduce _ _ hh.1, selfParent_reduce _ _ hh.1, selfParent_reduce _ _ hh.1]
    congr 2; ring
  · intro M hM h hh
    rw [dnToO2_ok _ _ hh, dnToO2_ok _ _ hh]
    simp only [Except.map, Except.ok.injEq]
    rw [selfParent_reduce _ _ (Dihedral.isElement_iff.1 hh).1]
    congr 2; ring
  · intro h
    have hid : identity = reduce (0, 0) := by simp [identity, reduce]
    by_cases h0 : h = 0
    · simp only [flipToO2, if_pos h0, Except.map, Except.ok.injEq]
      rw [hid, selfParent_reduce _ _ (.inl rfl)]; simp
    · simp only [flipToO2, if_neg h0]
      rw [element_ok (.inr rfl), element_ok (.inr rfl)]
      simp only [Except.map, Except.ok.injEq]
      rw [selfParent_reduce _ _ (.inr rfl)]; congr 2; push_cast; ring

/-- **C08** violation witness: two accepted ids whose combination is rejected by `O2._subgroup`. -/
theorem C08_o2_self_violated : SubgroupIdOk (some (3 * π / 2), -1) ∧ SubgroupIdOk (some π, -1) ∧
    ∃ id, combineSubgroups (some (3 * π / 2), -1) (.o2 (some π) (-1)) = .ok id ∧ ¬ SubgroupIdOk id := by
  have hpi := pi_pos
  refine ⟨⟨?_, .inl rfl⟩, ⟨?_, .inl rfl⟩, _, (C08_o2_self_partial _ π (by positivity) hpi.le (by linarith) _).1, ?_⟩
  · intro a ha; simp only [Option.some.injEq] at ha; subst ha; constructor <;> linarith
  · intro a ha; simp only [Option.some.injEq] at ha; subst ha; constructor <;> linarith
  · rintro ⟨h, -⟩
    have := (h _ rfl).2
    linarith

/-- **C08** Rotation subgroups of subgroups with an axis keep their own id. -/
theorem C08_o2_drop_axis (a : ℝ) (M₁ M₂ : ℕ) (hM₁ : 1 < M₁) (h₂ : Dihedral.subgroupIdOk M₁ (none, M₂) = true) :
    combineSubgroups (some a, M₁) (.dih none M₂) = .ok (none, M₂) ∧
    ∀ h, Cyclic.isElement M₂ h = true →
      so2ToO2 (Cyclic.radians M₂ h) = (Dihedral.cnToDn M₁ M₂ h) >>= dnToO2 M₁ a := by
  obtain ⟨hM₂, hd⟩ : 1 ≤ M₂ ∧ M₁ % M₂ = 0 := by simpa [Dihedral.subgroupIdOk] using h₂
  obtain ⟨r, rfl⟩ := Nat.dvd_of_mod_eq_zero hd
  have hr : 0 < r := by rcases Nat.eq_zero_or_pos r with h0 | h0; · subst h0; simp at hM₁
                        · exact h0
  have hM₂' : (0 : ℝ) < M₂ := by exact_mod_cast hM₂
  have hr' : (0 : ℝ) < r := by exact_mod_cast hr
  have hne : ¬ ((M₂ * r : ℕ) : ℤ) = 1 := by omega
  refine ⟨by simp only [combineSubgroups, if_neg hne], fun h hh => ?_⟩
  obtain ⟨hh0, hh1⟩ : 0 ≤ h ∧ h < M₂ := by simpa [Cyclic.isElement] using hh
  have hel : Dihedral.isElement (M₂ * r) (0, h * r) = true := by
    refine Dihedral.isElement_iff.2 ⟨.inl rfl, by positivity, ?_⟩
    push_cast
    exact mul_lt_mul_of_pos_right hh1 (by exact_mod_cast hr)
  rw [Dihedral.cnToDn, Nat.mul_div_cancel_left _ hM₂, Dihedral.element, if_pos hel]
  simp only [bind, Except.bind]
  rw [dnToO2_ok _ _ hel, so2ToO2, element_ok (.inl rfl)]
  simp only [Except.ok.injEq]
  congr 2
  simp only [Cyclic.radians]; push_cast; field_simp; ring

end O2
end Escnn
