import Verif.Spec.Subgroup
import Verif.Props.C02_Dihedral
import Verif.Props.C05_CyclicSubgroups

/-!
# C06 — subgroups of dihedral groups
-/

namespace Escnn.Dihedral

theorem element_ok {N : ℕ} {e : Elem} (h : isElement N e = true) : element N e = .ok e := by simp [element, h]

theorem element_eq_ok_iff {N : ℕ} {e g : Elem} : element N e = .ok g ↔ isElement N e = true ∧ e = g := by
  unfold element; split <;> simp_all

theorem combine_isElement {N : ℕ} (hN : 0 < N) (a b : Elem) : isElement N (combine N a b) = true := by
  have := emod_bounds hN (a.2 + sgn a.1 * b.2)
  refine isElement_iff.2 ⟨?_, this.1, this.2⟩
  simp only [combine]; omega

/-- The maps for the dihedral branch (L342-348) are correct when the axis is below `N/M`. -/
theorem dih_maps (M r : ℕ) (hM : 0 < M) (hr : 0 < r) (axis : ℤ) (ha0 : 0 ≤ axis) (ha : axis < r) :
    SubgroupMaps (isElement (M * r)) (combine (M * r)) (isElement M) (combine M) (dmToDn (M * r) M axis)
      (dnToDm (M * r) M axis) := by
  have hr' : (0 : ℤ) < r := by exact_mod_cast hr
  have hM' : (0 : ℤ) < M := by exact_mod_cast hM
  have hratio : ((M * r / M : ℕ) : ℤ) = r := by rw [Nat.mul_div_cancel_left _ hM]
  have hel : ∀ h : Elem, isElement M h = true → isElement (M * r) (h.1, h.2 * r + h.1 * axis) = true := by
    intro h hh
    obtain ⟨hf, h0, h1⟩ := isElement_iff.1 hh
    have hle : h.2 ≤ M - 1 := by omega
    rcases hf with hf | hf <;> rw [hf] <;> refine isElement_iff.2 ⟨by simp, ?_, ?_⟩ <;> push_cast <;>
      nlinarith
  have hparent : ∀ h : Elem, isElement M h = true →
      dmToDn (M * r) M axis h = .ok (h.1, h.2 * r + h.1 * axis) := by
    intro h hh
    rw [dmToDn, hratio, element_ok (hel h hh)]
  refine ⟨?_, ?_, ?_, ?_, ?_⟩
  · intro h hh; exact ⟨_, hparent h hh, hel h hh⟩
  · rintro ⟨f, x⟩ ⟨f', x'⟩ g g' hh hh' hg hg'
    rw [hparent _ hh] at hg; rw [hparent _ hh'] at hg'
    cases hg; cases hg'
    rw [hparent _ (combine_isElement hM _ _)]
    obtain ⟨hf, -⟩ := isElement_iff.1 hh
    obtain ⟨hf', -⟩ := isElement_iff.1 hh'
    have hmul : ∀ y : ℤ, y % (M : ℤ) * r = (y * r) % ((M * r : ℕ) : ℤ) := by
      intro y; push_cast
      rw [mul_comm (M : ℤ) r, mul_comm y (r : ℤ), Int.mul_emod_mul_of_pos _ _ hr', mul_comm]
    -- `combine (M r)` on a reduced value plus the axis stays reduced
    have hred : ∀ y : ℤ, y % (M : ℤ) * r + axis = (y * r + axis) % ((M * r : ℕ) : ℤ) := by
      intro y
      obtain ⟨b0, b1⟩ := emod_bounds hM y
      have hb : y % (M : ℤ) ≤ M - 1 := by omega
      have hlt : y % (M : ℤ) * r + axis < ((M * r : ℕ) : ℤ) := by push_cast; nlinarith
      have hge : 0 ≤ y % (M : ℤ) * r + axis := by positivity
      rw [← Int.emod_eq_of_lt hge hlt]
      rw [hmul, Int.emod_add_emod]
    simp only at hf hf'
    rcases hf with rfl | rfl <;> rcases hf' with rfl | rfl <;> simp only [combine, sgn]
    · norm_num; rw [hmul]; congr 1; ring
    · norm_num; rw [hred]; congr 1; ring
    · norm_num; rw [hred]; congr 1; ring
    · norm_num; rw [hmul]; congr 1; ring
  · rintro ⟨f, x⟩ ⟨f', x'⟩ hh hh' heq
    rw [hparent _ hh, hparent _ hh'] at heq
    simp only [Except.ok.injEq, Prod.mk.injEq] at heq
    obtain ⟨rfl, h2⟩ := heq
    have : x * r = x' * (r : ℤ) := by linarith
    rw [mul_right_cancel₀ hr'.ne' this]
  · rintro ⟨f, x⟩ g hh hg
    rw [hparent _ hh] at hg; cases hg
    rw [dnToDm]
    simp only [hratio]
    simp [Int.mul_ediv_cancel _ hr'.ne', element, hh, Except.map]
  · rintro ⟨f, x⟩ hg hno
    rw [dnToDm]
    simp only [hratio]
    split
    · rfl
    · rename_i h
      exfalso
      have h : (x - f * axis) % (r : ℤ) = 0 := by simpa using h
      obtain ⟨k, hk⟩ := Int.dvd_of_emod_eq_zero h
      obtain ⟨hf, h0, h1⟩ := isElement_iff.1 hg
      simp only at hf h0 h1
      push_cast at h1
      have hx : x = k * r + f * axis := by linarith
      have hk : isElement M (f, k) = true := by
        refine isElement_iff.2 ⟨hf, ?_, ?_⟩
        · simp only
          by_contra hneg
          have : k ≤ -1 := by omega
          rcases hf with rfl | rfl <;> nlinarith
        · simp only
          by_contra hneg
          have : (M : ℤ) ≤ k := by omega
          rcases hf with rfl | rfl <;> nlinarith
      exact hno _ hk (by rw [hparent _ hk, hx])

/-- The maps for the rotation branch (L334-340). -/
theorem rot_maps (M r : ℕ) (hM : 0 < M) (hr : 0 < r) :
    SubgroupMaps (isElement (M * r)) (combine (M * r)) (Cyclic.isElement M) (Cyclic.combine M) (cnToDn (M * r) M)
      (dnToCn (M * r) M) := by
  have hr' : (0 : ℤ) < r := by exact_mod_cast hr
  have hratio : ((M * r / M : ℕ) : ℤ) = r := by rw [Nat.mul_div_cancel_left _ hM]
  have hel : ∀ h : ℤ, Cyclic.isElement M h = true → isElement (M * r) (0, h * r) = true := by
    intro h hh
    obtain ⟨h0, h1⟩ := Cyclic.isElement_iff.1 hh
    exact isElement_iff.2 ⟨.inl rfl, by simp only; positivity, by push_cast; nlinarith⟩
  have hparent : ∀ h : ℤ, Cyclic.isElement M h = true → cnToDn (M * r) M h = .ok (0, h * r) := by
    intro h hh
    rw [cnToDn, hratio, element_ok (hel h hh)]
  refine ⟨?_, ?_, ?_, ?_, ?_⟩
  · intro h hh; exact ⟨_, hparent h hh, hel h hh⟩
  · intro h h' g g' hh hh' hg hg'
    rw [hparent _ hh] at hg; rw [hparent _ hh'] at hg'
    cases hg; cases hg'
    rw [hparent _ (show Cyclic.isElement M (Cyclic.combine M h h') = true from Cyclic.isElement_emod hM _)]
    simp only [combine, sgn, Cyclic.combine]
    push_cast
    norm_num
    rw [← add_mul, mul_comm (M : ℤ) r, mul_comm (h + h') (r : ℤ), Int.mul_emod_mul_of_pos _ _ hr', mul_comm]
  · intro h h' hh hh' heq
    rw [hparent _ hh, hparent _ hh'] at heq
    simp only [Except.ok.injEq, Prod.mk.injEq, true_and] at heq
    exact mul_right_cancel₀ hr'.ne' heq
  · intro h g hh hg
    rw [hparent _ hh] at hg; cases hg
    rw [dnToCn]
    simp only [hratio]
    simp [Int.mul_ediv_cancel _ hr'.ne', Cyclic.element, hh, Except.map]
  · rintro ⟨f, x⟩ hg hno
    rw [dnToCn]
    simp only [hratio]
    split
    · rename_i h
      exfalso
      obtain ⟨rfl, h⟩ := h
      obtain ⟨k, rfl⟩ := Int.dvd_of_emod_eq_zero h
      obtain ⟨-, h0, h1⟩ := isElement_iff.1 hg
      simp only at h0 h1
      push_cast at h1
      have hk : Cyclic.isElement M k = true := Cyclic.isElement_iff.2 ⟨by nlinarith, by nlinarith⟩
      exact hno _ hk (by rw [hparent _ hk, mul_comm])
    · rfl

/-- The maps for the single-reflection branch (L324-332). -/
theorem flip_maps (N : ℕ) (hN : 0 < N) (axis : ℤ) (ha0 : 0 ≤ axis) (ha : axis < N) :
    SubgroupMaps (isElement N) (combine N) (Cyclic.isElement 2) (Cyclic.combine 2) (flipToDn N axis)
      (dnToFlip axis) := by
  have hcases : ∀ h : ℤ, Cyclic.isElement 2 h = true → h = 0 ∨ h = 1 := by
    intro h hh
    obtain ⟨h0, h1⟩ := Cyclic.isElement_iff.1 hh
    have : h < 2 := by exact_mod_cast h1
    omega
  have hax : isElement N (1, axis) = true := isElement_iff.2 ⟨.inr rfl, ha0, ha⟩
  have hid : isElement N (0, 0) = true := isElement_iff.2 ⟨.inl rfl, le_rfl, Int.natCast_pos.2 hN⟩
  have p0 : flipToDn N axis 0 = .ok (0, 0) := by simp [flipToDn, identity]
  have p1 : flipToDn N axis 1 = .ok (1, axis) := by simp [flipToDn, element_ok hax]
  refine ⟨?_, ?_, ?_, ?_, ?_⟩
  · intro h hh
    rcases hcases h hh with rfl | rfl
    · exact ⟨_, p0, hid⟩
    · exact ⟨_, p1, hax⟩
  · intro h h' g g' hh hh' hg hg'
    have hlt : axis % (N : ℤ) = axis := Int.emod_eq_of_lt ha0 ha
    rcases hcases h hh with rfl | rfl <;> rcases hcases h' hh' with rfl | rfl <;>
      simp only [p0, p1, Except.ok.injEq] at hg hg' <;> subst hg hg'
    · simpa [Cyclic.combine, combine, sgn] using p0
    · have : Cyclic.combine 2 0 1 = 1 := by decide
      rw [this, p1]; simp [combine, sgn, hlt]
    · have : Cyclic.combine 2 1 0 = 1 := by decide
      rw [this, p1]; simp [combine, sgn, hlt]
    · have : Cyclic.combine 2 1 1 = 0 := by decide
      rw [this, p0]; simp [combine, sgn]
  · intro h h' hh hh' heq
    rcases hcases h hh with rfl | rfl <;> rcases hcases h' hh' with rfl | rfl <;> simp [p0, p1] at heq ⊢
  · intro h g hh hg
    rcases hcases h hh with rfl | rfl <;> simp only [p0, p1, Except.ok.injEq] at hg <;> subst hg
    · simp [dnToFlip, Cyclic.identity]
    · simp [dnToFlip, Cyclic.element, Cyclic.isElement, Except.map]
  · rintro ⟨f, x⟩ hg hno
    have h0 := hno 0 (by decide)
    have h1 := hno 1 (by decide)
    rw [p0] at h0; rw [p1] at h1
    simp only [ne_eq, Except.ok.injEq, Prod.mk.injEq, not_and] at h0 h1
    rw [dnToFlip]
    split
    · rename_i h; exact absurd h.2.symm (h0 h.1.symm)
    · split
      · rename_i h; exact absurd h.2.symm (h1 h.1.symm)
      · rfl

/-- The `SubgroupMaps` specification for the group selected by `_subgroup` for an accepted id.  Elements of the
subgroup are tagged (`ℤ ⊕ Elem`) because cyclic and dihedral elements are different Python objects. -/
def SubgroupCorrect (N : ℕ) (k : SubKind) : Prop :=
  SubgroupMaps (isElement N) (combine N) k.isElement k.combine (k.parentMap N) (k.childMap N)

theorem lift_inl {N : ℕ} {vH : ℤ → Bool} {mH : ℤ → ℤ → ℤ} {p : ℤ → Except Err Elem}
    {c : Elem → Except Err (Option ℤ)} (S : SubgroupMaps (isElement N) (combine N) vH mH p c) (k : SubKind)
    (hv : ∀ e, k.isElement (.inl e) = vH e) (hv' : ∀ e, k.isElement (.inr e) = false)
    (hm : ∀ a b, k.combine (.inl a) (.inl b) = .inl (mH a b))
    (hp : ∀ e, k.parentMap N (.inl e) = p e) (hc : ∀ e, k.childMap N e = (c e).map (Option.map .inl)) :
    SubgroupCorrect N k := by
  refine ⟨?_, ?_, ?_, ?_, ?_⟩
  · rintro (h | h) hh
    · rw [hp]; exact S.parent_ok h (by rwa [hv] at hh)
    · simp [hv'] at hh
  · rintro (h | h) (h' | h') g g' hh hh' hg hg' <;> simp only [hv', hv, Bool.false_eq_true] at hh hh'
    rw [hm, hp]; rw [hp] at hg hg'
    exact S.parent_mul h h' g g' hh hh' hg hg'
  · rintro (h | h) (h' | h') hh hh' heq <;> simp only [hv', hv, Bool.false_eq_true] at hh hh'
    rw [hp, hp] at heq
    rw [S.parent_inj h h' hh hh' heq]
  · rintro (h | h) g hh hg <;> simp only [hv', hv, Bool.false_eq_true] at hh
    rw [hp] at hg
    rw [hc, S.child_parent h g hh hg]; rfl
  · intro g hg hno
    rw [hc, S.child_none g hg (fun h hh heq => hno (.inl h) (by rwa [hv]) (by rwa [hp]))]; rfl

theorem lift_inr {N M : ℕ} {axis : ℤ}
    (S : SubgroupMaps (isElement N) (combine N) (isElement M) (combine M) (dmToDn N M axis) (dnToDm N M axis)) :
    SubgroupCorrect N (.dih axis M) := by
  refine ⟨?_, ?_, ?_, ?_, ?_⟩
  · rintro (h | h) hh
    · simp [SubKind.isElement] at hh
    · exact S.parent_ok h hh
  · rintro (h | h) (h' | h') g g' hh hh' hg hg' <;> simp only [SubKind.isElement, Bool.false_eq_true] at hh hh'
    exact S.parent_mul h h' g g' hh hh' hg hg'
  · rintro (h | h) (h' | h') hh hh' heq <;> simp only [SubKind.isElement, Bool.false_eq_true] at hh hh'
    rw [S.parent_inj h h' hh hh' heq]
  · rintro (h | h) g hh hg <;> simp only [SubKind.isElement, Bool.false_eq_true] at hh
    simp only [SubKind.childMap]
    rw [S.child_parent h g hh hg]; rfl
  · intro g hg hno
    simp only [SubKind.childMap]
    rw [S.child_none g hg (fun h hh heq => hno (.inr h) hh heq)]; rfl

/-- The ids for which `_subgroup` behaves as documented: rotations, single reflections, and dihedral subgroups whose
axis index is below `N // order` (the documented range). -/
def goodId (N : ℕ) : SubgroupId → Prop
  | (none, _) => True
  | (some axis, M) => M = 1 ∨ axis < ((N / M : ℕ) : ℤ)

/-- **C06** (partial: the full property, for *every* accepted id, is refuted by `C06_violated` below.)
For every accepted id within the documented axis range, inclusion and restriction are mutually inverse
homomorphisms with `None` exactly off the image. -/
theorem C06_dihedral_subgroup_partial (N : ℕ) (hN : 0 < N) (id : SubgroupId) (hid : subgroupIdOk N id = true)
    (hgood : goodId N id) : ∃ k, subgroup N id = .ok k ∧ SubgroupCorrect N k := by
  obtain ⟨ax, M⟩ := id
  have hM : 0 < M := by
    have : (1 ≤ M) := by
      revert hid; cases ax <;> simp [subgroupIdOk] <;> omega
    omega
  have hdvd : N % M = 0 := by
    revert hid; cases ax <;> simp [subgroupIdOk] <;> omega
  obtain ⟨r, rfl⟩ := Nat.dvd_of_mod_eq_zero hdvd
  have hr : 0 < r := by
    rcases Nat.eq_zero_or_pos r with h | h
    · simp [h] at hN
    · exact h
  cases ax with
  | none =>
    refine ⟨.rot M, by simp only [subgroup, hid, if_true], ?_⟩
    exact lift_inl (rot_maps M r hM hr) _ (fun _ => rfl) (fun _ => rfl) (fun _ _ => rfl) (fun _ => rfl) (fun _ => rfl)
  | some axis =>
    have hax : 0 ≤ axis ∧ axis < ((M * r : ℕ) : ℤ) := by
      have := hid
      simp only [subgroupIdOk, Bool.and_eq_true, decide_eq_true_eq] at this
      exact this.2
    by_cases hM1 : M = 1
    · refine ⟨.flip axis, by simp only [subgroup, hid, if_true]; rw [if_pos hM1], ?_⟩
      exact lift_inl (flip_maps (M * r) hN axis hax.1 hax.2) _ (fun _ => rfl) (fun _ => rfl) (fun _ _ => rfl)
        (fun _ => rfl) (fun _ => rfl)
    · refine ⟨.dih axis M, by simp only [subgroup, hid, if_true, hM1, if_false], ?_⟩
      refine lift_inr (dih_maps M r hM hr axis hax.1 ?_)
      rcases hgood with h | h
      · exact absurd h hM1
      · rwa [Nat.mul_div_cancel_left _ hM] at h

/-- **C06** Exact characterisation: an accepted dihedral id works iff its axis is in the documented range. -/
theorem C06_dihedral_subgroup_iff (N : ℕ) (hN : 0 < N) (id : SubgroupId) (hid : subgroupIdOk N id = true) :
    (∃ k, subgroup N id = .ok k ∧ SubgroupCorrect N k) ↔ goodId N id := by
  refine ⟨?_, C06_dihedral_subgroup_partial N hN id hid⟩
  rintro ⟨k, hk, hS⟩
  obtain ⟨ax, M⟩ := id
  cases ax with
  | none => trivial
  | some axis =>
    by_contra hbad
    simp only [goodId, not_or, not_lt] at hbad
    obtain ⟨hM1, hbad⟩ := hbad
    simp only [subgroup, hid, if_true, hM1, if_false] at hk
    cases hk
    have hM : 1 ≤ M ∧ N % M = 0 := by
      simp only [subgroupIdOk, Bool.and_eq_true, decide_eq_true_eq] at hid
      exact hid.1
    obtain ⟨r, rfl⟩ := Nat.dvd_of_mod_eq_zero hM.2
    rw [Nat.mul_div_cancel_left _ hM.1] at hbad
    -- the reflection with the largest rotation index is mapped outside of the group: `ValueError`
    have hv : SubKind.isElement (.dih axis M) (.inr (1, (M : ℤ) - 1)) = true := by
      refine isElement_iff.2 ⟨.inr rfl, ?_, ?_⟩ <;> simp <;> omega
    obtain ⟨g, hg, -⟩ := hS.parent_ok _ hv
    simp only [SubKind.parentMap, dmToDn, Nat.mul_div_cancel_left r (show 0 < M from hM.1)] at hg
    obtain ⟨he, -⟩ := element_eq_ok_iff.1 hg
    obtain ⟨-, -, h2⟩ := isElement_iff.1 he
    simp only at h2
    push_cast at h2
    have : (r : ℤ) ≤ axis := hbad
    nlinarith

/-- **C06** is violated by the code: `dihedral_group(4).subgroup((3, 2))` passes all the assertions, but including
the element `(1, 1)` of the subgroup raises `ValueError`, and so does restricting the element `(1, 1)`. -/
theorem C06_violated :
    subgroupIdOk 4 (some 3, 2) = true ∧ isElement 2 (1, 1) = true ∧ dmToDn 4 2 3 (1, 1) = .error .value ∧
    isElement 4 (1, 1) = true ∧ dnToDm 4 2 3 (1, 1) = .error .value ∧
    ¬ ∃ k, subgroup 4 (some 3, 2) = .ok k ∧ SubgroupCorrect 4 k := by
  refine ⟨by decide, by decide, rfl, by decide, rfl, ?_⟩
  rw [C06_dihedral_subgroup_iff 4 (by norm_num) _ (by decide)]
  simp [goodId]

example : subgroupIdOk 6 (some 1, 3) = true ∧ goodId 6 (some 1, 3) ∧ dmToDn 6 3 1 (1, 2) = .ok (1, 5) ∧
    dnToDm 6 3 1 (1, 5) = .ok (some (1, 2)) ∧ dnToDm 6 3 1 (1, 4) = .ok none := by
  refine ⟨by decide, .inr (by norm_num), rfl, rfl, rfl⟩

end Escnn.Dihedral
