import Verif.Props.C06_DihedralSubgroups

/-!
# C08 — composing subgroup ids composes the inclusions (C_N and D_N; O(2) is in `C07_O2Subgroups`)
-/

namespace Escnn

/-- **C08** Cyclic groups: taking the subgroup `M₂` of the subgroup `M₁` of `C_N` is taking the combined id. -/
theorem C08_cyclic (N M₁ M₂ : ℕ) (hN : 0 < N) (h₁ : Cyclic.subgroupIdOk N M₁ = true)
    (h₂ : Cyclic.subgroupIdOk M₁ M₂ = true) :
    ∃ M, Cyclic.combineSubgroups N M₁ M₂ = .ok M ∧ Cyclic.subgroupIdOk N M = true ∧
      M = M₂ ∧ ∀ h, Cyclic.isElement M₂ h = true →
        Cyclic.parentMap N M h = (Cyclic.parentMap M₁ M₂ h) >>= Cyclic.parentMap N M₁ := by
  obtain ⟨hM₁, hd₁⟩ : 0 < M₁ ∧ N % M₁ = 0 := by simpa [Cyclic.subgroupIdOk] using h₁
  obtain ⟨hM₂, hd₂⟩ : 0 < M₂ ∧ M₁ % M₂ = 0 := by simpa [Cyclic.subgroupIdOk] using h₂
  refine ⟨M₂, by simp [Cyclic.combineSubgroups, h₁], ?_, rfl, ?_⟩
  · have : M₂ ∣ N := (Nat.dvd_of_mod_eq_zero hd₂).trans (Nat.dvd_of_mod_eq_zero hd₁)
    simp [Cyclic.subgroupIdOk, hM₂, Nat.mod_eq_zero_of_dvd this]
  · intro h hh
    obtain ⟨e, he, _⟩ := (Cyclic.C05_cyclic_subgroup M₁ M₂ hM₁ h₂).parent_ok h hh
    obtain ⟨r₁, rfl⟩ := Nat.dvd_of_mod_eq_zero hd₁
    obtain ⟨r₂, rfl⟩ := Nat.dvd_of_mod_eq_zero hd₂
    rw [he]
    have he' := he
    simp only [Cyclic.parentMap, Cyclic.mul_div_ratio hM₂] at he'
    obtain ⟨_, rfl⟩ := Cyclic.element_eq_ok_iff.1 he'
    simp only [bind, Except.bind, Cyclic.parentMap]
    rw [Cyclic.mul_div_ratio hM₁, mul_assoc M₂, Cyclic.mul_div_ratio hM₂]
    push_cast
    rw [mul_assoc h]

namespace Dihedral

/-- **C08** Dihedral groups, rotations of the rotation subgroup. -/
theorem C08_dihedral_rot (N M₁ M₂ : ℕ) (hN : 0 < N) (h₁ : subgroupIdOk N (none, M₁) = true)
    (h₂ : Cyclic.subgroupIdOk M₁ M₂ = true) :
    ∃ id k, combineSubgroups N (none, M₁) (.inl M₂) = .ok id ∧ subgroup N id = .ok k ∧
      ∀ h : ℤ, k.isElement (.inl h) = Cyclic.isElement M₂ h ∧
        (Cyclic.isElement M₂ h = true →
          k.parentMap N (.inl h) = (Cyclic.parentMap M₁ M₂ h) >>= cnToDn N M₁) := by
  obtain ⟨hM₁, hd₁⟩ : 0 < M₁ ∧ N % M₁ = 0 := by simpa [subgroupIdOk, Nat.one_le_iff_ne_zero, Nat.pos_iff_ne_zero] using h₁
  obtain ⟨hM₂, hd₂⟩ : 0 < M₂ ∧ M₁ % M₂ = 0 := by simpa [Cyclic.subgroupIdOk] using h₂
  have hdvd : M₂ ∣ N := (Nat.dvd_of_mod_eq_zero hd₂).trans (Nat.dvd_of_mod_eq_zero hd₁)
  have hok : subgroupIdOk N (none, M₂) = true := by
    simp [subgroupIdOk, Nat.mod_eq_zero_of_dvd hdvd]; omega
  refine ⟨(none, M₂), .rot M₂, by simp [combineSubgroups, h₁], by simp [subgroup, hok], ?_⟩
  intro h
  refine ⟨rfl, fun hh => ?_⟩
  obtain ⟨r₁, rfl⟩ := Nat.dvd_of_mod_eq_zero hd₁
  obtain ⟨r₂, rfl⟩ := Nat.dvd_of_mod_eq_zero hd₂
  obtain ⟨e, he, _⟩ := (Cyclic.C05_cyclic_subgroup (M₂ * r₂) M₂ hM₁ h₂).parent_ok h hh
  rw [he]
  simp only [Cyclic.parentMap, Cyclic.mul_div_ratio hM₂] at he
  obtain ⟨_, rfl⟩ := Cyclic.element_eq_ok_iff.1 he
  simp only [bind, Except.bind, SubKind.parentMap, cnToDn]
  rw [Nat.mul_div_cancel_left _ hM₁, mul_assoc M₂, Nat.mul_div_cancel_left _ hM₂]
  push_cast
  rw [mul_assoc h]

/-- **C08** Dihedral groups, subgroups of a single-reflection subgroup (a `C_2`). -/
theorem C08_dihedral_flip (N : ℕ) (hN : 0 < N) (axis : ℤ) (M₂ : ℕ) (h₁ : subgroupIdOk N (some axis, 1) = true)
    (h₂ : Cyclic.subgroupIdOk 2 M₂ = true) :
    ∃ id k, combineSubgroups N (some axis, 1) (.inl M₂) = .ok id ∧ subgroup N id = .ok k ∧
      ∀ h : ℤ, k.isElement (.inl h) = Cyclic.isElement M₂ h ∧
        (Cyclic.isElement M₂ h = true →
          k.parentMap N (.inl h) = (Cyclic.parentMap 2 M₂ h) >>= flipToDn N axis) := by
  obtain ⟨hM₂, hd₂⟩ : 0 < M₂ ∧ 2 % M₂ = 0 := by simpa [Cyclic.subgroupIdOk] using h₂
  have hle : M₂ ≤ 2 := Nat.le_of_dvd (by norm_num) (Nat.dvd_of_mod_eq_zero hd₂)
  have : M₂ = 1 ∨ M₂ = 2 := by omega
  rcases this with rfl | rfl
  · refine ⟨(none, 1), .rot 1, by simp [combineSubgroups, h₁], by simp [subgroup, subgroupIdOk, Nat.mod_one], ?_⟩
    intro h
    refine ⟨rfl, fun hh => ?_⟩
    obtain ⟨h0, h1⟩ := Cyclic.isElement_iff.1 hh
    have : h = 0 := by push_cast at h1; omega
    subst this
    simp [SubKind.parentMap, cnToDn, Cyclic.parentMap, Cyclic.element, Cyclic.isElement, flipToDn, identity,
      element, isElement, bind, Except.bind, hN]
  · refine ⟨(some axis, 1), .flip axis, by simp [combineSubgroups, h₁], by simp [subgroup, h₁], ?_⟩
    intro h
    refine ⟨rfl, fun hh => ?_⟩
    obtain ⟨h0, h1⟩ := Cyclic.isElement_iff.1 hh
    have : h = 0 ∨ h = 1 := by push_cast at h1; omega
    rcases this with rfl | rfl <;>
      simp [SubKind.parentMap, Cyclic.parentMap, Cyclic.element, Cyclic.isElement, bind, Except.bind]

/-- **C08** Dihedral groups, subgroups of a dihedral subgroup: for ids within the documented axis range the combined
id is accepted, is again in the documented range, and its inclusion is the composition of the two inclusions. -/
theorem C08_dihedral_dih (N M₁ : ℕ) (hN : 0 < N) (axis₁ : ℤ) (id₂ : SubgroupId)
    (h₁ : subgroupIdOk N (some axis₁, M₁) = true) (hM₁ : M₁ ≠ 1) (hg₁ : goodId N (some axis₁, M₁))
    (h₂ : subgroupIdOk M₁ id₂ = true) (hg₂ : goodId M₁ id₂) :
    ∃ id k k₂, combineSubgroups N (some axis₁, M₁) (.inr id₂) = .ok id ∧ subgroup N id = .ok k ∧
      subgroup M₁ id₂ = .ok k₂ ∧ goodId N id ∧
      ∀ h : SubElem, k.isElement h = k₂.isElement h ∧
        (k₂.isElement h = true →
          k.parentMap N h = (k₂.parentMap M₁ h) >>= dmToDn N M₁ axis₁) := by
  obtain ⟨ax₂, M₂⟩ := id₂
  have hb₁ : (1 ≤ M₁ ∧ N % M₁ = 0) ∧ 0 ≤ axis₁ ∧ axis₁ < N := by
    simpa only [subgroupIdOk, Bool.and_eq_true, decide_eq_true_eq] using h₁
  have hb₂ : 1 ≤ M₂ ∧ M₁ % M₂ = 0 := by
    revert h₂; cases ax₂ <;> simp only [subgroupIdOk, Bool.and_eq_true, decide_eq_true_eq] <;> tauto
  obtain ⟨⟨hM₁p, hd₁⟩, ha0, _⟩ := hb₁
  obtain ⟨hM₂p, hd₂⟩ := hb₂
  have hgax : axis₁ < ((N / M₁ : ℕ) : ℤ) := hg₁.resolve_left hM₁
  obtain ⟨r₁, rfl⟩ := Nat.dvd_of_mod_eq_zero hd₁
  obtain ⟨r₂, rfl⟩ := Nat.dvd_of_mod_eq_zero hd₂
  have hM₂p' : 0 < M₂ := hM₂p
  have hM₁p' : 0 < M₂ * r₂ := hM₁p
  rw [Nat.mul_div_cancel_left _ hM₁p'] at hgax
  have hdvd : M₂ ∣ M₂ * r₂ * r₁ := ⟨r₂ * r₁, by ring⟩
  have hdiv : M₂ * r₂ * r₁ / M₂ = r₂ * r₁ := by rw [mul_assoc]; exact Nat.mul_div_cancel_left _ hM₂p'
  cases ax₂ with
  | none =>
    have hok : subgroupIdOk (M₂ * r₂ * r₁) (none, M₂) = true := by
      simp [subgroupIdOk, Nat.mod_eq_zero_of_dvd hdvd]; omega
    refine ⟨(none, M₂), .rot M₂, .rot M₂, ?_, by simp [subgroup, hok], by simp [subgroup, h₂], trivial, ?_⟩
    · simp only [combineSubgroups, h₁, if_true]; rw [if_neg hM₁]
    · rintro (h | h)
      · refine ⟨rfl, fun hh => ?_⟩
        obtain ⟨e, he, _⟩ := (rot_maps M₂ r₂ hM₂p' (Nat.pos_of_mul_pos_left hM₁p' |> fun _ => by
          rcases Nat.eq_zero_or_pos r₂ with h | h
          · simp [h] at hM₁p
          · exact h)).parent_ok h hh
        simp only [SubKind.parentMap]
        rw [he]
        simp only [cnToDn, Nat.mul_div_cancel_left _ hM₂p'] at he
        obtain ⟨_, rfl⟩ := element_eq_ok_iff.1 he
        simp only [bind, Except.bind, cnToDn, dmToDn]
        rw [Nat.mul_div_cancel_left _ hM₁p', hdiv]
        push_cast
        congr 2; ring
      · exact ⟨rfl, fun hh => by simp [SubKind.isElement] at hh⟩
  | some axis₂ =>
    have hax₂ : 0 ≤ axis₂ ∧ axis₂ < ((M₂ * r₂ : ℕ) : ℤ) := by
      simp only [subgroupIdOk, Bool.and_eq_true, decide_eq_true_eq] at h₂
      exact h₂.2
    obtain ⟨hax0, hax1⟩ := hax₂
    have hr₁0 : (0 : ℤ) ≤ r₁ := by positivity
    have hel : isElement (M₂ * r₂) (0, axis₂) = true := isElement_iff.2 ⟨.inl rfl, hax0, hax1⟩
    have hbound : axis₁ + axis₂ * r₁ < ((M₂ * r₂ * r₁ : ℕ) : ℤ) := by
      push_cast at hax1 ⊢
      have : axis₂ ≤ M₂ * r₂ - 1 := by omega
      nlinarith
    have hel' : isElement (M₂ * r₂ * r₁) (0, axis₂ * r₁) = true :=
      isElement_iff.2 ⟨.inl rfl, by simp only; positivity, by simp only; linarith⟩
    have hcomb : combineSubgroups (M₂ * r₂ * r₁) (some axis₁, M₂ * r₂) (.inr (some axis₂, M₂)) =
        .ok (some (axis₁ + axis₂ * r₁), M₂) := by
      simp only [combineSubgroups, h₁, if_true]
      rw [if_neg hM₁]
      simp only [element_ok hel, bind, Except.bind, dmToDn, Nat.mul_div_cancel_left _ hM₁p', zero_mul, add_zero,
        element_ok hel']
    have hok : subgroupIdOk (M₂ * r₂ * r₁) (some (axis₁ + axis₂ * r₁), M₂) = true := by
      simp only [subgroupIdOk, Bool.and_eq_true, decide_eq_true_eq]
      exact ⟨⟨hM₂p, Nat.mod_eq_zero_of_dvd hdvd⟩, by positivity, hbound⟩
    by_cases hM₂1 : M₂ = 1
    · refine ⟨_, .flip (axis₁ + axis₂ * r₁), .flip axis₂, hcomb, ?_, ?_, .inl hM₂1, ?_⟩
      · simp only [subgroup, hok, if_true]; rw [if_pos hM₂1]
      · simp only [subgroup, h₂, if_true]; rw [if_pos hM₂1]
      · rintro (h | h)
        · refine ⟨rfl, fun hh => ?_⟩
          simp only [SubKind.parentMap, flipToDn]
          have hel₂ : isElement (M₂ * r₂) (1, axis₂) = true := isElement_iff.2 ⟨.inr rfl, hax0, hax1⟩
          by_cases h0 : h = 0
          · have hid : isElement (M₂ * r₂ * r₁) (0, 0) = true := isElement_iff.2 ⟨.inl rfl, le_rfl, Int.natCast_pos.2 hN⟩
            simp [h0, identity, bind, Except.bind, dmToDn, element_ok hid]
          · simp only [h0, if_false, element_ok hel₂, bind, Except.bind, dmToDn,
              Nat.mul_div_cancel_left _ hM₁p']
            congr 2; ring
        · exact ⟨rfl, fun hh => by simp [SubKind.isElement] at hh⟩
    · have hgax₂ : axis₂ < ((M₂ * r₂ / M₂ : ℕ) : ℤ) := hg₂.resolve_left hM₂1
      rw [Nat.mul_div_cancel_left _ hM₂p'] at hgax₂
      refine ⟨_, .dih (axis₁ + axis₂ * r₁) M₂, .dih axis₂ M₂, hcomb, ?_, ?_, .inr ?_, ?_⟩
      · simp only [subgroup, hok, if_true]; rw [if_neg hM₂1]
      · simp only [subgroup, h₂, if_true]; rw [if_neg hM₂1]
      · rw [hdiv]; push_cast
        have : axis₂ ≤ r₂ - 1 := by omega
        nlinarith
      · rintro (h | h)
        · exact ⟨rfl, fun hh => by simp [SubKind.isElement] at hh⟩
        · refine ⟨rfl, fun hh => ?_⟩
          have hr₂ : 0 < r₂ := by
            rcases Nat.eq_zero_or_pos r₂ with h | h
            · simp [h] at hM₁p
            · exact h
          obtain ⟨e, he, _⟩ := (dih_maps M₂ r₂ hM₂p' hr₂ axis₂ hax0 hgax₂).parent_ok h hh
          simp only [SubKind.parentMap]
          rw [he]
          simp only [dmToDn, Nat.mul_div_cancel_left _ hM₂p'] at he
          obtain ⟨_, rfl⟩ := element_eq_ok_iff.1 he
          simp only [bind, Except.bind, dmToDn]
          rw [Nat.mul_div_cancel_left _ hM₁p', hdiv]
          push_cast
          congr 2; ring

/-- A concrete instance: the subgroup `(1, 2)` of the subgroup `(1, 4)` of `D_8` has id `(3, 2)` in `D_8`. -/
example : combineSubgroups 8 (some 1, 4) (.inr (some 1, 2)) = .ok (some 3, 2) ∧
    subgroupIdOk 8 (some 1, 4) = true ∧ goodId 8 (some 1, 4) ∧ subgroupIdOk 4 (some 1, 2) = true ∧
    goodId 4 (some 1, 2) :=
  ⟨rfl, by decide, .inr (by norm_num), by decide, .inr (by norm_num)⟩

end Dihedral
end Escnn
