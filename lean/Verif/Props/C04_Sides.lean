import Verif.Model.DPSides
import Verif.Props.C04_DirectProduct

/-!
# C04: subgroups of one factor of a direct product
-/

namespace Escnn

variable {A B C D : Type} {vA : A → Bool} {vB : B → Bool} {vC : C → Bool} {vD : D → Bool} {mA : A → A → A} {mB : B → B → B} {mC : C → C → C} {mD : D → D → D} {mkG : A × B → Except Err (A × B)}

/-- **C04** A subgroup `H × {e}`: the maps of the factor give maps of the product. -/
theorem C04_left {p₁ : C → Except Err A} {c₁ : A → Except Err (Option C)} {one : B} {is₂ : B → Bool} (S : SubgroupMaps vA mA vC mC p₁ c₁)
    (hG : ∀ a b, vA a = true → vB b = true → mkG (a, b) = .ok (a, b)) (hmA : ∀ a b, vA a = true → vA b = true → vA (mA a b) = true)
    (h1 : vB one = true) (h11 : mB one one = one) (his : ∀ b, vB b = true → (is₂ b = true ↔ b = one)) :
    SubgroupMaps (fun x : A × B => vA x.1 && vB x.2) (fun x y => (mA x.1 y.1, mB x.2 y.2)) vC mC (dpIncludeLeft mkG one p₁) (dpRestrictLeft is₂ c₁) := by
  have hp : ∀ h, vC h = true → ∃ a, p₁ h = .ok a ∧ vA a = true ∧ dpIncludeLeft mkG one p₁ h = .ok (a, one) := fun h hv => by
    obtain ⟨a, ha, va⟩ := S.parent_ok h hv
    exact ⟨a, ha, va, by rw [dpIncludeLeft, ha]; exact hG a one va h1⟩
  refine ⟨fun h hv => ?_, fun h h' g g' hv hv' e e' => ?_, fun h h' hv hv' e => ?_, fun h g hv e => ?_, fun g hv hno => ?_⟩
  · obtain ⟨a, -, va, e⟩ := hp h hv
    exact ⟨_, e, by simp [va, h1]⟩
  · obtain ⟨a, ha, va, e1⟩ := hp h hv
    obtain ⟨a', ha', va', e1'⟩ := hp h' hv'
    obtain rfl := Except.ok.inj (e1.symm.trans e)
    obtain rfl := Except.ok.inj (e1'.symm.trans e')
    rw [dpIncludeLeft, S.parent_mul _ _ _ _ hv hv' ha ha', h11]
    exact hG _ _ (hmA _ _ va va') h1
  · obtain ⟨a, ha, -, e1⟩ := hp h hv
    obtain ⟨a', ha', -, e1'⟩ := hp h' hv'
    rw [e1, e1'] at e
    obtain rfl : a = a' := by simpa using e
    exact S.parent_inj _ _ hv hv' (ha.trans ha'.symm)
  · obtain ⟨a, ha, -, e1⟩ := hp h hv
    obtain rfl := Except.ok.inj (e1.symm.trans e)
    rw [dpRestrictLeft, if_pos ((his _ h1).2 rfl)]
    exact S.child_parent _ _ hv ha
  · obtain ⟨a, b⟩ := g
    simp only [Bool.and_eq_true] at hv
    rw [dpRestrictLeft]
    by_cases hb : is₂ b = true
    · obtain rfl := (his b hv.2).1 hb
      rw [if_pos hb]
      refine S.child_none _ hv.1 fun h vh hh => hno h vh ?_
      rw [dpIncludeLeft, hh]
      exact hG _ _ hv.1 hv.2
    · rw [if_neg hb]

/-- **C04** A subgroup `{e} × H`. -/
theorem C04_right {p₂ : D → Except Err B} {c₂ : B → Except Err (Option D)} {one : A} {is₁ : A → Bool} (S : SubgroupMaps vB mB vD mD p₂ c₂)
    (hG : ∀ a b, vA a = true → vB b = true → mkG (a, b) = .ok (a, b)) (hmB : ∀ a b, vB a = true → vB b = true → vB (mB a b) = true)
    (h1 : vA one = true) (h11 : mA one one = one) (his : ∀ a, vA a = true → (is₁ a = true ↔ a = one)) :
    SubgroupMaps (fun x : A × B => vA x.1 && vB x.2) (fun x y => (mA x.1 y.1, mB x.2 y.2)) vD mD (dpIncludeRight mkG one p₂) (dpRestrictRight is₁ c₂) := by
  have hp : ∀ h, vD h = true → ∃ b, p₂ h = .ok b ∧ vB b = true ∧ dpIncludeRight mkG one p₂ h = .ok (one, b) := fun h hv => by
    obtain ⟨b, hb, vb⟩ := S.parent_ok h hv
    exact ⟨b, hb, vb, by rw [dpIncludeRight, hb]; exact hG one b h1 vb⟩
  refine ⟨fun h hv => ?_, fun h h' g g' hv hv' e e' => ?_, fun h h' hv hv' e => ?_, fun h g hv e => ?_, fun g hv hno => ?_⟩
  · obtain ⟨b, -, vb, e⟩ := hp h hv
    exact ⟨_, e, by simp [vb, h1]⟩
  · obtain ⟨b, hb, vb, e1⟩ := hp h hv
    obtain ⟨b', hb', vb', e1'⟩ := hp h' hv'
    obtain rfl := Except.ok.inj (e1.symm.trans e)
    obtain rfl := Except.ok.inj (e1'.symm.trans e')
    rw [dpIncludeRight, S.parent_mul _ _ _ _ hv hv' hb hb', h11]
    exact hG _ _ h1 (hmB _ _ vb vb')
  · obtain ⟨b, hb, -, e1⟩ := hp h hv
    obtain ⟨b', hb', -, e1'⟩ := hp h' hv'
    rw [e1, e1'] at e
    obtain rfl : b = b' := by simpa using e
    exact S.parent_inj _ _ hv hv' (hb.trans hb'.symm)
  · obtain ⟨b, hb, -, e1⟩ := hp h hv
    obtain rfl := Except.ok.inj (e1.symm.trans e)
    rw [dpRestrictRight, if_pos ((his _ h1).2 rfl)]
    exact S.child_parent _ _ hv hb
  · obtain ⟨a, b⟩ := g
    simp only [Bool.and_eq_true] at hv
    rw [dpRestrictRight]
    by_cases ha : is₁ a = true
    · obtain rfl := (his a hv.1).1 ha
      rw [if_pos ha]
      refine S.child_none _ hv.2 fun h vh hh => hno h vh ?_
      rw [dpIncludeRight, hh]
      exact hG _ _ hv.1 hv.2
    · rw [if_neg ha]

namespace Cyclic

/-- **C04** For all `N₁, N₂`, the subgroups `(1, M)` and `(M, 1)` of `C_{N₁} × C_{N₂}` are `C_M`, with correct maps; they are not concerned by the defect of `C04_subgroup_violated`. -/
theorem C04_sides (N₁ N₂ M : ℕ) (h1 : 0 < N₁) (h2 : 0 < N₂) :
    (subgroupIdOk N₂ M = true → ∃ p c, dpSide N₁ N₂ 1 M = some (M, p, c) ∧
      SubgroupMaps (fun x : ℤ × ℤ => isElement N₁ x.1 && isElement N₂ x.2) (fun x y => (combine N₁ x.1 y.1, combine N₂ x.2 y.2)) (isElement M) (combine M) p c) ∧
    (subgroupIdOk N₁ M = true → ∃ p c, dpSide N₁ N₂ M 1 = some (M, p, c) ∧
      SubgroupMaps (fun x : ℤ × ℤ => isElement N₁ x.1 && isElement N₂ x.2) (fun x y => (combine N₁ x.1 y.1, combine N₂ x.2 y.2)) (isElement M) (combine M) p c) := by
  have e0 : ∀ N : ℕ, 0 < N → isElement N identity = true := fun N hN => by simp [isElement, identity, hN]
  have c0 : ∀ N : ℕ, combine N identity identity = identity := fun N => by simp [combine, identity]
  have R : ∀ K : ℕ, subgroupIdOk N₂ K = true → SubgroupMaps (fun x : ℤ × ℤ => isElement N₁ x.1 && isElement N₂ x.2) (fun x y => (combine N₁ x.1 y.1, combine N₂ x.2 y.2)) (isElement K) (combine K)
      (dpIncludeRight (dpMk (pyGroup N₁) (pyGroup N₂)) identity (parentMap N₂ K)) (dpRestrictRight (fun a => decide (a = identity)) (childMap N₂ K)) := fun K hid =>
    C04_right (C05_cyclic_subgroup N₂ K h2 hid) (fun a b => dpMk_ok N₁ N₂ h1 h2 a b) (C01_cyclic_group_laws N₂ h2).2.1 (e0 _ h1) (c0 _) fun a _ => decide_eq_true_iff
  refine ⟨fun hid => ⟨_, _, if_pos rfl, R M hid⟩, fun hid => ?_⟩
  by_cases hM : M = 1
  · subst hM
    exact ⟨_, _, if_pos rfl, R 1 (by simp [subgroupIdOk]; try omega)⟩
  · refine ⟨_, _, by rw [dpSide, if_neg hM, if_pos rfl], ?_⟩
    exact C04_left (C05_cyclic_subgroup N₁ M h1 hid) (fun a b => dpMk_ok N₁ N₂ h1 h2 a b) (C01_cyclic_group_laws N₁ h1).2.1 (e0 _ h2) (c0 _) fun a _ => decide_eq_true_iff

example : ∃ p c, dpSide 4 6 1 3 = some (3, p, c) ∧ p 1 = .ok (0, 2) ∧ c (0, 4) = .ok (some 2) ∧ c (1, 4) = .ok none ∧ c (0, 1) = .ok none := by
  refine ⟨_, _, if_pos rfl, ?_, rfl, rfl, rfl⟩
  exact dpMk_ok 4 6 (by decide) (by decide) 0 2 (by decide) (by decide)

end Cyclic

end Escnn
