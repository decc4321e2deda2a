import Verif.Model.Py

/-!
# Specification of a subgroup returned by `G.subgroup(id)`

`parent : H → G` and `child : G → Option H` as documented in escnn/group/group.py L316-343: the inclusion of the
subgroup and its partial inverse, `None` on elements outside the subgroup.
-/

namespace Escnn

/-- `parent`/`child` realise `H` as a subgroup of `G`, for groups given by a membership test and a composition. -/
structure SubgroupMaps {G H : Type} (validG : G → Bool) (mulG : G → G → G) (validH : H → Bool) (mulH : H → H → H)
    (parent : H → Except Err G) (child : G → Except Err (Option H)) : Prop where
  /-- the inclusion never raises and lands in the group -/
  parent_ok : ∀ h, validH h = true → ∃ g, parent h = .ok g ∧ validG g = true
  /-- the inclusion is a homomorphism -/
  parent_mul : ∀ h h' g g', validH h = true → validH h' = true → parent h = .ok g → parent h' = .ok g' →
    parent (mulH h h') = .ok (mulG g g')
  /-- the inclusion is injective -/
  parent_inj : ∀ h h', validH h = true → validH h' = true → parent h = parent h' → h = h'
  /-- the restriction inverts the inclusion -/
  child_parent : ∀ h g, validH h = true → parent h = .ok g → child g = .ok (some h)
  /-- the restriction is `None` outside of the image (and does not raise) -/
  child_none : ∀ g, validG g = true → (∀ h, validH h = true → parent h ≠ .ok g) → child g = .ok none

/-- The same without the requirement on elements outside of the image (used for the continuous groups, whose restriction
tests membership up to a tolerance). -/
structure SubgroupEmbedding {G H : Type} (ElG : G → Prop) (mulG : G → G → G) (ElH : H → Prop) (mulH : H → H → H)
    (parent : H → Except Err G) (child : G → Except Err (Option H)) : Prop where
  /-- the inclusion never raises and lands in the group -/
  parent_ok : ∀ h, ElH h → ∃ g, parent h = .ok g ∧ ElG g
  /-- the inclusion is a homomorphism -/
  parent_mul : ∀ h h' g g', ElH h → ElH h' → parent h = .ok g → parent h' = .ok g' →
    parent (mulH h h') = .ok (mulG g g')
  /-- the inclusion is injective -/
  parent_inj : ∀ h h', ElH h → ElH h' → parent h = parent h' → h = h'
  /-- the restriction inverts the inclusion -/
  child_parent : ∀ h g, ElH h → parent h = .ok g → child g = .ok (some h)

/-- Consequence: on every group element the restriction returns normally, and `None` exactly off the image. -/
theorem SubgroupMaps.child_eq_none_iff {G H : Type} {validG : G → Bool} {mulG : G → G → G} {validH : H → Bool}
    {mulH : H → H → H} {parent : H → Except Err G} {child : G → Except Err (Option H)}
    (S : SubgroupMaps validG mulG validH mulH parent child) (g : G) (hg : validG g = true) :
    child g = .ok none ↔ ¬ ∃ h, validH h = true ∧ parent h = .ok g := by
  constructor
  · rintro h ⟨x, hx, hp⟩
    rw [S.child_parent x g hx hp] at h
    simp at h
  · intro h
    exact S.child_none g hg (fun x hx hp => h ⟨x, hx, hp⟩)

end Escnn
