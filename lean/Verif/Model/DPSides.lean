import Verif.Model.DirectProduct

/-!
# Subgroups of one factor of a direct product, directproduct.py L485-492 L753-820
-/

namespace Escnn

/-- `restrict_left(G, H, restrict1)`, directproduct.py L757-768; `is₂` is the comparison with the identity of the second factor. -/
def dpRestrictLeft {A B C : Type} (is₂ : B → Bool) (r₁ : A → Except Err (Option C)) (e : A × B) : Except Err (Option C) :=
  if is₂ e.2 then r₁ e.1 else .ok none

/-- `inclusion_left(G, H, inclusion1)`, directproduct.py L771-784. -/
def dpIncludeLeft {A B C : Type} (mkG : A × B → Except Err (A × B)) (one₂ : B) (p₁ : C → Except Err A) (h : C) : Except Err (A × B) := do
  let a ← p₁ h
  mkG (a, one₂)

/-- `restrict_right(G, H, restrict2)`, directproduct.py L790-801. -/
def dpRestrictRight {A B D : Type} (is₁ : A → Bool) (r₂ : B → Except Err (Option D)) (e : A × B) : Except Err (Option D) :=
  if is₁ e.1 then r₂ e.2 else .ok none

/-- `inclusion_right(G, H, inclusion2)`, directproduct.py L804-817. -/
def dpIncludeRight {A B D : Type} (mkG : A × B → Except Err (A × B)) (one₁ : A) (p₂ : D → Except Err B) (h : D) : Except Err (A × B) := do
  let b ← p₂ h
  mkG (one₁, b)

/-- `DirectProductGroup._subgroup((M₁, M₂))` of `C_{N₁} × C_{N₂}` if one of the orders is 1, directproduct.py L482-489: the order of the subgroup and the two maps (`none` if no order is 1). -/
def Cyclic.dpSide (N₁ N₂ M₁ M₂ : ℕ) : Option (ℕ × (ℤ → Except Err (ℤ × ℤ)) × (ℤ × ℤ → Except Err (Option ℤ))) :=
  if M₁ = 1 then some (M₂, dpIncludeRight (dpMk (Cyclic.pyGroup N₁) (Cyclic.pyGroup N₂)) Cyclic.identity (Cyclic.parentMap N₂ M₂),
    dpRestrictRight (fun a => decide (a = Cyclic.identity)) (Cyclic.childMap N₂ M₂))
  else if M₂ = 1 then some (M₁, dpIncludeLeft (dpMk (Cyclic.pyGroup N₁) (Cyclic.pyGroup N₂)) Cyclic.identity (Cyclic.parentMap N₁ M₁),
    dpRestrictLeft (fun b => decide (b = Cyclic.identity)) (Cyclic.childMap N₁ M₁))
  else none

end Escnn
