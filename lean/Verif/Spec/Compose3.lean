import Verif.Spec.Rotation3

/-!
# Composition of inclusions
-/

namespace Escnn

/-- On every element of the subgroup both maps return a value, and the values act as the same matrix. -/
def SameInclusion {G H : Type} (act : G → Mat3) (El : H → Prop) (P Q : H → Except Err G) : Prop :=
  ∀ h, El h → ∃ g g', P h = .ok g ∧ Q h = .ok g' ∧ act g = act g'

end Escnn
