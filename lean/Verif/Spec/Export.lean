import Verif.Model.Conv
import Verif.Model.GTensor

/-!
# Exported modules (specification)

An exported module works on plain tensors; the equivariant module works on tensors with a type.
-/

namespace Escnn

/-- Both results are related, or both are exceptions. -/
def SameResult {X Y : Type} (R : X → Y → Prop) (r : Except Err X) (r' : Except Err Y) : Prop := (∃ y w, r = .ok y ∧ r' = .ok w ∧ R y w) ∨ ((∃ e, r = .error e) ∧ ∃ e, r' = .error e)

/-- On related inputs, two functions both return related outputs, or both raise an exception. -/
def SameFunction {X X' Y Y' : Type} (before : X → Y → Prop) (after : X' → Y' → Prop) (f : X → Except Err X') (h : Y → Except Err Y') : Prop := ∀ x z, before x z → SameResult after (f x) (h z)

variable {n : ℕ} {B P S G Id C : Type}

/-- A geometric tensor of type `t` and the same tensor (same shape, same entries) without its type. -/
def HoldsMap (t : FType S (Rep G Id)) (x : GMap n B S (Rep G Id)) (z : FMap n B) : Prop := x.type = t ∧ x.map.chans = t.size Rep.size ∧ x.map ≈ z

/-- The same for the tensors whose positions are kept as one index. -/
def HoldsTensor (t : FType S (Rep G Id)) (x : GTensor B P S (Rep G Id) C) (z : FTensor B P) : Prop := x.type = t ∧ x.tensor.chans = t.size Rep.size ∧ x.tensor ≈ z

end Escnn
