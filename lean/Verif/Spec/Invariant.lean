import Verif.Spec.Equivariant

/-!
# Invariance of a module under the action on the fibres (specification)
-/

namespace Escnn

/-- A module `f` from the type `inT` to the type `outT` is invariant: for each input of type `inT` and each element `g`, `f` returns an output of type `outT`, and the output for the transformed
input is the same. -/
def FibreInvariant {B P S G Id C : Type} (El : G → Prop) (inT outT : FType S (Rep G Id)) (f : GTensor B P S (Rep G Id) C → Except Err (GTensor B P S (Rep G Id) C)) : Prop :=
  ∀ x : GTensor B P S (Rep G Id) C, x.type = inT → x.tensor.chans = inT.size Rep.size → ∀ g, El g →
    ∃ y gx gy, f x = .ok y ∧ y.type = outT ∧ y.tensor.chans = outT.size Rep.size ∧ x.transformFibers g = .ok gx ∧ f gx = .ok gy ∧
      gy.type = y.type ∧ gy.coords = y.coords ∧ gy.tensor ≈ y.tensor

end Escnn
