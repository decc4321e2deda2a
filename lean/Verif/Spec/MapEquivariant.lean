import Verif.Spec.Equivariant

/-!
# Equivariance under the action on the fibres, for modules which change the positions (specification)
-/

namespace Escnn

variable {n : ℕ} {B S G Id : Type}

/-- `GeometricTensor.transform_fibers` for a feature map on a grid, geometric_tensor.py L413-445. -/
noncomputable def GMap.transformFibers (x : GMap n B S (Rep G Id)) (g : G) : Except Err (GMap n B S (Rep G Id)) := do
  let z ← x.type.transformFibers (⟨x.map.chans, x.map.get⟩ : FTensor B (Fin n → ℕ)) g
  GMap.mk' Rep.size ⟨z.chans, x.map.shape, z.get⟩ x.type

/-- A module `f` from the type `inT` to the type `outT` commutes with the action of the group on the fibres: whenever `f` accepts a feature map, it accepts the transformed feature maps of the same shape, and its
output for them is the transformed output. -/
def MapFibreEquivariant (El : G → Prop) (inT outT : FType S (Rep G Id)) (f : GMap n B S (Rep G Id) → Except Err (GMap n B S (Rep G Id))) : Prop :=
  ∀ x y : GMap n B S (Rep G Id), x.type = inT → x.map.chans = inT.size Rep.size → f x = .ok y → y.type = outT ∧ y.map.chans = outT.size Rep.size ∧
    ∀ g, El g → ∃ gx gy gy', x.transformFibers g = .ok gx ∧ f gx = .ok gy ∧ y.transformFibers g = .ok gy' ∧ gy.type = gy'.type ∧ gy.map ≈ gy'.map

end Escnn
