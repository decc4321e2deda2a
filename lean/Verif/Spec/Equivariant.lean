import Verif.Model.Arith
import Verif.Model.Conv
import Verif.Spec.Grid

/-!
# Equivariance of a module under the action on the fibres (specification)
-/

namespace Escnn

/-- A module `f` from the type `inT` to the type `outT` commutes with the action of the group on the fibres: for each input of type `inT` and each element `g`, `f` returns
an output of type `outT`, and the output for the transformed input is the transformed output. -/
def FibreEquivariant {B P P' S G Id C : Type} (El : G → Prop) (inT outT : FType S (Rep G Id)) (f : GTensor B P S (Rep G Id) C → Except Err (GTensor B P' S (Rep G Id) C)) : Prop :=
  ∀ x : GTensor B P S (Rep G Id) C, x.type = inT → x.tensor.chans = inT.size Rep.size → ∀ g, El g →
    ∃ y gx gy gy', f x = .ok y ∧ y.type = outT ∧ y.tensor.chans = outT.size Rep.size ∧ x.transformFibers g = .ok gx ∧ f gx = .ok gy ∧ y.transformFibers g = .ok gy' ∧
      gy.type = gy'.type ∧ gy.coords = gy'.coords ∧ gy.tensor ≈ gy'.tensor

/-- A module `f` with input type `inT` computes the values at each position from the values of the input at that position only: it commutes with every map `σ` of the positions. -/
def PositionLocal {B P S R C : Type} (sz : R → ℕ) (inT : FType S R) (f : GTensor B P S R C → Except Err (GTensor B P S R C)) : Prop :=
  ∀ (σ : P → P) (x y : GTensor B P S R C), x.type = inT → x.tensor.chans = inT.size sz → f x = .ok y →
    ∃ y', f { x with tensor := ⟨x.tensor.chans, fun b c p => x.tensor.get b c (σ p)⟩ } = .ok y' ∧ y'.type = y.type ∧ y'.coords = y.coords ∧
      y'.tensor ≈ ⟨y.tensor.chans, fun b c p => y.tensor.get b c (σ p)⟩

/-- A module applied to feature maps on a grid. -/
def onGrid {n : ℕ} {B S R : Type} (f : GTensor B (Fin n → ℕ) S R Unit → Except Err (GTensor B (Fin n → ℕ) S R Unit)) (x : GMap n B S R) : Except Err (GMap n B S R) := do
  let y ← f ⟨⟨x.map.chans, x.map.get⟩, x.type, ()⟩
  .ok ⟨⟨y.tensor.chans, x.map.shape, y.tensor.get⟩, y.type⟩

/-- A module `f` from the type `inT` to the type `outT` commutes with `GeometricTensor.transform` for the elements whose action on the base space preserves the grid. -/
def GridEquivariant {n : ℕ} {B S G Id : Type} (El : G → Prop) (base : G → NpMat ℝ) (inT outT : FType S (Rep G Id)) (f : GMap n B S (Rep G Id) → Except Err (GMap n B S (Rep G Id))) : Prop :=
  ∀ interp : NdArr n (B × ℕ) → NpMat ℝ → Except Err (NdArr n (B × ℕ)), ∀ x : GMap n B S (Rep G Id), x.type = inT → x.map.chans = inT.size Rep.size → ∀ g, El g → IsSignedPerm n (base g) →
    ∃ y gx gy gy', f x = .ok y ∧ y.type = outT ∧ y.map.chans = outT.size Rep.size ∧ x.transform base interp g = .ok gx ∧ f gx = .ok gy ∧ y.transform base interp g = .ok gy' ∧
      gy.type = gy'.type ∧ gy.map ≈ gy'.map

end Escnn
