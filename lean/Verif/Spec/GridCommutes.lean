import Verif.Model.Conv

/-!
# Modules which commute with the action on feature maps (specification)
-/

namespace Escnn

/-- The module `f` works on `x` and on the feature map transformed by `g` (both its fibres and its pixels), and transforming the output gives the output of the transformed input. -/
def CommutesWith {n : ℕ} {B S G Id : Type} (base : G → NpMat ℝ) (interp : NdArr n (B × ℕ) → NpMat ℝ → Except Err (NdArr n (B × ℕ)))
    (f : GMap n B S (Rep G Id) → Except Err (GMap n B S (Rep G Id))) (g : G) (x : GMap n B S (Rep G Id)) : Prop :=
  ∃ y gx gy gy', f x = .ok y ∧ GMap.transform base interp x g = .ok gx ∧ f gx = .ok gy ∧ GMap.transform base interp y g = .ok gy' ∧ gy.type = gy'.type ∧ gy.map ≈ gy'.map

end Escnn
