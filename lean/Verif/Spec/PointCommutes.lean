import Verif.Model.PointConv

/-!
# Modules on point clouds which commute with the action of the group (specification)
-/

namespace Escnn

/-- The module works on the point cloud `x` and on the point cloud transformed by `g` (both its features and its coordinates), and transforming the output gives the output of the transformed input.  `f` is the
module as called on `x` and `f'` the module as called on the transformed point cloud (the two differ only if the displacements along the edges are given as an argument). -/
def PointCommutes {n : ℕ} {S G Id : Type} (gdim : S → ℕ) (base : G → NpMat ℝ) (f f' : GPoints n S (Rep G Id) → Except Err (GPoints n S (Rep G Id))) (g : G) (x : GPoints n S (Rep G Id)) : Prop :=
  ∃ y gx gy gy', f x = .ok y ∧ GPoints.transform gdim base x g = .ok gx ∧ f' gx = .ok gy ∧ GPoints.transform gdim base y g = .ok gy' ∧ gy ≈ gy'

end Escnn
