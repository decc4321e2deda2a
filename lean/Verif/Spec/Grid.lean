import Verif.Model.Grid

/-!
# The plane (or space) in which an array lives (specification)
-/

namespace Escnn

/-- A matrix which permutes the coordinate axes and changes some of their directions: for `n = 2`, the rotations by multiples of 90 degrees and the reflections which preserve the grid. -/
def IsSignedPerm (n : ℕ) (M : NpMat ℝ) : Prop :=
  M.rows = n ∧ M.cols = n ∧ ∃ (σ : Equiv.Perm (Fin n)) (ε : Fin n → ℝ), (∀ i, ε i = 1 ∨ ε i = -1) ∧ ∀ i j : Fin n, M.get i j = if j = σ i then ε i else 0

namespace NdArr

/-- Coordinate `a` (0 is x, 1 is y, …) of the pixel `k` of an array of the sizes `shape`, relative to the centre of the array: x runs along the last axis, and the other coordinates run against the axes
before it (the first row of an image is its top). -/
noncomputable def coord {n : ℕ} (shape k : Fin n → ℕ) (a : Fin n) : ℝ := (if a.val = 0 then 1 else -1) * ((k a.rev : ℝ) - ((shape a.rev : ℝ) - 1) / 2)

end NdArr

end Escnn
