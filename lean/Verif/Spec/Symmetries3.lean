import Verif.Spec.Rotation3
import Mathlib.Data.Matrix.Mul

/-!
# Sets of symmetries of the space
-/

namespace Escnn

open Real Matrix

noncomputable section

/-- The angles of `n` rotations, of all rotations for `n = -1`. -/
def turns (n : ℤ) : Set ℝ := {t | n = -1 ∨ ∃ k : ℤ, t = k * (2 * π / n)}

/-- The unit vector at the angle `a` in the plane XY. -/
def dirXY (a : ℝ) : Fin 3 → ℝ := ![cos a, sin a, 0]

/-- The half turn around the line through `v`, for a unit vector `v`: `v` is fixed, the orthogonal plane is negated. -/
def halfTurn (v : Fin 3 → ℝ) : Mat3 := 2 • vecMulVec v v - 1

/-- The reflection at the plane orthogonal to `v`, for a unit vector `v`. -/
def reflectAt (v : Fin 3 → ℝ) : Mat3 := 1 - 2 • vecMulVec v v

/-- The set of matrices `A⁻¹ M A` with `M` in `S`. -/
def conjSet (A : Mat3) (S : Set Mat3) : Set Mat3 := {X | ∃ M ∈ S, X = Aᵀ * M * A}

end

end Escnn
