import Verif.Model.Endo
import Verif.Spec.Rep

/-!
# The type of a real irrep (specification)
-/

namespace Escnn

open NpMat

/-- The `d`-dimensional representation `ρ` has the type `t`: the matrices which commute with it are exactly the linear combinations of the arrays of `endomorphism_basis`. -/
structure HasType {E : Type} (El : E → Prop) (ρ : E → NpMat ℝ) (t : IrrType) (d : ℕ) : Prop where
  commute : ∀ B ∈ endoBasis t d, ∀ g, El g → mul (ρ g) B ≈ mul B (ρ g)
  full : ∀ M : NpMat ℝ, M.rows = d → M.cols = d → (∀ g, El g → mul M (ρ g) ≈ mul (ρ g) M) →
    ∃ c : ℕ → ℝ, ∀ i j, i < d → j < d → M.get i j = ∑ k ∈ Finset.range t.sumsq, c k * ((endoBasis t d).getD k (zeros 0 0)).get i j

/-- The orthogonal representation `ρ` is irreducible: the only orthogonal projections (symmetric idempotent matrices) which commute with it are `0` and `1`. -/
def IrreducibleRep {E : Type} (El : E → Prop) (ρ : E → NpMat ℝ) (d : ℕ) : Prop :=
  ∀ P : NpMat ℝ, P.rows = d → P.cols = d → P ≈ transpose P → mul P P ≈ P → (∀ g, El g → mul P (ρ g) ≈ mul (ρ g) P) → P ≈ zeros d d ∨ P ≈ eye d

/-- There is no intertwiner other than `0` from `ρ` (of dimension `d`) to `σ` (of dimension `d'`). -/
def Inequivalent {E : Type} (El : E → Prop) (ρ σ : E → NpMat ℝ) (d d' : ℕ) : Prop :=
  ∀ M : NpMat ℝ, M.rows = d' → M.cols = d → (∀ g, El g → mul M (ρ g) ≈ mul (σ g) M) → M ≈ zeros d' d

end Escnn
