import Verif.Model.Tables

/-!
# Trivial irreps and invariant vectors
-/

namespace Escnn

variable {G Id : Type}

/-- `triv` is the id of the trivial irrep: the number 1 for each element. -/
structure IrrepTable.IsTrivial (T : IrrepTable G Id) (El : G → Prop) (triv : Id) : Prop where
  ok : T.ok triv = true
  size : T.size triv = 1
  mat : ∀ g, El g → (T.mat triv g).get 0 0 = 1

/-- Only the zero vector is fixed by an irrep other than `triv`. -/
def IrrepTable.NoInvariants (T : IrrepTable G Id) (El : G → Prop) (triv : Id) : Prop :=
  ∀ i, T.ok i = true → i ≠ triv → ∀ v : ℕ → ℝ, (∀ g, El g → ∀ a < T.size i, ∑ b ∈ Finset.range (T.size i), (T.mat i g).get a b * v b = v a) → ∀ a < T.size i, v a = 0

end Escnn
