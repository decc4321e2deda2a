import Verif.Model.Kernels

/-!
# What steerable filters and steerable kernels must satisfy (specification)
-/

namespace Escnn

/-- Steerability of a filter basis: the filters are ordered by the entries `(j, m)` of `js`, each with `m` copies of `size j` filters, and on
the moved point every copy is the matrix of the irrep `j` times the copy on the original point. -/
def FBasis.Steerable {J P A G : Type} (F : FBasis J P A) (size : J → ℕ) (mat : J → G → NpMat ℝ) (El : G → Prop) (act : G → P → P) : Prop :=
  ∀ g, El g → ∀ x k j m, F.js[k]? = some (j, m) → ∀ i < m, ∀ c < size j,
    let o := ((F.js.take k).map fun e => size e.1 * e.2).sum
    F.sample (act g x) (o + (i * size j + c)) = ∑ c' ∈ Finset.range (size j), (mat j g).get c c' * F.sample x (o + (i * size j + c'))

/-- The matrices `κ x` form a steerable kernel: `κ (g x) ρin(g) = ρout(g) κ(x)` for every point and group element, which is
`κ (g x) = ρout(g) κ(x) ρin(g)⁻¹`; `κ` may fail to exist. -/
def SteerableKernel {P G : Type} (El : G → Prop) (act : G → P → P) (ρin ρout : G → NpMat ℝ) (κ : P → Except Err (NpMat ℝ)) : Prop :=
  ∀ x, ∃ k, κ x = .ok k ∧ ∀ g, El g → k.rows = (ρout g).rows ∧ k.cols = (ρin g).rows ∧ ∃ k', κ (act g x) = .ok k' ∧
    NpMat.mul k' (ρin g) ≈ NpMat.mul (ρout g) k

end Escnn
