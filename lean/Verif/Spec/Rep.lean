import Verif.Model.NpMat
import Verif.Model.Py
import Mathlib.Data.Real.Basic

/-!
# What it means to be an orthogonal representation (specification)
-/

namespace Escnn

/-- `ρ` is an orthogonal `d × d` matrix representation of the group with membership test `El`, product `op` and
identity `one`. -/
structure OrthoRep {E : Type} (El : E → Prop) (op : E → E → E) (one : E) (d : ℕ) (ρ : E → NpMat ℝ) : Prop where
  rows : ∀ g, El g → (ρ g).rows = d
  cols : ∀ g, El g → (ρ g).cols = d
  map_one : ρ one ≈ NpMat.eye d
  map_mul : ∀ g h, El g → El h → ρ (op g h) ≈ NpMat.mul (ρ g) (ρ h)
  ortho : ∀ g, El g → NpMat.IsOrtho (ρ g)

/-- `ρ` is a `d × d` matrix representation (not necessarily orthogonal). -/
structure LinRep {E : Type} (El : E → Prop) (op : E → E → E) (one : E) (d : ℕ) (ρ : E → NpMat ℝ) : Prop where
  rows : ∀ g, El g → (ρ g).rows = d
  cols : ∀ g, El g → (ρ g).cols = d
  map_one : ρ one ≈ NpMat.eye d
  map_mul : ∀ g h, El g → El h → ρ (op g h) ≈ NpMat.mul (ρ g) (ρ h)

theorem OrthoRep.toLinRep {E : Type} {El : E → Prop} {op : E → E → E} {one : E} {d : ℕ} {ρ : E → NpMat ℝ}
    (h : OrthoRep El op one d ρ) : LinRep El op one d ρ := ⟨h.rows, h.cols, h.map_one, h.map_mul⟩

/-- The restriction of the `d`-dimensional representation `ρ` of `G` along the inclusion `parent : H → G` decomposes, after the
orthogonal change of basis `Q`, into the blocks `blocks h`:  `ρ(parent(h)) = Q @ blockdiag(blocks(h)) @ Q.T`. -/
structure IsRestriction {G H : Type} (d : ℕ) (ρ : G → NpMat ℝ) (ElH : H → Prop) (parent : H → Except Err G)
    (Q : NpMat ℝ) (blocks : H → List (NpMat ℝ)) : Prop where
  rows : Q.rows = d
  ortho : NpMat.IsOrtho Q
  block_rows : ∀ h, ElH h → (NpMat.blockDiag (blocks h)).rows = d
  block_cols : ∀ h, ElH h → (NpMat.blockDiag (blocks h)).cols = d
  restrict : ∀ h g, ElH h → parent h = .ok g →
    ρ g ≈ NpMat.mul (NpMat.mul Q (NpMat.blockDiag (blocks h))) (NpMat.transpose Q)

end Escnn
