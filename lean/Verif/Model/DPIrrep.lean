import Verif.Model.Endo
import Verif.Model.DirectProduct

/-!
# Model of the irreps of direct products, directproduct.py L520-576 and L824-981
-/

namespace Escnn

open NpMat

/-- `A[r:r+m, c:c+n]` (in bounds). -/
def NpMat.slice (A : NpMat ℝ) (r m c n : ℕ) : NpMat ℝ := ⟨m, n, fun i j => A.get (r + i) (c + j)⟩

/-- `-A` -/
def NpMat.neg (A : NpMat ℝ) : NpMat ℝ := ⟨A.rows, A.cols, fun i j => -A.get i j⟩

/-- `A + B` (same shapes) -/
def NpMat.add (A B : NpMat ℝ) : NpMat ℝ := ⟨A.rows, A.cols, fun i j => A.get i j + B.get i j⟩

/-- `A - B` (same shapes) -/
def NpMat.sub (A B : NpMat ℝ) : NpMat ℝ := ⟨A.rows, A.cols, fun i j => A.get i j - B.get i j⟩

/-- The four assignments of halves to the new array `R = np.empty((size, size))`, L851-858 and L950-957; `junk` is the content of the new array. -/
def fillHalves (junk : ℕ → ℕ → ℝ) (size : ℕ) (real imag : NpMat ℝ) : NpMat ℝ :=
  setBlock (setBlock (setBlock (setBlock ⟨size, size, junk⟩ 0 0 real) (size / 2) (size / 2) real) (size / 2) 0 imag) 0 (size / 2) imag.neg

/-- `tensor_product_left`, directproduct.py L842-860, on the matrices `psi_g1`, `psi_g2` of sizes `s₁`, `s₂`. -/
def tensorLeft (junk : ℕ → ℕ → ℝ) (s₁ s₂ : ℕ) (M₁ M₂ : NpMat ℝ) : NpMat ℝ :=
  let re := M₂.slice 0 (s₂ / 2) 0 (s₂ / 2)
  let im := M₂.slice (s₂ / 2) (s₂ / 2) 0 (s₂ / 2)
  fillHalves junk (s₁ * s₂) (kron M₁ re) (kron M₁ im)

/-- `tensor_product` in `tensor_product_irrep_complex`, directproduct.py L930-958.  The assignment `imag_2 *= -1` (L947) changes the array returned by `psi2(g2)`; the irreps of complex type of the library return a new array at
each call (utils.py L6-15), so that this is not visible. -/
def tensorComplex (junk : ℕ → ℕ → ℝ) (s₁ s₂ : ℕ) (i : ℤ) (M₁ M₂ : NpMat ℝ) : NpMat ℝ :=
  let re₁ := M₁.slice 0 (s₁ / 2) 0 (s₁ / 2)
  let im₁ := M₁.slice (s₁ / 2) (s₁ / 2) 0 (s₁ / 2)
  let re₂ := M₂.slice 0 (s₂ / 2) 0 (s₂ / 2)
  let im₂ := M₂.slice (s₂ / 2) (s₂ / 2) 0 (s₂ / 2)
  let im₂ := if i = 1 then im₂.neg else im₂
  fillHalves junk (s₁ * s₂ / 2) ((kron re₁ re₂).sub (kron im₁ im₂)) ((kron re₁ im₂).add (kron im₁ re₂))

/-- `character` in `tensor_product_irrep_complex`, directproduct.py L960-979. -/
def complexCharacter (s₁ s₂ : ℕ) (i : ℤ) (M₁ M₂ : NpMat ℝ) : ℝ :=
  let im₂ := M₂.slice (s₂ / 2) (s₂ / 2) 0 (s₂ / 2)
  let im₂ := if i = 1 then im₂.neg else im₂
  2 * (trace (M₁.slice 0 (s₁ / 2) 0 (s₁ / 2)) * trace (M₂.slice 0 (s₂ / 2) 0 (s₂ / 2)) - trace (M₁.slice (s₁ / 2) (s₁ / 2) 0 (s₁ / 2)) * trace im₂)

variable {G₁ I₁ G₂ I₂ : Type}

/-- The type of the irrep `(id1, id2, i)`, directproduct.py L550-565. -/
def dpType (t₁ t₂ : IrrType) : IrrType := if t₁ = .R then t₂ else if t₂ = .R then t₁ else if t₁ = .C ∨ t₂ = .C then .C else .H

/-- The irreps of the product, directproduct.py L520-576: the ids for which `irrep` does not raise (L541-544), the sizes (L553, L559, L565) and the matrices (L554, L560, L566; `tensor_product_irrep` chooses between its two
functions in L872-877).  Elements of the product are pairs (`split_element`, L209-216, see C04). -/
def dpTable (junk : ℕ → ℕ → ℝ) (T₁ : IrrepTable G₁ I₁) (typ₁ : I₁ → IrrType) (T₂ : IrrepTable G₂ I₂) (typ₂ : I₂ → IrrType) : IrrepTable (G₁ × G₂) (I₁ × I₂ × ℤ) where
  ok id := T₁.ok id.1 && T₂.ok id.2.1 && (if typ₁ id.1 = .C ∧ typ₂ id.2.1 = .C then decide (id.2.2 = 0 ∨ id.2.2 = 1) else decide (id.2.2 = 0))
  size id := if typ₁ id.1 = .R ∨ typ₂ id.2.1 = .R then T₁.size id.1 * T₂.size id.2.1 else T₁.size id.1 * T₂.size id.2.1 / 2
  mat id g :=
    if typ₁ id.1 = .R ∨ typ₂ id.2.1 = .R then
      if typ₁ id.1 = .R ∧ typ₂ id.2.1 ≠ .R then tensorLeft junk (T₁.size id.1) (T₂.size id.2.1) (T₁.mat id.1 g.1) (T₂.mat id.2.1 g.2)
      else kron (T₁.mat id.1 g.1) (T₂.mat id.2.1 g.2)
    else tensorComplex junk (T₁.size id.1) (T₂.size id.2.1) id.2.2 (T₁.mat id.1 g.1) (T₂.mat id.2.1 g.2)

/-- The character passed to the irrep, directproduct.py L867-870 and L960-979; the characters of the factors are traces (see C09–C11). -/
def dpCharacter (T₁ : IrrepTable G₁ I₁) (typ₁ : I₁ → IrrType) (T₂ : IrrepTable G₂ I₂) (typ₂ : I₂ → IrrType) (id : I₁ × I₂ × ℤ) (g : G₁ × G₂) : ℝ :=
  if typ₁ id.1 = .R ∨ typ₂ id.2.1 = .R then trace (T₁.mat id.1 g.1) * trace (T₂.mat id.2.1 g.2)
  else complexCharacter (T₁.size id.1) (T₂.size id.2.1) id.2.2 (T₁.mat id.1 g.1) (T₂.mat id.2.1 g.2)

end Escnn
