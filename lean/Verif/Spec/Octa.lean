import Verif.Model.Octa

/-!
# The irreps of the octahedral group, independently of the code

The elements permute the three axes (up to signs); an irrep is the trivial one, the rotation matrix, the sign of the permutation of the
axes, their product, or the action of the permutation of the axes on the plane orthogonal to `(1, 1, 1)`.
-/

namespace Escnn

open Real NpMat
open scoped Matrix

namespace Octa

/-- The permutation matrix of the axes. -/
def perm (e : Elem) : Elem := ⟨|e.m₀₀|, |e.m₀₁|, |e.m₀₂|, |e.m₁₀|, |e.m₁₁|, |e.m₁₂|, |e.m₂₀|, |e.m₂₁|, |e.m₂₂|⟩

/-- The determinant. -/
def det (e : Elem) : ℤ :=
  e.m₀₀ * (e.m₁₁ * e.m₂₂ - e.m₁₂ * e.m₂₁) - e.m₀₁ * (e.m₁₀ * e.m₂₂ - e.m₁₂ * e.m₂₀) + e.m₀₂ * (e.m₁₀ * e.m₂₁ - e.m₁₁ * e.m₂₀)

/-- The sign of the permutation of the axes. -/
def sgn (e : Elem) : ℤ := det (perm e)

noncomputable section

/-- A matrix as an array. -/
def toNp (n : ℕ) [NeZero n] (M : Matrix (Fin n) (Fin n) ℝ) : NpMat ℝ := ⟨n, n, fun i j => M (Fin.ofNat n i) (Fin.ofNat n j)⟩

/-- The axes of the entries of the harmonics of degree one: `y, z, x`. -/
def ax : Fin 3 → Fin 3 := ![1, 2, 0]

/-- An orthonormal basis of the plane orthogonal to `(1, 1, 1)`. -/
def plane : Matrix (Fin 3) (Fin 2) ℝ := !![√3 / 3, √3 / 3; -√3 / 6 + 1 / 2, -√3 / 6 - 1 / 2; -√3 / 6 - 1 / 2, -√3 / 6 + 1 / 2]

/-- The dimensions of the irreps. -/
def dim (l : ℤ) : ℕ := if l = 1 ∨ l = -1 then 3 else if l = 2 then 2 else 1

/-- The irreps. -/
def psi (l : ℤ) (e : Elem) : NpMat ℝ :=
  if l = 1 then toNp 3 ((mat e).submatrix ax ax)
  else if l = -1 then toNp 3 ((sgn e : ℝ) • (mat e).submatrix ax ax)
  else if l = 2 then toNp 2 (planeᵀ * mat (perm e) * plane)
  else if l = 3 then toNp 1 ((sgn e : ℝ) • 1)
  else toNp 1 1

/-- The characters of the irreps. -/
def chi (l : ℤ) (e : Elem) : ℤ :=
  if l = 1 then e.m₀₀ + e.m₁₁ + e.m₂₂
  else if l = -1 then sgn e * (e.m₀₀ + e.m₁₁ + e.m₂₂)
  else if l = 2 then |e.m₀₀| + |e.m₁₁| + |e.m₂₂| - 1
  else if l = 3 then sgn e
  else 1

end

end Octa

end Escnn
