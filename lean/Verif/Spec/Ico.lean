import Verif.Model.Ico
import Verif.Spec.Octa

/-!
# The irreps of the icosahedral group, independently of the code

The irreps are the trivial one, the Wigner matrices of frequency one and two, the rotation matrices in which `√5` is replaced by `-√5`
(in another basis) and the permutations of five frames of two-fold axes on the vectors orthogonal to `(1, 1, 1, 1, 1)`.
-/

namespace Escnn

open Real NpMat
open scoped Matrix

namespace Ico

/-- `√5` is replaced by `-√5`. -/
def Gold.conj (x : Gold) : Gold := ⟨x.a + x.b, -x.b⟩

/-- Five two-fold axes, one of each of the five frames of orthogonal two-fold axes: the images of the X axis under the powers of the first
generator. -/
def axes5 : List (Gold × Gold × Gold) :=
  [(1, 0, 0), (⟨0, 1⟩, ⟨-1, 0⟩, ⟨-1, 1⟩), (⟨1, 0⟩, ⟨1, -1⟩, ⟨0, 1⟩), (⟨1, 0⟩, ⟨-1, 1⟩, ⟨0, 1⟩), (⟨0, 1⟩, ⟨1, 0⟩, ⟨-1, 1⟩)]

/-- The image of a vector. -/
def turn (e : Elem) (v : Gold × Gold × Gold) : Gold × Gold × Gold :=
  (dot e.m₀₀ e.m₀₁ e.m₀₂ v.1 v.2.1 v.2.2, dot e.m₁₀ e.m₁₁ e.m₁₂ v.1 v.2.1 v.2.2, dot e.m₂₀ e.m₂₁ e.m₂₂ v.1 v.2.1 v.2.2)

/-- Two axes of the same frame are parallel or orthogonal. -/
def sameFrame (u v : Gold × Gold × Gold) : Bool :=
  let s := dot u.1 u.2.1 u.2.2 v.1 v.2.1 v.2.2
  s.b == 0 && (s.a == 0 || s.a == 2 || s.a == -2)

/-- The permutation of the five frames. -/
def img (e : Elem) : List ℕ := axes5.map fun v => axes5.findIdx fun u => sameFrame u (turn e v)

/-- The number of fixed frames. -/
def fixed (e : Elem) : ℤ := ((List.range 5).filter fun k => (img e).getD k 0 == k).length

/-- The characters of the irreps. -/
def chi (l : ℤ) (e : Elem) : Gold :=
  let t := e.m₀₀ + e.m₁₁ + e.m₂₂
  if l = 1 then t
  else if l = 2 then Gold.half (Gold.mul2 t t) - t - 1
  else if l = 3 then t.conj
  else if l = 4 then Gold.half (Gold.mul2 t t.conj) - (Gold.half (Gold.mul2 t t) - t - 1)
  else 1

/-- The dimensions of the irreps. -/
def dim (l : ℤ) : ℕ := if l = 1 ∨ l = 3 then 3 else if l = 2 then 5 else if l = 4 then 4 else 1

noncomputable section

/-- The rotation matrix in which `√5` is replaced by `-√5`. -/
def smat (e : Elem) : Mat3 :=
  !![e.m₀₀.conj.val, e.m₀₁.conj.val, e.m₀₂.conj.val; e.m₁₀.conj.val, e.m₁₁.conj.val, e.m₁₂.conj.val; e.m₂₀.conj.val, e.m₂₁.conj.val, e.m₂₂.conj.val]

/-- The permutation matrix of the frames. -/
def pmat (e : Elem) : Matrix (Fin 5) (Fin 5) ℝ := fun j k => if (img e).getD k 0 = j then 1 else 0

/-- `√(φ + 2)`. -/
def nu : ℝ := √(phi + 2)

/-- An orthonormal basis of space. -/
def basisA : Mat3 := !![-(phi * (nu * (3 - phi) / 5)), 0, nu * (3 - phi) / 5; 0, 1, 0; -(nu * (3 - phi) / 5), 0, -(phi * (nu * (3 - phi) / 5))]

/-- An orthonormal basis of the vectors orthogonal to `(1, 1, 1, 1, 1)`: the cosines and sines of the multiples of 72° and 144°. -/
def basisC : Matrix (Fin 5) (Fin 4) ℝ :=
  √(2 / 5) • !![1, 0, -1, 0;
    (phi - 1) / 2, nu / 2, phi / 2, -(nu * (phi - 1) / 2);
    -phi / 2, nu * (phi - 1) / 2, -(phi - 1) / 2, nu / 2;
    -phi / 2, -(nu * (phi - 1) / 2), -(phi - 1) / 2, -(nu / 2);
    (phi - 1) / 2, -(nu / 2), phi / 2, nu * (phi - 1) / 2]

/-- The irreps. -/
def psi (W : ℕ → UQuat → NpMat ℝ) (l : ℤ) (e : Elem) : NpMat ℝ :=
  if l = 1 then Octa.toNp 3 ((mat e).submatrix Octa.ax Octa.ax)
  else if l = 2 then W 2 (toQ e)
  else if l = 3 then Octa.toNp 3 (basisAᵀ * smat e * basisA)
  else if l = 4 then Octa.toNp 4 (basisCᵀ * pmat e * basisC)
  else Octa.toNp 1 1

end

end Ico

end Escnn
