import Verif.Spec.Rotation3
import Verif.Model.NpMat

/-!
# The Wigner D matrices

Contract of `lie_learn.representations.SO3.wigner_d.wigner_D_matrix(l, alpha, beta, gamma, field='real')`, which so3_utils.py
L195-201 calls with the ZYZ angles of a rotation: the matrices by which the rotations act on the real spherical harmonics of
degree `l`, in the order `m = -l, …, l` (`sin |m|φ` for `m < 0`, `cos mφ` for `m > 0`).
-/

namespace Escnn

open Real Quaternion

noncomputable section

/-- The action of the rotation by `θ` around Z on the harmonics of degree `l`. -/
def zRot (l : ℕ) (θ : ℝ) : NpMat ℝ :=
  ⟨2 * l + 1, 2 * l + 1, fun i k => if i = k then cos (((l : ℝ) - i) * θ) else if i + k = 2 * l then sin (((l : ℝ) - i) * θ) else 0⟩

/-- The action of the rotation by `π` around Y on the harmonics of degree `l`. -/
def yTurn (l : ℕ) : NpMat ℝ :=
  ⟨2 * l + 1, 2 * l + 1, fun i k => if i = k then (if l ≤ i then (-1) ^ l else -(-1) ^ l) else 0⟩

/-- The rotation by `π` around Y. -/
def flipY : Mat3 := !![-1, 0, 0; 0, 1, 0; 0, 0, -1]

/-- The axis of the entry `m + 1` of the harmonics of degree one: `y, z, x`. -/
def harmonicAxis (m : ℕ) : Fin 3 := if m = 0 then 1 else if m = 1 then 2 else 0

/-- `D` are the Wigner D matrices of degree `l`. -/
structure Wigner (l : ℕ) (D : ℍ[ℝ] → NpMat ℝ) : Prop where
  rows : ∀ q, normSq q = 1 → (D q).rows = 2 * l + 1
  cols : ∀ q, normSq q = 1 → (D q).cols = 2 * l + 1
  ext : ∀ p q, normSq p = 1 → normSq q = 1 → rotOf p = rotOf q → D p ≈ D q
  mul : ∀ p q, normSq p = 1 → normSq q = 1 → D (p * q) ≈ NpMat.mul (D p) (D q)
  ortho : ∀ q, normSq q = 1 → NpMat.IsOrtho (D q)
  z : ∀ q θ, normSq q = 1 → rotOf q = rotZ θ → D q ≈ zRot l θ
  y : ∀ q, normSq q = 1 → rotOf q = flipY → D q ≈ yTurn l
  one : l = 1 → ∀ q, normSq q = 1 → D q ≈ ⟨3, 3, fun i k => rotOf q (harmonicAxis i) (harmonicAxis k)⟩

/-- `D` is an orthogonal representation of the elements `El`, which depends only on the linear maps `act` of the elements. -/
structure Rep3 {G : Type} (El : G → Prop) (act : G → Mat3) (d : ℕ) (D : G → NpMat ℝ) : Prop where
  rows : ∀ g, El g → (D g).rows = d
  cols : ∀ g, El g → (D g).cols = d
  ortho : ∀ g, El g → NpMat.IsOrtho (D g)
  one : ∀ g, El g → act g = 1 → D g ≈ NpMat.eye d
  hom : ∀ g g' k, El g → El g' → El k → act k = act g * act g' → D k ≈ NpMat.mul (D g) (D g')

end

end Escnn
