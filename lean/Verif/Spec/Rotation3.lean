import Verif.Model.Py
import Mathlib.Algebra.Quaternion
import Mathlib.Analysis.SpecialFunctions.Trigonometric.Basic
import Mathlib.LinearAlgebra.Matrix.Notation

/-!
# Rotations of the space as matrices

The meaning of a unit quaternion, and the subgroups documented in escnn/group/groups/so3group.py L372-389 and
escnn/group/groups/o3group.py L509-533, independently of the code.
-/

namespace Escnn

open Real Matrix Quaternion

noncomputable section

/-- 3×3 matrices. -/
abbrev Mat3 := Matrix (Fin 3) (Fin 3) ℝ

/-- The matrix of the rotation `v ↦ q v q⁻¹` of a unit quaternion. -/
def rotOf (q : ℍ[ℝ]) : Mat3 :=
  !![q.re ^ 2 + q.imI ^ 2 - q.imJ ^ 2 - q.imK ^ 2, 2 * (q.imI * q.imJ - q.re * q.imK), 2 * (q.imI * q.imK + q.re * q.imJ);
     2 * (q.imI * q.imJ + q.re * q.imK), q.re ^ 2 - q.imI ^ 2 + q.imJ ^ 2 - q.imK ^ 2, 2 * (q.imJ * q.imK - q.re * q.imI);
     2 * (q.imI * q.imK - q.re * q.imJ), 2 * (q.imJ * q.imK + q.re * q.imI), q.re ^ 2 - q.imI ^ 2 - q.imJ ^ 2 + q.imK ^ 2]

/-- The rotation by `θ` around the Z axis. -/
def rotZ (θ : ℝ) : Mat3 := !![cos θ, -sin θ, 0; sin θ, cos θ, 0; 0, 0, 1]

/-- The rotation by `π` around the X axis. -/
def flipX : Mat3 := !![1, 0, 0; 0, -1, 0; 0, 0, -1]

/-- The mirroring `y ↦ -y`. -/
def mirrorY : Mat3 := !![1, 0, 0; 0, -1, 0; 0, 0, 1]

/-- Valid values of elements of O(3). -/
def O3El (e : ℤ × ℍ[ℝ]) : Prop := (e.1 = 0 ∨ e.1 = 1) ∧ normSq e.2 = 1

/-- The matrix of an element of O(3): the inversion is `-1`. -/
def act3 (e : ℤ × ℍ[ℝ]) : Mat3 := (-1 : ℝ) ^ e.1.toNat • rotOf e.2

/-- `parent` and `child` realise the group `H` as the group of matrices `A⁻¹ ρ(h) A`, `A` the matrix of the adjoint
element: `act` is the matrix of an element of the large group, `eqH` the equality of elements of `H`. -/
structure RealisesAs {G H : Type} (ElG : G → Prop) (act : G → Mat3) (ElH : H → Prop) (eqH : H → H → Prop) (mulH : H → H → H)
    (A : Mat3) (ρ : H → Mat3) (parent : H → Except Err G) (child : G → Except Err (Option H)) : Prop where
  /-- the inclusion never raises and has the documented matrix -/
  parent_ok : ∀ h, ElH h → ∃ g, parent h = .ok g ∧ ElG g ∧ act g = Aᵀ * ρ h * A
  /-- the inclusion is a homomorphism -/
  parent_mul : ∀ h h' g g', ElH h → ElH h' → parent h = .ok g → parent h' = .ok g' →
    ∃ k, parent (mulH h h') = .ok k ∧ act k = act g * act g'
  /-- the inclusion is injective -/
  parent_inj : ∀ h h' g g', ElH h → ElH h' → parent h = .ok g → parent h' = .ok g' → act g = act g' → eqH h h'
  /-- the restriction inverts the inclusion, whichever value of the element is given -/
  child_parent : ∀ h g, ElH h → ElG g → act g = Aᵀ * ρ h * A → ∃ h', child g = .ok (some h') ∧ eqH h' h

/-- The restriction returns `None` exactly outside of the subgroup and does not raise. -/
def ExactChild {G H : Type} (ElG : G → Prop) (act : G → Mat3) (ElH : H → Prop) (A : Mat3) (ρ : H → Mat3)
    (child : G → Except Err (Option H)) : Prop :=
  ∀ g, ElG g → (¬ ∃ h, ElH h ∧ act g = Aᵀ * ρ h * A) → child g = .ok none

/-- The restriction to a finite subgroup never raises, and when it returns an element, the given element differs from it by at
most `1e-8` of a turn around the axis of the subgroup (rotations are compared with a tolerance, group/utils.py L55-70). -/
def TightChild {G H : Type} (ElG : G → Prop) (act : G → Mat3) (ElH : H → Prop) (A : Mat3) (ρ : H → Mat3)
    (child : G → Except Err (Option H)) : Prop :=
  ∀ g, ElG g → child g = .ok none ∨
    ∃ h t, child g = .ok (some h) ∧ ElH h ∧ |t| ≤ 1 / 10 ^ 8 ∧ act g = Aᵀ * (rotZ t * ρ h) * A

end

end Escnn
