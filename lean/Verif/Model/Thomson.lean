import Mathlib.Analysis.SpecialFunctions.Pow.NNReal
import Mathlib.Data.ENNReal.Inv
import Mathlib.Data.Matrix.Mul
import Mathlib.Logic.Equiv.Fin.Basic
import Verif.Model.Py

/-!
# The optimised grids, escnn/group/groups/_numerical_thomson.py L1-535

The points are the rows of an array of exact reals, the potential is an extended nonnegative real (`1. / 0.` is `inf`).
The steps of the optimiser (`optim.step()`), the comparison `torch.isclose` and the initial array are arguments.
-/

namespace Escnn

namespace Thomson

noncomputable section

open scoped ENNReal

abbrev Pts (N d : ℕ) := Fin N → Fin d → ℝ

variable {N d : ℕ}

/-- `torch.norm` of a row. -/
def norm (x : Fin d → ℝ) : ℝ := √(∑ k, x k ^ 2)

/-- `_normalize`, _numerical_thomson.py L9-10 (a row of zeros becomes NaN in the code and zero here). -/
def normalize (X : Pts N d) : Pts N d := fun i k => X i k / norm (X i)

/-- `_distance_sphere(X, Y, 'euclidean')`, _numerical_thomson.py L13-44, one entry. -/
def distSphere (x y : Fin d → ℝ) : ℝ := norm fun k => x k - y k

/-- `_distance_so3(X, Y, 'euclidean')`, _numerical_thomson.py L131-141, one entry. -/
def distSO3 (x y : Fin d → ℝ) : ℝ := min (distSphere x y) (distSphere x fun k => -y k)

/-- `_potential_sphere` and `_potential_so3`, _numerical_thomson.py L47-56 L144-153: the sum over the pairs above the diagonal. -/
def potential (dist : (Fin d → ℝ) → (Fin d → ℝ) → ℝ) (X : Pts N d) : ℝ≥0∞ :=
  ∑ i, ∑ j, if i < j then (ENNReal.ofReal (dist (X i) (X j)))⁻¹ else 0

/-- `X`, `last_U`, `best_U` and the values which `best_X` had when it was assigned. -/
structure St (N d : ℕ) where
  x : Pts N d
  last : ℝ≥0∞
  best : ℝ≥0∞
  saved : Option (Pts N d)

open Classical in
/-- The loop, _numerical_thomson.py L94-116 L191-213 L276-298 L380-402, with the number of remaining iterations. The assertions of `_distance_sphere` (L18-20) fail if a row is zero. -/
def loop (U : Pts N d → ℝ≥0∞) (close : ℝ≥0∞ → ℝ≥0∞ → Bool) (step : ℕ → Pts N d → Pts N d) : ℕ → ℕ → St N d → Except Err (St N d)
  | 0, _, s => .ok s
  | m + 1, i, s =>
    let x := normalize s.x
    if ∃ k, s.x k = 0 then .error .assertion
    else if close (U x) s.last then .ok { s with x := x }
    else loop U close step m (i + 1) ⟨step i x, U x, if U x < s.best then U x else s.best, if U x < s.best then some x else s.saved⟩

/-- The common part of the four functions, _numerical_thomson.py L59-128 L156-226 L232-310 L313-411; `b` is the initial `last_U`. On the CPU `X.detach().cpu()` (L113 L210 L295 L399) shares the memory of `X`, so that `best_X` follows `X`; on the GPU it is a copy. `_normalize(None)` raises `TypeError`. -/
def thomson (U : Pts N d → ℝ≥0∞) (b : ℝ≥0∞) (close : ℝ≥0∞ → ℝ≥0∞ → Bool) (step : String → ℕ → Pts N d → Pts N d) (cuda : Bool) (optimizer : String) (X : Pts N d) : Except Err (Pts N d) :=
  if optimizer ≠ "Adam" ∧ optimizer ≠ "SGD" then .error .value
  else
    (loop U close (step optimizer) 5000 0 ⟨X, b, b, none⟩).bind fun s =>
      match s.saved with
      | none => .error .type
      | some y => .ok (normalize (if cuda then y else s.x))

/-- `_thomson_sphere`, _numerical_thomson.py L59-128. -/
def sphere (close : ℝ≥0∞ → ℝ≥0∞ → Bool) (step : String → ℕ → Pts N 3 → Pts N 3) (cuda : Bool) (optimizer : String) (X : Pts N 3) : Except Err (Pts N 3) :=
  thomson (potential distSphere) ((N : ℝ≥0∞) ^ 2) close step cuda optimizer X

/-- `_thomson_so3`, _numerical_thomson.py L156-226. -/
def so3 (close : ℝ≥0∞ → ℝ≥0∞ → Bool) (step : String → ℕ → Pts N 4 → Pts N 4) (cuda : Bool) (optimizer : String) (X : Pts N 4) : Except Err (Pts N 4) :=
  thomson (potential distSO3) ((N : ℝ≥0∞) ^ 2) close step cuda optimizer X

/-- `_cubify`, `einsum('gij,sj->gsi', cube, X).reshape(-1, 3)`, _numerical_thomson.py L253-254 and, with the matrices of the quaternions, L357-358. -/
def cubify (cube : Fin 24 → Matrix (Fin d) (Fin d) ℝ) (X : Pts N d) : Pts (24 * N) d :=
  fun r => (cube (finProdFinEquiv.symm r).1).mulVec (X (finProdFinEquiv.symm r).2)

/-- `einsum('bij,gb', quaternion_basis, cube)`, _numerical_thomson.py L335-358. -/
def quatMat (q : Fin 4 → ℝ) : Matrix (Fin 4) (Fin 4) ℝ :=
  q 0 • !![0, 0, 0, 1; 0, 0, -1, 0; 0, 1, 0, 0; -1, 0, 0, 0] + q 1 • !![0, 0, 1, 0; 0, 0, 0, 1; -1, 0, 0, 0; 0, -1, 0, 0] +
    q 2 • !![0, -1, 0, 0; 1, 0, 0, 0; 0, 0, 0, 1; 0, 0, -1, 0] + q 3 • 1

/-- `_thomson_cube_sphere`, _numerical_thomson.py L232-310, with the matrices of `Rotation.create_group('O')`. -/
def cubeSphere (cube : Fin 24 → Matrix (Fin 3) (Fin 3) ℝ) (close : ℝ≥0∞ → ℝ≥0∞ → Bool) (step : String → ℕ → Pts N 3 → Pts N 3) (cuda : Bool) (optimizer : String) (X : Pts N 3) : Except Err (Pts (24 * N) 3) :=
  (thomson (fun Z => potential distSphere (cubify cube Z)) (((24 * N : ℕ) : ℝ≥0∞) ^ 2) close step cuda optimizer X).map (cubify cube)

/-- `_thomson_cube_so3`, _numerical_thomson.py L313-411, with the quaternions of `Rotation.create_group('O')`. -/
def cubeSO3 (cube : Fin 24 → Fin 4 → ℝ) (close : ℝ≥0∞ → ℝ≥0∞ → Bool) (step : String → ℕ → Pts N 4 → Pts N 4) (cuda : Bool) (optimizer : String) (X : Pts N 4) : Except Err (Pts (24 * N) 4) :=
  (thomson (fun Z => potential distSO3 (cubify (fun g => quatMat (cube g)) Z)) (((24 * N : ℕ) : ℝ≥0∞) ^ 2) close step cuda optimizer X).map (cubify fun g => quatMat (cube g))

/-- The loop over the attempts, with `best_U` and `best_X`. -/
def attempts (U : Pts N d → ℝ≥0∞) : List (Except Err (Pts N d)) → ℝ≥0∞ → Option (Pts N d) → Except Err (Option (Pts N d))
  | [], _, y => .ok y
  | .error e :: _, _, _ => .error e
  | .ok x :: xs, b, y => if U x < b then attempts U xs (U x) (some x) else attempts U xs b y

/-- `thomson_sphere`, `thomson_so3`, `thomson_cube_sphere` and `thomson_cube_so3`, _numerical_thomson.py L432-531, from the results of the attempts; `N` is the number of points of the result. `None.numpy()` raises `AttributeError`. -/
def best (U : Pts N d → ℝ≥0∞) (xs : List (Except Err (Pts N d))) : Except Err (Pts N d) :=
  (attempts U xs ((N : ℝ≥0∞) ^ 2) none).bind fun
    | none => .error .attribute
    | some y => .ok y

end

end Thomson

end Escnn
