import Verif.Model.Rep
import Verif.Model.CG
import Verif.Model.Endo
import Verif.Model.DPIrrep

/-!
# Model of `Group._tensor_product` (`Representation.tensor`)

The assertions that both representations belong to the group are typing.  `T.ok` holds for the irreps of the two arguments, since the constructor of `Representation` checks them.
-/

namespace Escnn

open NpMat

noncomputable section

variable {G Id : Type}

namespace TensorRep

/-- `cg.reshape(-1, irr_j.size * S)` for an array `cg` of shape `(irr1.size, irr2.size, S, irr_j.size)` with `rows = irr1.size * irr2.size`, group.py L797. -/
def cgMat (rows d2 dj S : ℕ) (cg : CGArray) : NpMat ℝ := ⟨rows, dj * S, fun r c => cg.get (r / d2) (r % d2) (c / dj) (c % dj)⟩

/-- The loop over the irreps of `irr1 x irr2` which fills the columns, group.py L791-798; returns the array and `i`.  An array with another multiplicity does not fit into the slice and raises `ValueError`. -/
def cols (size : Id → ℕ) (cg : Id → CGArray) (rows d2 p : ℕ) : ℕ → NpMat ℝ → List (Id × ℕ) → Except Err (NpMat ℝ × ℕ)
  | i, C, [] => .ok (C, i)
  | i, C, (j, S) :: L =>
    if (cg j).mult ≠ S then .error .value
    else cols size cg rows d2 p (i + size j * S) (setBlock C p (p + i) (cgMat rows d2 (size j) S (cg j))) L

/-- `for i in range(irr1.size): permutation[...] = np.eye(irr2.size)`, group.py L802-806. -/
def permBlocks (d1 n2 d2 q : ℕ) (P : NpMat ℝ) : NpMat ℝ := (List.range d1).foldl (fun P i => setBlock P (q + i * n2) (q * d1 + i * d2) (eye d2)) P

/-- The variables of the loops, group.py L770-812. -/
structure State (Id : Type) where
  cob : NpMat ℝ
  irreps : List Id
  perm : NpMat ℝ
  q : ℕ
  p : ℕ

/-- The body of the loop over `rho2.irreps`, group.py L780-809. -/
def inner (T : IrrepTable G Id) (tens : Id → Id → List (Id × ℕ)) (cg : Id → Id → Id → CGArray) (n2 : ℕ) (i1 : Id) (s : State Id) (i2 : Id) : Except Err (State Id) :=
  let L := tens i1 i2
  let size := (L.map fun e => T.size e.1 * e.2).sum
  if ¬ (L.all fun e => T.ok e.1) then .error .value
  else if size ≠ T.size i1 * T.size i2 then .error .assertion
  else do
    let r ← cols T.size (cg i1 i2) size (T.size i2) s.p 0 s.cob L
    if r.2 ≠ size then .error .assertion
    else .ok ⟨r.1, s.irreps ++ L.flatMap fun e => List.replicate e.2 e.1, permBlocks (T.size i1) n2 (T.size i2) s.q s.perm, s.q + T.size i2, s.p + size⟩

/-- The loop over `rho2.irreps`. -/
def innerLoop (T : IrrepTable G Id) (tens : Id → Id → List (Id × ℕ)) (cg : Id → Id → Id → CGArray) (n2 : ℕ) (i1 : Id) : State Id → List Id → Except Err (State Id)
  | s, [] => .ok s
  | s, i2 :: L => do
    let s ← inner T tens cg n2 i1 s i2
    innerLoop T tens cg n2 i1 s L

/-- `M[a:b, a:b]` -/
def slice (M : NpMat ℝ) (a b : ℕ) : NpMat ℝ := ⟨b - a, b - a, fun i j => M.get (a + i) (a + j)⟩

open Classical in
/-- The body of the loop over `rho1.irreps`, group.py L774-817 (`p - irr1.size*rho2.size` is never negative). -/
def outer (T : IrrepTable G Id) (tens : Id → Id → List (Id × ℕ)) (cg : Id → Id → Id → CGArray) (r2 : Rep G Id) (s : State Id) (i1 : Id) : Except Err (State Id) := do
  let w := T.size i1 * r2.size
  let s ← innerLoop T tens cg r2.size i1 { s with perm := zeros w w, q := 0 } r2.irreps
  if ¬ IsOrtho s.perm then .error .assertion
  else .ok { s with cob := setBlock s.cob (s.p - w) (s.p - w) (mul s.perm (slice s.cob (s.p - w) s.p)) }

/-- The loop over `rho1.irreps`. -/
def outerLoop (T : IrrepTable G Id) (tens : Id → Id → List (Id × ℕ)) (cg : Id → Id → Id → CGArray) (r2 : Rep G Id) : State Id → List Id → Except Err (State Id)
  | s, [] => .ok s
  | s, i1 :: L => do
    let s ← outer T tens cg r2 s i1
    outerLoop T tens cg r2 s L

/-- `_tensor_nonlinearities`, group.py L934-948. -/
def nonlin (r1 r2 : Rep G Id) : Finset String :=
  {"gated", "norm"} ∪ (if "pointwise" ∈ r1.nonlin ∧ "pointwise" ∈ r2.nonlin then {"pointwise"} else ∅) ∪ (if "gate" ∈ r1.nonlin ∧ "gate" ∈ r2.nonlin then {"gate"} else ∅)

/-- The irrep as a `Representation` (only its irreps and its trivial change of basis are used by `change_basis`). -/
def ofIrrep (T : IrrepTable G Id) (i : Id) : Rep G Id := ⟨"", [i], eye (T.size i), eye (T.size i), T.mat i, ∅⟩

/-- The result, group.py L831-844. -/
def finish (T : IrrepTable G Id) (taken : List String) (name : String) (irreps : List Id) (cob : NpMat ℝ) (nl : Finset String) : Except Err (Rep G Id) :=
  if irreps.length > 1 then mkRep T taken name irreps cob nl none
  else match irreps with
    | [] => .error .index
    | i :: _ => changeBasis T taken (ofIrrep T i) cob name none

/-- `Group._tensor_product`, group.py L762-844. -/
def tensor (T : IrrepTable G Id) (tens : Id → Id → List (Id × ℕ)) (cg : Id → Id → Id → CGArray) (taken : List String) (r1 r2 : Rep G Id) : Except Err (Rep G Id) := do
  let D := r1.size * r2.size
  let s ← outerLoop T tens cg r2 ⟨zeros D D, [], zeros 0 0, 0, 0⟩ r1.irreps
  let cob := mul (kron r1.cob r2.cob) s.cob
  if s.p ≠ (s.irreps.map T.size).sum then .error .assertion
  else if s.p ≠ r1.size * r2.size then .error .assertion
  else if s.p ≠ cob.rows then .error .assertion
  else if s.p ≠ cob.cols then .error .assertion
  else finish T taken (r1.name ++ " X " ++ r2.name) s.irreps cob (nonlin r1 r2)

end TensorRep

end

end Escnn
