import Verif.Model.Expansion
import Mathlib.Analysis.SpecialFunctions.Sqrt

/-!
# Model of `generalized_he_init`, nn/init.py L16-84
-/

namespace Escnn.He

variable {J : Type} [DecidableEq J]

/-- The entries of the dictionary of a weight which are read in init.py L34-35 and L43-44; irreps are identified by their ids. -/
structure WInfo (J : Type) where
  inPos : ℕ
  outPos : ℕ
  inIrrep : J
  outIrrep : J

/-- The entries read from an item of `BlocksBasisExpansion.get_basis_info`; `irr` reads the ids of the irreps in the dictionary (steerable_basis.py L535-536). -/
def WInfo.ofBInfo {A : Type} (irr : A → J × J) (b : BInfo A) : WInfo J := ⟨b.inIrrepsPosition, b.outIrrepsPosition, (irr b.attr.data).1, (irr b.attr.data).2⟩

/-- `s.add(x)` for a set held as a list without repetitions. -/
def setAdd (s : List J) (x : J) : List J := if x ∈ s then s else s ++ [x]

/-- The dictionaries `inputs_count` (before L39) and `basis_count`. -/
structure Counts (J : Type) where
  inputs : ℕ → List J
  basis : J × ℕ → ℕ

/-- The body of the loop, init.py L34-37; reading an absent key of a `defaultdict` gives the empty set and `0`. -/
def Counts.step (c : Counts J) (a : WInfo J) : Counts J :=
  ⟨Function.update c.inputs a.outPos (setAdd (c.inputs a.outPos) a.inIrrep), Function.update c.basis (a.inIrrep, a.outPos) (c.basis (a.inIrrep, a.outPos) + 1)⟩

/-- The loop of init.py L28-37. -/
def counts (L : List (WInfo J)) : Counts J := L.foldl Counts.step ⟨fun _ => [], fun _ => 0⟩

/-- The loop of init.py L42-45 from the weight `w`; an assignment past the end of the tensor raises `IndexError`.  After L39-40 `inputs_count[o]` is the size of the set. -/
noncomputable def assignLoop (c : Counts J) : ℕ → List ℝ → List (WInfo J) → Except Err (List ℝ)
  | _, vars, [] => .ok vars
  | w, vars, a :: L =>
    if w < vars.length then assignLoop c (w + 1) (vars.set w (1 / Real.sqrt (((c.inputs a.outPos).length : ℝ) * c.basis (a.inIrrep, a.outPos)))) L
    else .error .index

/-- `_generalized_he_init_variances`, init.py L16-47, for a basis manager with `dimension() = dim` and `get_basis_info() = L`. -/
noncomputable def variances (dim : ℕ) (L : List (WInfo J)) : Except Err (List ℝ) := assignLoop (counts L) 0 (List.replicate dim 1) L

/-- A basis manager, as far as `generalized_he_init` uses it. -/
structure Manager (J : Type) where
  dim : ℕ
  info : List (WInfo J)

/-- `generalized_he_init(tensor, basismanager, cache)`, init.py L52-84, as a function of the length of `tensor` (a tensor with one axis), of the dictionary `cached_he_vars` (whose keys are compared with `eq`) and of the values `noise` of
`torch.randn_like(tensor)`: the new dictionary and the new content of the tensor.  -/
noncomputable def init (eq : Manager J → Manager J → Bool) (len : ℕ) (m : Manager J) (cache : Bool) (stored : List (Manager J × List ℝ)) (noise : ℕ → ℝ) : Except Err (List (Manager J × List ℝ) × List ℝ) :=
  if len ≠ m.dim then .error .assertion
  else if cache then
    match stored.find? fun e => eq e.1 m with
    | some e => .ok (stored, e.2.zipIdx.map fun p => p.1 * noise p.2)
    | none => do
      let v ← variances m.dim m.info
      .ok (stored ++ [(m, v)], v.zipIdx.map fun p => p.1 * noise p.2)
  else do
    let v ← variances m.dim m.info
    .ok (stored, v.zipIdx.map fun p => p.1 * noise p.2)

end Escnn.He
