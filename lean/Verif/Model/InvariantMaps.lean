import Verif.Model.NormNonlin
import Verif.Model.Gated

/-!
# Model of escnn/nn/modules/invariantmaps: gpool.py, norm.py, induced_norm.py

The output has one trivial field for each field of the input.
-/

namespace Escnn

variable {B P S R L G Id C : Type}

section
variable [DecidableEq L]

/-- The buffer of a label: the bounds of an interval or the list of the indices, e.g. gpool.py L69-76. -/
def idxEntry (l : L) (contiguous : Bool) (idx : List ℕ) : Except Err (L × Bool × List ℕ) :=
  if contiguous then
    match idx.min?, idx.max? with
    | some a, some b => .ok (l, true, [a, b + 1])
    | _, _ => .error .value
  else .ok (l, false, idx)

/-- `in_indices_{s}` and `out_indices_{s}`, gpool.py L65-80 and norm.py L52-67: the channels of the fields of a label and the positions of these fields. -/
def poolTables (sz : R → ℕ) (t : FType S R) (labels : List L) : Except Err (List (L × Bool × List ℕ) × List (L × Bool × List ℕ)) := do
  let d ← indexesFromLabels sz t labels
  let tin ← mapE (fun e : L × Bool × List ℕ × List ℕ => idxEntry e.1 e.2.1 e.2.2.2) d
  let tout ← mapE (fun e : L × Bool × List ℕ × List ℕ => idxEntry e.1 e.2.1 e.2.2.1) d
  .ok (tin, tout)

/-- The same with the flags computed by comparing each label with the one before, induced_norm.py L63-100. -/
def runPoolTables (sz : R → ℕ) (t : FType S R) (labels : List L) : Except Err (List (L × Bool × List ℕ) × List (L × Bool × List ℕ)) := do
  let D := contigLoop none [] labels
  let tin ← mapE (fun e : L × Bool => idxEntry e.1 e.2 (labelChans sz e.1 0 labels t.reprs)) D
  let tout ← mapE (fun e : L × Bool => idxEntry e.1 e.2 (FType.labelLoop e.1 0 labels)) D
  .ok (tin, tout)

end

/-- `.max(dim)` of `n` entries, for `n > 0`. -/
noncomputable def maxOf (n : ℕ) (v : ℕ → ℝ) : ℝ := (((List.range n).map v).max?).getD 0

/-- The state of the three modules; the labels are the sizes of the representations, or the sizes and the sizes of the subfields. -/
structure PoolMap (L S R : Type) where
  inType : FType S R
  outType : FType S R
  tin : List (L × Bool × List ℕ)
  tout : List (L × Bool × List ℕ)
  order : List L

namespace PoolMap

/-- The step of `GroupPooling`, gpool.py L115-117. -/
noncomputable def gpoolStep (s : ℕ) (d : FTensor B P) : Except Err (FTensor B P) := do
  let f ← d.toFields (d.chans / s) s
  if s = 0 then .error .index else .ok ⟨f.n, fun b n p => maxOf s fun o => f.get b n o p⟩

/-- The step of `NormPool`, norm.py L102-107. -/
noncomputable def normStep (s : ℕ) (d : FTensor B P) : Except Err (FTensor B P) := do
  let f ← d.toFields (d.chans / s) s
  .ok ⟨f.n, fun b n p => fieldNormOf s fun o => f.get b n o p⟩

/-- The step of `InducedNormPool`, induced_norm.py L125-137, with the label `(size, subfield_size)`. -/
noncomputable def inducedStep (l : ℕ × ℕ) (d : FTensor B P) : Except Err (FTensor B P) := do
  let f ← d.toFields (d.chans / (l.1 / l.2 * l.2)) (l.1 / l.2 * l.2)
  if l.1 / l.2 = 0 then .error .index else .ok ⟨f.n, fun b n p => maxOf (l.1 / l.2) fun i => fieldNormOf l.2 fun o => f.get b n (i * l.2 + o) p⟩

open Classical in
/-- `forward`, gpool.py L82-125, norm.py L69-110, induced_norm.py L102-145; `junk` is the content of `torch.empty`. -/
noncomputable def forward [DecidableEq L] (step : L → FTensor B P → Except Err (FTensor B P)) (junk : B → ℕ → P → ℝ) (m : PoolMap L S (Rep G Id)) (x : GTensor B P S (Rep G Id) C) :
    Except Err (GTensor B P S (Rep G Id) C) :=
  if x.type = m.inType then do
    let res ← groupedLoop step m.tin m.tout x.tensor ⟨m.outType.size Rep.size, junk⟩ m.order
    GTensor.mk' Rep.size res m.outType x.coords
  else .error .assertion

/-- `NormPool.__init__`, norm.py L20-67; `triv` is the trivial representation of the group. -/
def normInit (triv : Rep G Id) (t : FType S (Rep G Id)) : Except Err (PoolMap ℕ S (Rep G Id)) := do
  let tabs ← poolTables Rep.size t (t.reprs.map Rep.size)
  .ok ⟨t, ⟨t.gspace, List.replicate t.len triv⟩, tabs.1, tabs.2, keysInOrder (t.reprs.map Rep.size)⟩

/-- `GroupPooling.__init__`, gpool.py L22-80. -/
def gpoolInit (triv : Rep G Id) (t : FType S (Rep G Id)) : Except Err (PoolMap ℕ S (Rep G Id)) :=
  if ∀ r ∈ t.reprs, "pointwise" ∈ r.nonlin then normInit triv t else .error .assertion

end PoolMap

/-! ### The size of the subfields -/

/-- `nl.startswith(prefix)`. -/
def pyStartsWith (nl pre : String) : Bool := pre.toList.isPrefixOf nl.toList

/-- `int(nl.split('_')[-1])` for a part made of decimal digits; anything else raises `ValueError` (signs and spaces, which `int` accepts, are not modelled). -/
def lastPartNat (nl : String) : Option ℕ :=
  let ds := (nl.toList.reverse.takeWhile (· ≠ '_')).reverse
  if ds ≠ [] ∧ ds.all Char.isDigit then some (ds.foldl (fun n c => n * 10 + (c.toNat - '0'.toNat)) 0) else none

open Classical in
/-- The size of the subfields of a representation given by the names `{pre}_{size}` of its nonlinearities, induced_norm.py (nonlinearities) L46-48 and L83-89.  A size which is 0 raises `ZeroDivisionError`. -/
noncomputable def subSize (pre : String) (r : Rep G Id) : Except Err ℕ :=
  if h : ∃ nl, nl ∈ r.nonlin ∧ pyStartsWith nl pre = true then
    if ∀ nl ∈ r.nonlin, pyStartsWith nl pre = true → nl = h.choose then
      match lastPartNat h.choose with
      | none => .error .value
      | some s => if s = 0 then .error .runtime else if r.size % s = 0 then .ok s else .error .assertion
    else .error .assertion
  else .error .assertion

namespace PoolMap

/-- `InducedNormPool.__init__`, induced_norm.py L20-100. -/
noncomputable def inducedInit (triv : Rep G Id) (t : FType S (Rep G Id)) : Except Err (PoolMap (ℕ × ℕ) S (Rep G Id)) := do
  let subs ← mapE (subSize "induced_norm") t.reprs
  let labels := (t.reprs.map Rep.size).zip subs
  let tabs ← runPoolTables Rep.size t labels
  .ok ⟨t, ⟨t.gspace, List.replicate t.len triv⟩, tabs.1, tabs.2, keysInOrder labels⟩

end PoolMap

end Escnn
