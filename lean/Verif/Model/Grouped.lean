import Verif.Model.Modules

/-!
# The pattern shared by the modules which process the fields group by group

Several modules gather the channels of all the fields with the same label (the name or the size of the representation), reshape them to
`(batch, number of fields, size, ...)`, compute, and write the result to the channels of an output tensor: `DisentangleModule`
(disentangle_module.py L65-119), `NormNonLinearity` (norm.py), `FieldDropout` (field.py), the batch normalizations, …
-/

namespace Escnn

variable {B P P' S R L : Type}

/-- A tensor of shape `(batch, n, size, ...)`. -/
structure FieldsT (B P : Type) where
  n : ℕ
  size : ℕ
  get : B → ℕ → ℕ → P → ℝ

/-- `d.view(b, n, size, ...)`; a wrong number of channels raises `RuntimeError`. -/
def FTensor.toFields (d : FTensor B P) (n size : ℕ) : Except Err (FieldsT B P) :=
  if d.chans = n * size then .ok ⟨n, size, fun b c o p => d.get b (c * size + o) p⟩ else .error .runtime

/-- `f.reshape(b, -1, ...)` or `f.view(b, n * size, ...)`. -/
def FieldsT.flat (f : FieldsT B P) : FTensor B P := ⟨f.n * f.size, fun b c p => f.get b (c / f.size) (c % f.size) p⟩

/-- `x[:, idx[0]:idx[1], ...]` or `x[:, idx, ...]`, e.g. disentangle_module.py L102-105. -/
def readIdx (x : FTensor B P) (contiguous : Bool) (idx : List ℕ) : Except Err (FTensor B P) :=
  if contiguous then do
    let a ← pyGet idx 0
    let b ← pyGet idx 1
    .ok (GTensor.chanSlice x a b)
  else GTensor.chanGather x idx

/-- `out[:, idx, ...] = d` for a list of channels, with the broadcasting of one channel.  For repeated channels PyTorch does not
specify which value is kept; here it is the first. -/
def chanScatter (out : FTensor B P) (idx : List ℕ) (d : FTensor B P) : Except Err (FTensor B P) :=
  if idx.all fun i => i < out.chans then
    if d.chans = idx.length then .ok ⟨out.chans, fun b c p => if c ∈ idx then d.get b (idx.idxOf c) p else out.get b c p⟩
    else if d.chans = 1 then .ok ⟨out.chans, fun b c p => if c ∈ idx then d.get b 0 p else out.get b c p⟩
    else .error .runtime
  else .error .index

/-- `out[:, idx[0]:idx[1], ...] = d` or `out[:, idx, ...] = d`, e.g. disentangle_module.py L114-117. -/
def writeIdx (out : FTensor B P) (contiguous : Bool) (idx : List ℕ) (d : FTensor B P) : Except Err (FTensor B P) :=
  if contiguous then do
    let a ← pyGet idx 0
    let b ← pyGet idx 1
    setSlice out a (b - a) d
  else chanScatter out idx d

variable [DecidableEq L]

/-- Lookup of an attribute `…_{label}`; a missing one raises `AttributeError`. -/
def tabGet {V : Type} (d : List (L × V)) (l : L) : Except Err V :=
  match FType.lookupLast d l with
  | some v => .ok v
  | none => .error .attribute

/-- The keys of a dictionary filled in the order of `labels`: their first occurrences. -/
def keysInOrder (labels : List L) : List L := labels.reverse.dedup.reverse

/-- The tables `_contiguous` and `fiber_indices_{label}`, e.g. disentangle_module.py L65-78. -/
def fieldTable (sz : R → ℕ) (t : FType S R) (labels : List L) : Except Err (List (L × Bool × List ℕ)) := do
  let d ← indexesFromLabels sz t labels
  mapE (fun e : L × Bool × List ℕ × List ℕ =>
    if e.2.1 then
      match e.2.2.2.min?, e.2.2.2.max? with
      | some a, some b => .ok (e.1, true, [a, b + 1])
      | _, _ => .error .value
    else .ok (e.1, false, e.2.2.2)) d

/-- The dictionary `_contiguous` filled by comparing each label with the one before it, e.g. norm.py (nonlinearities) L84-91: a label met again after another one is not contiguous. -/
def contigLoop : Option L → List (L × Bool) → List L → List (L × Bool)
  | _, d, [] => d
  | last, d, l :: ls =>
    contigLoop (some l) (if some l ≠ last then (if (FType.lookupLast d l).isSome then d ++ [(l, false)] else d ++ [(l, true)]) else d) ls

/-- The tables `indices_{label}` for the flags `D`, e.g. norm.py (nonlinearities) L98-110: the bounds of an interval for the contiguous labels, else the list of channels. -/
def flagTable (sz : R → ℕ) (rs : List R) (labels : List L) (D : List (L × Bool)) : Except Err (List (L × Bool × List ℕ)) :=
  mapE (fun e : L × Bool =>
    if e.2 then
      match (labelChans sz e.1 0 labels rs).min?, (labelChans sz e.1 0 labels rs).max? with
      | some a, some b => .ok (e.1, true, [a, b + 1])
      | _, _ => .error .value
    else .ok (e.1, false, labelChans sz e.1 0 labels rs)) D

/-- The tables `_contiguous` and `indices_{label}` of the modules which do not call `indexes_from_labels`, e.g. norm.py (nonlinearities) L80-110. -/
def runTable (sz : R → ℕ) (t : FType S R) (labels : List L) : Except Err (List (L × Bool × List ℕ)) :=
  flagTable sz t.reprs labels (contigLoop none [] labels)

/-- The loop over the labels, e.g. disentangle_module.py L90-117: `F l` computes the new content of the channels of label `l`. -/
def groupedLoop (F : L → FTensor B P → Except Err (FTensor B P')) (tin tout : List (L × Bool × List ℕ)) (x : FTensor B P) :
    FTensor B P' → List L → Except Err (FTensor B P')
  | out, [] => .ok out
  | out, l :: ls => do
    let i ← tabGet tin l
    let d ← readIdx x i.1 i.2
    let e ← F l d
    let o ← tabGet tout l
    let out ← writeIdx out o.1 o.2 e
    groupedLoop F tin tout x out ls

end Escnn
