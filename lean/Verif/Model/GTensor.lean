import Verif.Model.FieldType

/-!
# Model of `escnn.nn.GeometricTensor`

A geometric tensor is a tensor with channels, a field type and coordinates.  Batch and spatial axes are the index types `B` and `P`
(so that operations which require equal batch and spatial shapes are typed); the coordinates are an opaque value with decidable
equality (`None` included), `has_same_coords` being their equality.
-/

namespace Escnn

/-- Evaluate `f` on every element, stopping at the first exception: a Python list comprehension. -/
def mapE {α β : Type} (f : α → Except Err β) : List α → Except Err (List β)
  | [] => .ok []
  | a :: L =>
    match f a with
    | .error e => .error e
    | .ok b =>
      match mapE f L with
      | .error e => .error e
      | .ok M => .ok (b :: M)

/-- Python's `L[i]` on a list or a 1-D array. -/
def pyGet {α : Type} (L : List α) (i : ℤ) : Except Err α :=
  match (if 0 ≤ i then L[i.toNat]? else if 0 ≤ i + L.length then L[(i + L.length).toNat]? else none) with
  | some a => .ok a
  | none => .error .index

/-- CPython's clamping of a slice bound (`PySlice_AdjustIndices`) for a positive step. -/
def clampUp (n : ℕ) (i : ℤ) : ℤ := if i < 0 then (if i + n < 0 then 0 else i + n) else if n ≤ i then n else i

/-- CPython's clamping of a slice bound for a negative step. -/
def clampDown (n : ℕ) (i : ℤ) : ℤ := if i < 0 then (if i + n < 0 then -1 else i + n) else if n ≤ i then n - 1 else i

/-- `range(n)[start:stop:step]`: the indices addressed by a slice of a sequence of length `n` (`PySlice_Unpack`,
`PySlice_AdjustIndices`; a zero step raises `ValueError`). -/
def sliceIdx (n : ℕ) (start stop step : Option ℤ) : Except Err (List ℕ) :=
  let k := step.getD 1
  if k = 0 then .error .value
  else if 0 < k then
    let a := (start.map (clampUp n)).getD 0
    let b := (stop.map (clampUp n)).getD n
    .ok ((List.range ((b - a + k - 1) / k).toNat).map fun j : ℕ => (a + j * k).toNat)
  else
    let a := (start.map (clampDown n)).getD (n - 1)
    let b := (stop.map (clampDown n)).getD (-1)
    .ok ((List.range ((a - b + -k - 1) / -k).toNat).map fun j : ℕ => (a + j * k).toNat)

/-- Python's `L[start:stop:step]` on a list. -/
def pySlice {α : Type} (L : List α) (start stop step : Option ℤ) : Except Err (List α) :=
  match sliceIdx L.length start stop step with
  | .error e => .error e
  | .ok I => .ok (I.filterMap fun i => L[i]?)

/-- `GeometricTensor`, geometric_tensor.py L246-253. -/
structure GTensor (B P S R C : Type) where
  tensor : FTensor B P
  type : FType S R
  coords : C

namespace GTensor

variable {B P S R C : Type}

/-- `GeometricTensor.__init__`, geometric_tensor.py L226-253.  The assertions on the number of axes and on the coordinates are
typing here; what remains is `tensor.shape[1] == type.size`. -/
def mk' (sz : R → ℕ) (x : FTensor B P) (t : FType S R) (c : C) : Except Err (GTensor B P S R C) :=
  if x.chans = t.size sz then .ok ⟨x, t, c⟩ else .error .assertion

/-- `tensor[:, a:b, ...]` for `0 ≤ a`, `b` at most the number of channels. -/
def chanSlice (x : FTensor B P) (a b : ℕ) : FTensor B P := ⟨b - a, fun i c p => x.get i (a + c) p⟩

/-- `tensor[:, idxs, ...]` for a list of channels; an index out of range raises `IndexError`. -/
def chanGather (x : FTensor B P) (idxs : List ℕ) : Except Err (FTensor B P) :=
  if idxs.all fun i => i < x.chans then .ok ⟨idxs.length, fun i c p => x.get i (idxs.getD c 0) p⟩ else .error .index

/-- The list `positions`, geometric_tensor.py L361-366. -/
def positions (sz : R → ℕ) : ℕ → List R → List ℕ
  | last, [] => [last]
  | last, r :: L => last :: positions sz (last + sz r) L

/-- The loop of `split`, geometric_tensor.py L368-381. -/
def splitLoop (sz : R → ℕ) (x : GTensor B P S R C) : ℤ → List ℤ → Except Err (List (GTensor B P S R C))
  | _, [] => .ok []
  | last, b :: breaks =>
    if ¬ last < b then .error .assertion
    else do
      let reprs ← pySlice x.type.reprs (some last) (some b) none
      let t ← FType.mk' x.type.gspace reprs
      let lo ← pyGet (positions sz 0 x.type.reprs) last
      let hi ← pyGet (positions sz 0 x.type.reprs) b
      let y ← mk' sz (chanSlice x.tensor lo hi) t x.coords
      let ys ← splitLoop sz x b breaks
      .ok (y :: ys)

/-- `breaks.append(len(self.type))`, geometric_tensor.py L352-355: the content of the list after the call to `split`; if a list was
passed by the caller, it is the caller's own list. -/
def splitBreaks (x : GTensor B P S R C) (breaks : Option (List ℤ)) : List ℤ :=
  (match breaks with
   | none => (List.range x.type.len).map fun i : ℕ => (i : ℤ)
   | some b => b) ++ [(x.type.len : ℤ)]

/-- `split`, geometric_tensor.py L291-383. -/
def split (sz : R → ℕ) (x : GTensor B P S R C) (breaks : Option (List ℤ)) : Except Err (List (GTensor B P S R C)) :=
  splitLoop sz x 0 (splitBreaks x breaks)

/-- Concatenation along the channels of two tensors, `torch.cat(…, dim=1)`. -/
def chanCat2 (x y : FTensor B P) : FTensor B P :=
  ⟨x.chans + y.chans, fun b c p => if c < x.chans then x.get b c p else y.get b (c - x.chans) p⟩

/-- `torch.cat(L, dim=1)`. -/
def chanCat (L : List (FTensor B P)) : FTensor B P := L.foldr chanCat2 ⟨0, fun _ _ _ => 0⟩

/-- `tensor_directsum`, geometric_tensor.py L817-859.  The comparison of the batch and spatial shapes is typing; an empty list
raises `IndexError` at `tensors[0]`. -/
def directsum [DecidableEq S] [DecidableEq C] (sz : R → ℕ) (L : List (GTensor B P S R C)) : Except Err (GTensor B P S R C) :=
  match L with
  | [] => .error .index
  | x0 :: rest =>
    if rest.all fun x => decide (x0.type.gspace = x.type.gspace) && decide (x0.coords = x.coords) then do
      let t ← FType.mk' x0.type.gspace (L.flatMap fun x => x.type.reprs)
      mk' sz (chanCat (L.map fun x => x.tensor)) t x0.coords
    else .error .assertion

/-- The indices accepted by `__getitem__` on one axis, geometric_tensor.py L516-527; `mask` and `long` are boolean and integer
tensors. -/
inductive Index where
  | int (i : ℤ)
  | slice (start stop step : Option ℤ)
  | mask (L : List Bool)
  | long (L : List ℤ)
  deriving DecidableEq

/-- Expansion of the ellipses, geometric_tensor.py L529-551; `none` is `Ellipsis`. -/
def expandLoop (missing : ℤ) : Bool → List (Option Index) → List Index
  | _, [] => []
  | expanded, none :: L =>
    if expanded then expandLoop missing expanded L
    else List.replicate missing.toNat (.slice none none none) ++ expandLoop missing true L
  | expanded, some s :: L => s :: expandLoop missing expanded L

/-- Number of indices which are not `Ellipsis`, geometric_tensor.py L532-534. -/
def indexedAxes : List (Option Index) → ℕ
  | [] => 0
  | none :: L => indexedAxes L
  | some _ :: L => indexedAxes L + 1

/-- geometric_tensor.py L505-551. -/
def expand (naxes : ℕ) (slices : List (Option Index)) : Except Err (List Index) :=
  if naxes < slices.length then .error .type
  else .ok (expandLoop ((naxes : ℤ) - indexedAxes slices) false slices)

/-- Replacement of an integer by a slice, geometric_tensor.py L561-567, with `m = idx_max[i]`. -/
def intToSlice (m : ℕ) : Index → Index
  | .int i =>
    let i := if i < 0 then m + i else i
    .slice (some i) (some (i + 1)) (some 1)
  | s => s

/-- geometric_tensor.py L575-596. -/
def getContiguous [DecidableEq R] (sz : R → ℕ) (x : GTensor B P S R C) (start stop step : Option ℤ) : Except Err (GTensor B P S R C) := do
  let start' := start.getD 0
  let stop' := stop.getD x.type.len
  let a ← pyGet (x.type.fieldsStart sz) start'
  let b ← pyGet (x.type.fieldsEnd sz) (stop' - 1)
  if start' = 0 ∧ stop' = x.type.len then mk' sz (chanSlice x.tensor a b) x.type x.coords
  else do
    let reprs ← pySlice x.type.reprs start stop step
    let t ← FType.mk' x.type.gspace reprs
    mk' sz (chanSlice x.tensor a b) t x.coords

/-- The channels of one field, geometric_tensor.py L626-632. -/
def fieldChans (sz : R → ℕ) (t : FType S R) (f : ℤ) : Except Err (List ℕ) := do
  let a ← pyGet (t.fieldsStart sz) f
  let b ← pyGet (t.fieldsEnd sz) f
  .ok (List.range' a (b - a))

/-- geometric_tensor.py L623-643. -/
def getFields (sz : R → ℕ) (x : GTensor B P S R C) (fields : List ℤ) (reprs : List R) : Except Err (GTensor B P S R C) := do
  let idxs ← mapE (fieldChans sz x.type) fields
  let t ← FType.mk' x.type.gspace reprs
  let data ← chanGather x.tensor idxs.flatten
  mk' sz data t x.coords

/-- `x[:, idx, ...]`: `__getitem__` with the index `idx` on the channel axis and full slices on the others,
geometric_tensor.py L554-650. -/
def getFieldsAt [DecidableEq R] (sz : R → ℕ) (x : GTensor B P S R C) (idx : Index) : Except Err (GTensor B P S R C) :=
  match intToSlice x.type.len idx with
  | .slice start stop step =>
    if step = none ∨ step = some 1 then getContiguous sz x start stop step
    else do
      let fields ← sliceIdx x.type.len start stop step
      let reprs ← pySlice x.type.reprs start stop step
      getFields sz x (fields.map fun i : ℕ => (i : ℤ)) reprs
  | .mask L => do
    let fields ← mapE (fun i : ℕ => (pyGet L i).map fun b => (i, b)) (List.range x.type.len)
    let fields := (fields.filter fun p => p.2).map fun p => (p.1 : ℤ)
    let reprs ← mapE (pyGet x.type.reprs) fields
    getFields sz x fields reprs
  | .long L => do
    let reprs ← mapE (pyGet x.type.reprs) L
    getFields sz x L reprs
  | .int _ => .error .value

end GTensor

end Escnn
