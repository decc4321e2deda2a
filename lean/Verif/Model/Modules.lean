import Verif.Model.Arith
import Verif.Model.IndexTables

/-!
# Model of `ReshuffleModule`, `BranchingModule`, `MergeModule` and `MultipleModule`

`eqR` is the equality of representations.  Names of registered buffers and submodules are typing: a buffer `indices_{l}` is an entry
of a table with key `l`.
-/

namespace Escnn

variable {B P S R C L : Type}

/-- `ReshuffleModule`, reshuffle_module.py L43-64. -/
structure Reshuffle (S R : Type) where
  inType : FType S R
  outType : FType S R
  indices : List ℕ

/-- The channels of field `c`, reshuffle_module.py L60-62. -/
def Reshuffle.chans (sz : R → ℕ) (t : FType S R) (c : ℤ) : Except Err (List ℕ) := do
  let r ← pyGet t.reprs c
  let p ← pyGet (FType.startLoop sz 0 t.reprs) c
  .ok (List.range' p (sz r))

/-- `ReshuffleModule.__init__`, reshuffle_module.py L18-64: the argument is compared with `range(len)` as a set. -/
def Reshuffle.init (sz : R → ℕ) (t : FType S R) (perm : List ℤ) : Except Err (Reshuffle S R) :=
  if (∀ i ∈ perm, 0 ≤ i ∧ i < t.reprs.length) ∧ ∀ k ∈ List.range t.reprs.length, (k : ℤ) ∈ perm then do
    let out ← t.indexSelect perm
    let idx ← mapE (Reshuffle.chans sz t) perm
    .ok ⟨t, out, idx.flatten⟩
  else .error .assertion

open Classical in
/-- `ReshuffleModule.forward`, reshuffle_module.py L66-73. -/
noncomputable def Reshuffle.forward (eqR : R → R → Prop) (sz : R → ℕ) (m : Reshuffle S R) (x : GTensor B P S R C) : Except Err (GTensor B P S R C) :=
  if x.type.PyEq eqR m.inType then do
    let d ← GTensor.chanGather x.tensor m.indices
    GTensor.mk' sz d m.outType x.coords
  else .error .assertion

section branching

variable [LinearOrder L]

/-- Comparison of the keys `x[:reshuffle]` for `reshuffle` equal to `1` (labels) or `2` (labels, then sizes), branching_module.py L95. -/
def branchLe (reshuffle : ℕ) (a b : (L × ℕ) × ℕ) : Bool :=
  if reshuffle = 1 then decide (a.1.1 ≤ b.1.1) else decide (a.1.1 < b.1.1) || (decide (a.1.1 = b.1.1) && decide (a.1.2 ≤ b.1.2))

/-- `permutation`, branching_module.py L83-96; Python's `sorted` is stable. -/
def branchPerm (sz : R → ℕ) (reshuffle : ℕ) (labels : List L) (reprs : List R) : List ℕ :=
  (((labels.zip (reprs.map sz)).zipIdx).mergeSort (branchLe reshuffle)).map Prod.snd

/-- The dictionary `_contiguous`, branching_module.py L117-127. -/
def contLoop : Option L → (L → Option Bool) → List L → L → Option Bool
  | _, d, [] => d
  | last, d, l :: labels =>
    contLoop (some l) (if some l ≠ last then Function.update d l (some (decide (d l = none))) else d) labels

/-- `_input_indices[l]` and `_contiguous[l]`, branching_module.py L129-161; `min` of an empty list raises `ValueError`. -/
def branchEntry (sz : R → ℕ) (labels : List L) (reprs : List R) (l : L) : Except Err (L × Bool × List ℕ) :=
  match contLoop none (fun _ => none) labels l with
  | none => .error .key
  | some false => .ok (l, false, labelChans sz l 0 labels reprs)
  | some true =>
    match (labelChans sz l 0 labels reprs).min?, (labelChans sz l 0 labels reprs).max? with
    | some a, some b => .ok (l, true, [a, b + 1])
    | _, _ => .error .value

/-- `BranchingModule`, branching_module.py L64-161.  `labels` are the elements of the set `_labels`. -/
structure Branching (L S R : Type) where
  inType : FType S R
  reshuffle : Option (Reshuffle S R)
  labels : List L
  outType : List (L × FType S R)
  table : List (L × Bool × List ℕ)

/-- The end of the constructor, branching_module.py L114-161, after the fields may have been permuted. -/
def Branching.finish (sz : R → ℕ) (inType : FType S R) (layer : Option (Reshuffle S R)) (t : FType S R) (labels : List L) :
    Except Err (Branching L S R) := do
  let out ← t.groupByLabels labels
  let table ← mapE (branchEntry sz labels t.reprs) labels.dedup
  .ok ⟨inType, layer, labels.dedup, out, table⟩

/-- `BranchingModule.__init__`, branching_module.py L24-161. -/
def Branching.init (sz : R → ℕ) (t : FType S R) (labels : List L) (reshuffle : ℕ) : Except Err (Branching L S R) :=
  if ¬ reshuffle < 3 then .error .assertion
  else if t.reprs.length ≠ labels.length then .error .assertion
  else
    let perm := branchPerm sz reshuffle labels t.reprs
    if 0 < reshuffle ∧ perm ≠ List.range t.reprs.length then do
      let layer ← Reshuffle.init sz t (perm.map fun i : ℕ => (i : ℤ))
      let labels' ← mapE (fun p : ℕ => pyGet labels (p : ℤ)) perm
      Branching.finish sz t (some layer) layer.outType labels'
    else Branching.finish sz t none t labels

/-- A dictionary lookup; a missing key raises `KeyError`. -/
def dictGet {K V : Type} [DecidableEq K] (d : List (K × V)) (l : K) : Except Err V :=
  match FType.lookupLast d l with
  | some v => .ok v
  | none => .error .key

/-- `_retrieve_subfiber`, branching_module.py L163-190. -/
def Branching.retrieve (sz : R → ℕ) (m : Branching L S R) (x : GTensor B P S R C) (l : L) : Except Err (GTensor B P S R C) := do
  let e ← dictGet m.table l
  let d ← (if e.1 then do
      let a ← pyGet e.2 0
      let b ← pyGet e.2 1
      .ok (GTensor.chanSlice x.tensor a b)
    else GTensor.chanGather x.tensor e.2)
  let t ← dictGet m.outType l
  GTensor.mk' sz d t x.coords

open Classical in
/-- `BranchingModule.forward`, branching_module.py L192-219. -/
noncomputable def Branching.forward (eqR : R → R → Prop) (sz : R → ℕ) (m : Branching L S R) (x : GTensor B P S R C) :
    Except Err (List (L × GTensor B P S R C)) :=
  if x.type.PyEq eqR m.inType then do
    let x ← match m.reshuffle with
      | some layer => layer.forward eqR sz x
      | none => .ok x
    mapE (fun l => do
      let y ← m.retrieve sz x l
      .ok (l, y)) m.labels
  else .error .assertion

end branching

/-- The attribute `in_type` of a module: a field type or a tuple of them. -/
inductive InType (S R : Type) where
  | single (t : FType S R)
  | tuple (ts : List (FType S R))

/-- All the field types of an `in_type`. -/
def InType.all : InType S R → List (FType S R)
  | .single t => [t]
  | .tuple ts => ts

/-- A module with one or more inputs, as `MergeModule` uses it: its types, the number of channels in its `evaluate_output_shape`, and
its `forward`. -/
structure EMod (B P S R C : Type) where
  inType : InType S R
  outType : FType S R
  outChans : List ℕ → Except Err ℕ
  forward : List (GTensor B P S R C) → Except Err (GTensor B P S R C)

/-- `output[:, a:a+n, ...] = d`, with the clamping of the slice and the broadcasting of one channel. -/
def setSlice (out : FTensor B P) (a n : ℕ) (d : FTensor B P) : Except Err (FTensor B P) :=
  let lo := min a out.chans
  let hi := min (a + n) out.chans
  if d.chans = hi - lo then .ok ⟨out.chans, fun b c p => if lo ≤ c ∧ c < hi then d.get b (c - lo) p else out.get b c p⟩
  else if d.chans = 1 then .ok ⟨out.chans, fun b c p => if lo ≤ c ∧ c < hi then d.get b 0 p else out.get b c p⟩
  else .error .runtime

/-- `MergeModule`, merge_module.py L54-73, with the labels of each submodule as a list (L44-52). -/
structure Merge (B P S R C L : Type) where
  outType : FType S R
  modules : List (EMod B P S R C × List L)

/-- `MergeModule.__init__`, merge_module.py L40-73. -/
def Merge.init [DecidableEq S] (ms : List (EMod B P S R C × List L)) : Except Err (Merge B P S R C L) :=
  match ms with
  | [] => .error .index
  | (m0, _) :: _ =>
    match m0.inType with
    | .tuple _ => .error .attribute
    | .single t0 =>
      if ∀ m ∈ ms, ∀ t ∈ m.1.inType.all, t.gspace = t0.gspace then do
        let out ← FType.mk' t0.gspace (ms.flatMap fun m => m.1.outType.reprs)
        .ok ⟨out, ms⟩
      else .error .assertion

section merge

variable [LinearOrder L] [DecidableEq C]

/-- The number of channels computed by `evaluate_output_shape`, merge_module.py L114-134 (the other axes are typing). -/
def Merge.outChans (m : Merge B P S R C L) (d : List (L × GTensor B P S R C)) : Except Err ℕ := do
  let os ← mapE (fun ml : EMod B P S R C × List L => do
    let xs ← mapE (dictGet d) ml.2
    ml.1.outChans (xs.map fun x => x.tensor.chans)) m.modules
  match os with
  | [] => .error .index
  | o :: rest => .ok (rest.foldl (· + ·) o)

/-- The loop of `MergeModule.forward`, merge_module.py L96-110: the output, the next channel, and `out_0`. -/
def Merge.loop (sz : R → ℕ) (d : List (L × GTensor B P S R C)) : FTensor B P → ℕ → Option (GTensor B P S R C) → List (EMod B P S R C × List L) →
    Except Err (FTensor B P × Option (GTensor B P S R C))
  | out, _, o0, [] => .ok (out, o0)
  | out, last, o0, (m, ls) :: rest => do
    let xs ← mapE (dictGet d) ls
    let o ← m.forward xs
    if (o0.getD o).coords = o.coords then do
      let out ← setSlice out last (m.outType.size sz) o.tensor
      Merge.loop sz d out (last + m.outType.size sz) (some (o0.getD o)) rest
    else .error .assertion

/-- `MergeModule.forward`, merge_module.py L75-112; `junk` is the content of `torch.empty`. -/
def Merge.forward (sz : R → ℕ) (junk : B → ℕ → P → ℝ) (m : Merge B P S R C L) (d : List (L × GTensor B P S R C)) :
    Except Err (GTensor B P S R C) := do
  let n ← m.outChans d
  if d = [] then .error .index
  else do
    let r ← Merge.loop sz d ⟨n, junk⟩ 0 none m.modules
    match r.2 with
    | none => .error .attribute
    | some o0 => GTensor.mk' sz r.1 m.outType o0.coords

/-- A label or a list of labels. -/
inductive MLabel (L : Type) where
  | one (l : L)
  | many (ls : List L)

/-- merge_module.py L45-52. -/
def MLabel.toList : MLabel L → List L
  | .one l => [l]
  | .many ls => ls

/-- `MultipleModule`, multiple_module.py L68-100. -/
structure Multiple (B P S R C L : Type) where
  inType : FType S R
  branching : Branching L S R
  merging : Merge B P S R C L

open Classical in
/-- The comparison of the types of one submodule, multiple_module.py L91-96: `module.in_type[i]` raises `TypeError` on a field type
and `IndexError` on a short tuple. -/
noncomputable def Multiple.check (eqR : R → R → Prop) (out : List (L × FType S R)) (m : EMod B P S R C) : MLabel L → Except Err Unit
  | .one l => do
    let t ← dictGet out l
    match m.inType with
    | .single t' => if t'.PyEq eqR t then .ok () else .error .assertion
    | .tuple _ => .error .assertion
  | .many ls => do
    let _ ← mapE (fun il : L × ℕ => do
      let t ← dictGet out il.1
      match m.inType with
      | .single _ => .error .type
      | .tuple ts => do
        let t' ← pyGet ts (il.2 : ℤ)
        if t'.PyEq eqR t then .ok () else .error .assertion) ls.zipIdx
    .ok ()

/-- `MultipleModule.__init__`, multiple_module.py L64-100; a set of strings is never an element of a set of strings, so that only the
equality of L84 remains. -/
noncomputable def Multiple.init [DecidableEq S] (eqR : R → R → Prop) (sz : R → ℕ) (t : FType S R) (labels : List L)
    (ms : List (EMod B P S R C × MLabel L)) (reshuffle : ℕ) : Except Err (Multiple B P S R C L) :=
  if (∀ l ∈ ms.flatMap (fun m : EMod B P S R C × MLabel L => m.2.toList), l ∈ labels) ∧
      ∀ l ∈ labels, l ∈ ms.flatMap (fun m : EMod B P S R C × MLabel L => m.2.toList) then do
    let br ← Branching.init sz t labels reshuffle
    let _ ← mapE (fun m : EMod B P S R C × MLabel L => Multiple.check eqR br.outType m.1 m.2) ms
    let mg ← Merge.init (ms.map fun m => (m.1, m.2.toList))
    .ok ⟨t, br, mg⟩
  else .error .assertion

open Classical in
/-- `MultipleModule.forward`, multiple_module.py L102-120. -/
noncomputable def Multiple.forward (eqR : R → R → Prop) (sz : R → ℕ) (junk : B → ℕ → P → ℝ) (m : Multiple B P S R C L) (x : GTensor B P S R C) :
    Except Err (GTensor B P S R C) :=
  if x.type.PyEq eqR m.inType then do
    let d ← m.branching.forward eqR sz x
    m.merging.forward sz junk d
  else .error .assertion

end merge

end Escnn
