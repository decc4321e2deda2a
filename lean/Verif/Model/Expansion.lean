import Verif.Model.Grouped
import Mathlib.Analysis.Real.Sqrt

/-!
# Model of `escnn/nn/modules/basismanager`: `SingleBlockBasisExpansion` and `BlocksBasisExpansion`

The bookkeeping uses the name, the size and the number of irreps of a representation; `R` is an arbitrary type of representations with
the functions `nm`, `sz`, `ni`.  The coordinates of the points only enter through `basis.sample(points)`, so the points are `0, …, S - 1`.
-/

namespace Escnn

/-- A filter as a tensor of shape `(rows, cols, S)`. -/
structure Kern where
  rows : ℕ
  cols : ℕ
  get : ℕ → ℕ → ℕ → ℝ

/-- The entries of the dictionary of attributes of a basis element (kernels/basis.py L20-30) used by the basis managers: `id`,
`shape[0]`, `in_irrep_idx`, `out_irrep_idx`, and the others. -/
structure Attr (A : Type) where
  id : ℕ
  shape0 : ℕ
  inIrrepIdx : ℕ
  outIrrepIdx : ℕ
  data : A

/-- A `KernelBasis`, kernels/basis.py L20-100: the shape of its kernels, the attributes yielded by its iterator, and the result of
`sample(points).permute(1, 2, 3, 0)`. -/
structure KBasis (A : Type) where
  outSize : ℕ
  inSize : ℕ
  attrs : List (Attr A)
  sampled : List (ℕ → ℕ → ℕ → ℝ)

/-- The attributes of `SingleBlockBasisExpansion`, basisexpansion_singleblock.py L40, L73, L76. -/
structure SBlock (A : Type) where
  outSize : ℕ
  inSize : ℕ
  attrs : List (Attr A)
  mask : List Bool
  sampled : List (ℕ → ℕ → ℕ → ℝ)

namespace SBlock

variable {A : Type}

/-- The sum of the squares of all the entries of a kernel of shape `(o, i, S)`. -/
noncomputable def sq (o i S : ℕ) (K : ℕ → ℕ → ℕ → ℝ) : ℝ :=
  ∑ a ∈ Finset.range o, ∑ c ∈ Finset.range i, ∑ p ∈ Finset.range S, K a c p ^ 2

/-- `normalize_basis` for one element, basisexpansion_singleblock.py L187-208.  The number `NaN` of L203 does not exist here: `norms`
is never negative.  -/
noncomputable def normalize (o i S : ℕ) (size : ℕ) (K : ℕ → ℕ → ℕ → ℝ) : ℕ → ℕ → ℕ → ℝ :=
  let n := sq o i S K / size
  let n := if n < 1e-15 then 0 else n
  let n := Real.sqrt n
  let n := if n < 1e-6 then 1 else n
  fun a c p => K a c p / n

open Classical in
/-- `SingleBlockBasisExpansion.__init__`, basisexpansion_singleblock.py L33-76. -/
noncomputable def init (S : ℕ) (basis : KBasis A) (mask : List Bool) : Except Err (SBlock A) :=
  if mask.length ≠ basis.attrs.length then .error .assertion
  else if ¬ mask.any id then .error .emptyBasis
  else if basis.sampled.length ≠ basis.attrs.length then .error .assertion
  else
    let sampled := List.zipWith (fun a K => normalize basis.outSize basis.inSize S a.shape0 K) basis.attrs basis.sampled
    let mask := List.zipWith (fun b K => b && decide (1e-2 < sq basis.outSize basis.inSize S K)) mask sampled
    if ¬ mask.any id then .error .emptyBasis
    else .ok ⟨basis.outSize, basis.inSize, basis.attrs, mask, ((sampled.zip mask).filter Prod.snd).map Prod.fst⟩

/-- `block_basisexpansion`, basisexpansion_singleblock.py L144-160.  The dictionary `_stored_filters` returns an object built from an
equal basis, mask and points. -/
noncomputable def ofFilter (S : ℕ) (basis : KBasis A) (basisFilter : Option (Attr A → Bool)) : Except Err (SBlock A) :=
  match basisFilter with
  | some f => init S basis (basis.attrs.map f)
  | none => init S basis (basis.attrs.map fun _ => true)

/-- `dimension`, basisexpansion_singleblock.py L103-104. -/
def dim (b : SBlock A) : ℕ := b.sampled.length

/-- The loop of `get_element_info`, basisexpansion_singleblock.py L86-93; `none` is Python's `None`. -/
def infoLoop (id : ℕ) : ℕ → List (Attr A × Bool) → Option (Attr A)
  | _, [] => none
  | idx, (a, true) :: L => if idx = id then some { a with id := idx } else infoLoop id (idx + 1) L
  | idx, (_, false) :: L => infoLoop id idx L

/-- `get_element_info`, basisexpansion_singleblock.py L85-93. -/
def elementInfo (b : SBlock A) (id : ℕ) : Option (Attr A) := infoLoop id 0 (b.attrs.zip b.mask)

/-- The generator `get_basis_info`, basisexpansion_singleblock.py L95-101. -/
def basisLoop : ℕ → List (Attr A × Bool) → List (Attr A)
  | _, [] => []
  | idx, (a, true) :: L => { a with id := idx } :: basisLoop (idx + 1) L
  | idx, (_, false) :: L => basisLoop idx L

/-- `get_basis_info`, basisexpansion_singleblock.py L95-101. -/
def basisInfo (b : SBlock A) : List (Attr A) := basisLoop 0 (b.attrs.zip b.mask)

/-- `forward`, basisexpansion_singleblock.py L83: `einsum('boi...,kb->koi...', sampled_basis, weights)`. -/
noncomputable def expand (b : SBlock A) (w : ℕ → ℕ → ℝ) (k o i p : ℕ) : ℝ :=
  ∑ e ∈ Finset.range b.dim, (b.sampled[e]?.getD fun _ _ _ => 0) o i p * w k e

end SBlock

/-- The dictionary yielded for a weight, basisexpansion_blocks.py L189-209 and L254-275. -/
structure BInfo (A : Type) where
  id : ℕ
  blockId : ℕ
  inRepr : String
  outRepr : String
  inField : ℕ
  outField : ℕ
  inIrrepsPosition : ℕ
  outIrrepsPosition : ℕ
  attr : Attr A

/-- `_escape_name`, basisexpansion_blocks.py L150-151: `name.replace('.', '^')`. -/
def escName (s : String) : String := String.ofList (s.toList.map fun c => if c = '.' then '^' else c)

/-- `_escape_pair`, basisexpansion_blocks.py L153-156.  The names of the attributes contain the printed tuple, from which the tuple
can be recovered. -/
def escPair (p : String × String) : String × String := (escName p.1, escName p.2)

/-- Python's order on tuples of two strings. -/
def pairLe (p q : String × String) : Bool := decide (p.1 < q.1) || (decide (p.1 = q.1) && decide (p.2 ≤ q.2))

/-- The attributes of `BlocksBasisExpansion`, basisexpansion_blocks.py L51-148; `blocks`, `inIdx`, `outIdx` hold the attributes
`block_expansion_…`, `in_indices_…`, `out_indices_…` under the escaped pair of names. -/
structure Blocks (R A : Type) where
  inReprs : List R
  outReprs : List R
  inSize : ℕ
  outSize : ℕ
  S : ℕ
  blocks : List ((String × String) × SBlock A)
  pairs : List (String × String)
  nPairs : ℕ
  inCount : String → ℕ
  outCount : String → ℕ
  contiguous : List ((String × String) × Bool)
  inIdx : List ((String × String) × List ℕ)
  outIdx : List ((String × String) × List ℕ)
  ranges : List ((String × String) × (ℕ × ℕ))
  dim : ℕ

namespace Blocks

variable {R A : Type} (nm : R → String) (sz ni : R → ℕ)

/-- The loop over the pairs of representations, basisexpansion_blocks.py L65-80: the dictionary `_block_expansion_modules`. -/
def collect (gen : R → R → Except Err (SBlock A)) : List (R × R) → Except Err (List ((String × String) × SBlock A))
  | [] => .ok []
  | (i, o) :: L =>
    match gen i o with
    | .ok b => do
      let d ← collect gen L
      .ok (((nm i, nm o), b) :: d)
    | .error .emptyBasis => collect gen L
    | .error e => .error e

/-- The body of the `try`, basisexpansion_blocks.py L70-72: `basis_generator` and `block_basisexpansion`. -/
noncomputable def blockFor (bg : R → R → Except Err (KBasis A)) (basisFilter : Option (Attr A → Bool)) (S : ℕ) (i o : R) : Except Err (SBlock A) := do
  let k ← bg i o
  SBlock.ofFilter S k basisFilter

/-- `_count[name]`, basismanager/__init__.py L17. -/
def count (rs : List R) (name : String) : ℕ := rs.foldl (fun c r => if nm r = name then c + 1 else c) 0

/-- `_indices[name]`, basismanager/__init__.py L15-16. -/
def indices (rs : List R) (name : String) : List ℕ := labelChans sz name 0 (rs.map nm) rs

/-- `[indices.min(), indices.max() + 1, indices.max() + 1 - indices.min()]`, basisexpansion_blocks.py L112-122. -/
def bounds (I : List ℕ) : Except Err (List ℕ) :=
  match I.min?, I.max? with
  | some a, some b => .ok [a, b + 1, b + 1 - a]
  | _, _ => .error .runtime

/-- The body of the loop, basisexpansion_blocks.py L107-134: the flag and the input and output indices of a pair.  `meshgrid` with
`indexing='ij'` varies the input index fastest. -/
def pairIndices (inR outR : List R) (p : String × String) : Except Err (Bool × List ℕ × List ℕ) := do
  let I := indices nm sz inR p.1
  let O := indices nm sz outR p.2
  let ci ← checkConsecutive I
  let co ← checkConsecutive O
  if ci && co then do
    let i ← bounds I
    let o ← bounds O
    .ok (true, i, o)
  else .ok (false, O.flatMap fun _ => I, O.flatMap fun o => I.map fun _ => o)

/-- The weight ranges, basisexpansion_blocks.py L137-146, from position `last` on, and the final position. -/
def rangesLoop (mods : List ((String × String) × SBlock A)) (ic oc : String → ℕ) : ℕ → List (String × String) → Except Err (List ((String × String) × (ℕ × ℕ)) × ℕ)
  | last, [] => .ok ([], last)
  | last, p :: L => do
    let b ← dictGet mods p
    let total := b.dim * (ic p.1 * oc p.2)
    let r ← rangesLoop mods ic oc (last + total) L
    .ok ((p, (last, last + total)) :: r.1, r.2)

/-- `BlocksBasisExpansion.__init__`, basisexpansion_blocks.py L50-148; `uin`, `uout` list the sets of representations in the order in
which Python iterates over them; `gen` is the basis generator followed by `block_basisexpansion`. `retrieve_indices` (L94-95) runs
`check_consecutive_numbers` on the indices of all the names. -/
def init (gen : R → R → Except Err (SBlock A)) (uin uout inR outR : List R) (S : ℕ) : Except Err (Blocks R A) := do
  let mods ← collect nm gen (uin.flatMap fun i => uout.map fun o => (i, o))
  let pairs := ((mods.map Prod.fst).dedup).mergeSort pairLe
  let _ ← mapE (fun n => checkConsecutive (indices nm sz inR n)) (inR.map nm)
  let _ ← mapE (fun n => checkConsecutive (indices nm sz outR n)) (outR.map nm)
  let t ← mapE (fun p => do
    let e ← pairIndices nm sz inR outR p
    .ok (p, e)) pairs
  let r ← rangesLoop mods (count nm inR) (count nm outR) 0 pairs
  .ok ⟨inR, outR, (inR.map sz).sum, (outR.map sz).sum, S, mods.map fun e => (escPair e.1, e.2), pairs, uin.length * uout.length,
    count nm inR, count nm outR, t.map fun e => (e.1, e.2.1), t.map fun e => (escPair e.1, e.2.2.1), t.map fun e => (escPair e.1, e.2.2.2),
    r.1, r.2⟩

/-- The inner loop of `get_element_info`, basisexpansion_blocks.py L181-215: `(in_irreps_count, i)` of the field found, or the block
count. -/
def searchIn (p : String × String) (on : String) (target : ℕ) : ℕ → ℕ → ℕ → List R → Sum (ℕ × ℕ) ℕ
  | _, _, c, [] => .inr c
  | i, irr, c, r :: L =>
    if p = (nm r, on) then
      if c = target then .inl (irr, i) else searchIn p on target (i + 1) (irr + ni r) (c + 1) L
    else searchIn p on target (i + 1) (irr + ni r) c L

/-- The outer loop of `get_element_info`, basisexpansion_blocks.py L179-216. -/
def searchOut (p : String × String) (inR : List R) (target : ℕ) : ℕ → ℕ → ℕ → List R → Option ((ℕ × ℕ) × (ℕ × ℕ))
  | _, _, _, [] => none
  | o, irr, c, r :: L =>
    match searchIn nm ni p (nm r) target 0 0 c inR with
    | .inl f => some ((irr, o), f)
    | .inr c' => searchOut p inR target (o + 1) (irr + ni r) c' L

/-- The dictionary updated with the positions, basisexpansion_blocks.py L189-209 and L254-275. -/
def mkInfo (p : String × String) (idx : ℕ) (out inn : ℕ × ℕ) (a : Attr A) : BInfo A :=
  ⟨idx, a.id, p.1, p.2, inn.2, out.2, inn.1 + a.inIrrepIdx, out.1 + a.outIrrepIdx, a⟩

/-- `get_element_info`, basisexpansion_blocks.py L158-218; the `None` of an element not found in the block has no attribute `copy`. -/
def elementInfo (m : Blocks R A) (idx : ℕ) : Except Err (BInfo A) :=
  if ¬ idx < m.dim then .error .assertion
  else
    match m.ranges.find? fun e => decide (e.2.1 ≤ idx ∧ idx < e.2.2) with
    | none => .error .assertion
    | some e => do
      let b ← tabGet m.blocks (escPair e.1)
      let block := (idx - e.2.1) / b.dim
      let rel := (idx - e.2.1) % b.dim
      match b.elementInfo rel with
      | none => .error .attribute
      | some a =>
        match searchOut nm ni e.1 m.inReprs block 0 0 0 m.outReprs with
        | none => .error .value
        | some (o, i) => .ok (mkInfo e.1 idx o i a)

/-- `out_irreps_counts` and `in_irreps_counts`, basisexpansion_blocks.py L222-232. -/
def irrepsCounts : ℕ → List R → List ℕ
  | c, [] => [c]
  | c, r :: L => c :: irrepsCounts (c + ni r) L

/-- The items yielded by `get_basis_info` for one pair, basisexpansion_blocks.py L239-281, without the ids. -/
def pairInfo (m : Blocks R A) (p : String × String) : Except Err (List (ℕ → BInfo A)) := do
  let b ← tabGet m.blocks (escPair p)
  let attrs := b.basisInfo
  let L ← mapE (fun o => do
    let oc ← pyGet (irrepsCounts ni 0 m.outReprs) (o : ℕ)
    let L ← mapE (fun i => do
      let ic ← pyGet (irrepsCounts ni 0 m.inReprs) (i : ℕ)
      .ok (attrs.map fun a idx => mkInfo p idx (oc, o) (ic, i) a)) (FType.labelLoop p.1 0 (m.inReprs.map nm))
    .ok L.flatten) (FType.labelLoop p.2 0 (m.outReprs.map nm))
  .ok L.flatten

/-- `get_basis_info`, basisexpansion_blocks.py L220-281, as the list of its items; the assertion of L277 fails at an item `idx ≥ dim`. -/
def basisInfo (m : Blocks R A) : Except Err (List (BInfo A)) := do
  let L ← mapE (pairInfo nm ni m) m.pairs
  let L := L.flatten
  if L.length ≤ m.dim then .ok (L.zipIdx.map fun e => e.1 e.2) else .error .assertion

/-- A tensor of shape `(oc, o, ic, i, S)`. -/
structure Expanded where
  oc : ℕ
  o : ℕ
  ic : ℕ
  i : ℕ
  S : ℕ
  get : ℕ → ℕ → ℕ → ℕ → ℕ → ℝ

/-- `_expand_block`, basisexpansion_blocks.py L286-308.  The number of rows of `coefficients.view(-1, d)` is the length divided by `d`,
and `view` raises `RuntimeError` if the number of entries is wrong; the slice of L291 does not exceed the weights. -/
noncomputable def expandBlock (m : Blocks R A) (w : ℕ → ℝ) (p : String × String) : Except Err Expanded := do
  let b ← tabGet m.blocks (escPair p)
  let rg ← dictGet m.ranges p
  if b.dim = 0 ∨ (rg.2 - rg.1) % b.dim ≠ 0 then .error .runtime
  else
    let K := (rg.2 - rg.1) / b.dim
    let f := b.expand fun k e => w (rg.1 + (k * b.dim + e))
    let oc := m.outCount p.2
    let ic := m.inCount p.1
    if K * b.outSize * b.inSize * m.S ≠ oc * ic * b.outSize * b.inSize * m.S then .error .runtime
    else .ok ⟨oc, b.outSize, ic, b.inSize, m.S, fun co o ci i pt => f (co * ic + ci) o i pt⟩

/-- Entry `n` of the flattened tensor (row-major). -/
def Expanded.flat (e : Expanded) (n : ℕ) : ℝ :=
  e.get (n / e.S / e.i / e.ic / e.o) (n / e.S / e.i / e.ic % e.o) (n / e.S / e.i % e.ic) (n / e.S % e.i) (n % e.S)

/-- The number of entries. -/
def Expanded.numel (e : Expanded) : ℕ := e.oc * e.o * e.ic * e.i * e.S

/-- `expanded.reshape(r, c, S)`, basisexpansion_blocks.py L330 and L362. -/
def Expanded.reshape (e : Expanded) (r c S : ℕ) : Except Err Kern :=
  if e.numel = r * c * S then .ok ⟨r, c, fun a b p => e.flat ((a * c + b) * S + p)⟩ else .error .runtime

/-- `_filter[a:a', b:b', :] = K`, basisexpansion_blocks.py L358-362; slices are clamped, and sizes which differ raise `RuntimeError`
(`K` has the sizes `a' - a` and `b' - b`, so there is no broadcasting). -/
def setBlock (f : Kern) (a a' b b' : ℕ) (K : Kern) : Except Err Kern :=
  if K.rows = min a' f.rows - a ∧ K.cols = min b' f.cols - b then
    .ok ⟨f.rows, f.cols, fun r c p => if a ≤ r ∧ r < a' ∧ b ≤ c ∧ c < b' then K.get (r - a) (c - b) p else f.get r c p⟩
  else .error .runtime

/-- `_filter[O, I, :] = expanded.reshape(-1, S)`, basisexpansion_blocks.py L364-368, for lists of indices of equal length; for repeated
positions PyTorch does not specify which value is kept, here it is the first.  `reshape(-1, 0)` is ambiguous and raises `RuntimeError`. -/
def scatterBlock (f : Kern) (S : ℕ) (O I : List ℕ) (e : Expanded) : Except Err Kern :=
  if S = 0 then .error .runtime
  else if e.numel ≠ O.length * S ∨ O.length ≠ I.length then .error .runtime
  else if (O.all fun r => r < f.rows) && (I.all fun c => c < f.cols) then
    .ok ⟨f.rows, f.cols, fun r c p => if (r, c) ∈ O.zip I then e.flat ((O.zip I).idxOf (r, c) * S + p) else f.get r c p⟩
  else .error .index

/-- The assignment to `_filter`, basisexpansion_blocks.py L357-368. -/
def writeBlock (f : Kern) (S : ℕ) (contiguous : Bool) (oi ii : List ℕ) (e : Expanded) : Except Err Kern :=
  if contiguous then do
    let o0 ← pyGet oi 0
    let o1 ← pyGet oi 1
    let o2 ← pyGet oi 2
    let i0 ← pyGet ii 0
    let i1 ← pyGet ii 1
    let i2 ← pyGet ii 2
    let K ← e.reshape o2 i2 S
    setBlock f o0 o1 i0 i1 K
  else scatterBlock f S oi ii e

/-- The loop of `forward`, basisexpansion_blocks.py L341-368. -/
noncomputable def fwdLoop (m : Blocks R A) (w : ℕ → ℝ) : Kern → List (String × String) → Except Err Kern
  | f, [] => .ok f
  | f, p :: L => do
    let ii ← tabGet m.inIdx (escPair p)
    let oi ← tabGet m.outIdx (escPair p)
    let e ← m.expandBlock w p
    let c ← dictGet m.contiguous p
    let f ← writeBlock f m.S c oi ii e
    fwdLoop m w f L

/-- `forward`, basisexpansion_blocks.py L310-378, on a vector of `n` weights. -/
noncomputable def forward (m : Blocks R A) (n : ℕ) (w : ℕ → ℝ) : Except Err Kern :=
  if n ≠ m.dim then .error .assertion
  else if m.nPairs = 1 then do
    let p ← pyGet m.pairs 0
    let ii ← tabGet m.inIdx (escPair p)
    let oi ← tabGet m.outIdx (escPair p)
    let e ← m.expandBlock w p
    let o2 ← pyGet oi 2
    let i2 ← pyGet ii 2
    e.reshape o2 i2 m.S
  else fwdLoop m w ⟨m.outSize, m.inSize, fun _ _ _ => 0⟩ m.pairs

end Blocks

end Escnn
