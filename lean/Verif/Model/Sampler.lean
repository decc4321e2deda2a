import Verif.Model.Expansion

/-!
# Model of `escnn/nn/modules/basismanager`: `SingleBlockBasisSampler` and `BlocksBasisSampler`

As in `Model/Expansion.lean`, `R` is an arbitrary type of representations with the functions `nm` (name) and `sz` (size); equality of
representations is equality in `R`.  `X` is the type of the points.
-/

namespace Escnn

/-- A `KernelBasis`, kernels/basis.py L20-100: the shape of its kernels, the attributes yielded by its iterator, and the result of `sample(points)` with the axes permuted as in
basissampler_singleblock.py L66 (point, row, column, element). -/
structure PBasis (X A : Type) where
  outSize : ℕ
  inSize : ℕ
  attrs : List (Attr A)
  sample : List X → ℕ → ℕ → ℕ → ℕ → ℝ

/-- The attributes of `SingleBlockBasisSampler`, basissampler_singleblock.py L28-59. -/
structure PBlock (X A : Type) where
  basis : PBasis X A
  mask : List Bool

namespace PBlock

variable {X A : Type}

/-- `SingleBlockBasisSampler.__init__`, basissampler_singleblock.py L15-59. -/
def init (basis : PBasis X A) (mask : List Bool) : Except Err (PBlock X A) :=
  if mask.length ≠ basis.attrs.length then .error .assertion
  else if ¬ mask.any id then .error .emptyBasis
  else .ok ⟨basis, mask⟩

/-- `block_basissampler`, basissampler_singleblock.py L116-147.  The dictionary `_stored_filters` returns an object built from an equal basis and mask. -/
def ofFilter (basis : PBasis X A) (basisFilter : Option (Attr A → Bool)) : Except Err (PBlock X A) :=
  match basisFilter with
  | some f => init basis (basis.attrs.map f)
  | none => init basis (basis.attrs.map fun _ => true)

/-- The positions selected by the mask, as in `basis[:, :, :, mask]`. -/
def kept (b : PBlock X A) : List ℕ := (b.mask.zipIdx.filter Prod.fst).map Prod.snd

/-- `dimension`, basissampler_singleblock.py L94-95. -/
def dim (b : PBlock X A) : ℕ := b.mask.count true

/-- `forward`, basissampler_singleblock.py L61-74: entry `(p, o, i, k)`. -/
noncomputable def sample (b : PBlock X A) (pts : List X) (p o i k : ℕ) : ℝ :=
  let e := b.kept[k]?.getD 0
  b.basis.sample pts p o i e * ((b.basis.attrs[e]?.map fun a => (a.shape0 : ℝ)).getD 0)

end PBlock

/-- The attributes of `BlocksBasisSampler`, basissampler_blocks.py L46-149; `blocks`, `inIdx`, `outIdx` hold the attributes `block_sampler_…`, `in_indices_…`, `out_indices_…` under the pair of names. -/
structure Sampler (X A : Type) where
  inSize : ℕ
  outSize : ℕ
  inSizes : List (String × ℕ)
  blocks : List ((String × String) × PBlock X A)
  pairs : List (String × String)
  uniform : Bool
  inCount : String → ℕ
  outCount : String → ℕ
  contiguous : List ((String × String) × Bool)
  inIdx : List ((String × String) × List ℕ)
  outIdx : List ((String × String) × List ℕ)
  ranges : List ((String × String) × (ℕ × ℕ))
  dim : ℕ

namespace Sampler

variable {R X A : Type} (nm : R → String) (sz : R → ℕ)

/-- Whether `add_module` accepts the name `block_sampler_('a', 'b')`: a name with a dot raises `KeyError` (the names are not escaped here, unlike in `BlocksBasisExpansion`). -/
def noDot (s : String) : Bool := s.toList.all fun c => decide (c ≠ '.')

/-- The body of the `try`, basissampler_blocks.py L68-75: `basis_generator`, `block_basissampler` and `add_module`. -/
def blockFor (bg : R → R → Except Err (PBasis X A)) (basisFilter : Option (Attr A → Bool)) (i o : R) : Except Err (PBlock X A) := do
  let k ← bg i o
  let b ← PBlock.ofFilter k basisFilter
  if noDot (nm i) && noDot (nm o) then .ok b else .error .key

/-- The loop over the pairs of representations, basissampler_blocks.py L63-79: the dictionary `_block_sampler_modules`. -/
def collect (gen : R → R → Except Err (PBlock X A)) : List (R × R) → Except Err (List ((String × String) × PBlock X A))
  | [] => .ok []
  | (i, o) :: L =>
    match gen i o with
    | .ok b => do
      let d ← collect gen L
      .ok (((nm i, nm o), b) :: d)
    | .error .emptyBasis => collect gen L
    | .error e => .error e

/-- The body of the loop, basissampler_blocks.py L107-134: the flag and the input and output indices of a pair. -/
def pairIndices (inR outR : List R) (p : String × String) : Except Err (Bool × List ℕ × List ℕ) := do
  let I := Blocks.indices nm sz inR p.1
  let O := Blocks.indices nm sz outR p.2
  let ci ← checkConsecutive I
  let co ← checkConsecutive O
  if ci && co then do
    let i ← Blocks.bounds I
    let o ← Blocks.bounds O
    .ok (true, i, o)
  else .ok (false, I, O)

/-- The weight ranges, basissampler_blocks.py L136-149, from position `last` on, and the final position. -/
def rangesLoop (mods : List ((String × String) × PBlock X A)) (ic oc : String → ℕ) : ℕ → List (String × String) → Except Err (List ((String × String) × (ℕ × ℕ)) × ℕ)
  | last, [] => .ok ([], last)
  | last, p :: L => do
    let b ← dictGet mods p
    let total := b.dim * (ic p.1 * oc p.2)
    let r ← rangesLoop mods ic oc (last + total) L
    .ok ((p, (last, last + total)) :: r.1, r.2)

/-- `all(r == rs[0] for r in rs)`, basissampler_blocks.py L55-56. -/
def allSame [DecidableEq R] : List R → Bool
  | [] => true
  | r :: L => L.all fun r' => decide (r' = r)

/-- `BlocksBasisSampler.__init__`, basissampler_blocks.py L44-151; `uin`, `uout` list the sets of representations in the order in which Python iterates over them; `gen` is `blockFor`.  `retrieve_indices` (L97-98) runs
`check_consecutive_numbers` on the indices of all the names. -/
def init [DecidableEq R] (gen : R → R → Except Err (PBlock X A)) (uin uout inR outR : List R) : Except Err (Sampler X A) := do
  let mods ← collect nm gen (uin.flatMap fun i => uout.map fun o => (i, o))
  let pairs := ((mods.map Prod.fst).dedup).mergeSort pairLe
  let nPairs := uin.length * uout.length
  let uniform := allSame inR && allSame outR
  pyAssert (!uniform || decide (nPairs ≤ 1))
  let _ ← mapE (fun n => checkConsecutive (Blocks.indices nm sz inR n)) (inR.map nm)
  let _ ← mapE (fun n => checkConsecutive (Blocks.indices nm sz outR n)) (outR.map nm)
  let t ← mapE (fun p => do
    let e ← pairIndices nm sz inR outR p
    .ok (p, e)) pairs
  let r ← rangesLoop mods (Blocks.count nm inR) (Blocks.count nm outR) 0 pairs
  .ok ⟨(inR.map sz).sum, (outR.map sz).sum, inR.map fun r => (nm r, sz r), mods, pairs, uniform && decide (nPairs = 1),
    Blocks.count nm inR, Blocks.count nm outR, t.map fun e => (e.1, e.2.1), t.map fun e => (e.1, e.2.2.1), t.map fun e => (e.1, e.2.2.2),
    r.1, r.2⟩

/-! ### expanding the filter first -/

/-- A tensor of shape `(S, oc, o, ic, i)`. -/
structure Expanded where
  S : ℕ
  oc : ℕ
  o : ℕ
  ic : ℕ
  i : ℕ
  get : ℕ → ℕ → ℕ → ℕ → ℕ → ℝ

/-- Entry `n` of the flattened tensor at the point `p` (row-major). -/
def Expanded.flat (e : Expanded) (p n : ℕ) : ℝ := e.get p (n / e.i / e.ic / e.o) (n / e.i / e.ic % e.o) (n / e.i % e.ic) (n % e.i)

/-- A tensor of shape `(S, rows, cols)`. -/
structure Filters where
  S : ℕ
  rows : ℕ
  cols : ℕ
  get : ℕ → ℕ → ℕ → ℝ

/-- `_contract_basis_block`, basissampler_blocks.py L302-327: `einsum('ujk,poik->pujoi', …).permute(0, 1, 3, 2, 4)`. A slice of the wrong length makes `view` raise `RuntimeError`. -/
noncomputable def contractBlock (m : Sampler X A) (w : ℕ → ℝ) (pts : List X) (p : String × String) : Except Err Expanded := do
  let b ← tabGet m.blocks p
  let rg ← dictGet m.ranges p
  let oc := m.outCount p.2
  let ic := m.inCount p.1
  if rg.2 - rg.1 ≠ oc * ic * b.dim then .error .runtime
  else .ok ⟨pts.length, oc, b.basis.outSize, ic, b.basis.inSize,
    fun pt u o j i => ∑ k ∈ Finset.range b.dim, w (rg.1 + ((u * ic + j) * b.dim + k)) * b.sample pts pt o i k⟩

/-- `expanded.reshape(S, r, c)`, basissampler_blocks.py L352 and L385: as the first axis does not change, the entries of each point are reshaped. -/
def Expanded.reshape (e : Expanded) (r c : ℕ) : Except Err Filters :=
  if e.S * (e.oc * e.o * e.ic * e.i) = e.S * (r * c) then .ok ⟨e.S, r, c, fun p a b => e.flat p (a * c + b)⟩ else .error .runtime

/-- `_filter[:, a:a', b:b'] = K`, basissampler_blocks.py L381-385; slices are clamped, and sizes which differ raise `RuntimeError` (`K` has the sizes `a' - a` and `b' - b`, so there is no broadcasting). -/
def setBlock (f : Filters) (a a' b b' : ℕ) (K : Filters) : Except Err Filters :=
  if K.rows = min a' f.rows - a ∧ K.cols = min b' f.cols - b then
    .ok ⟨f.S, f.rows, f.cols, fun p r c => if a ≤ r ∧ r < a' ∧ b ≤ c ∧ c < b' then K.get p (r - a) (c - b) else f.get p r c⟩
  else .error .runtime

/-- `meshgrid([O, I], indexing='ij')` flattened, basissampler_blocks.py L387-389: the pairs of an output and an input index, the input index varying fastest. -/
def mesh (O I : List ℕ) : List (ℕ × ℕ) := O.flatMap fun o => I.map fun i => (o, i)

/-- `_filter[:, O, I] = expanded.reshape(S, -1)`, basissampler_blocks.py L387-394, with `O`, `I` from the mesh; for repeated positions PyTorch does not specify which value is kept, here it is the first.  `reshape(0, -1)` is ambiguous and raises
`RuntimeError`. -/
def scatterBlock (f : Filters) (O I : List ℕ) (e : Expanded) : Except Err Filters :=
  if e.S = 0 then .error .runtime
  else if e.oc * e.o * e.ic * e.i ≠ (mesh O I).length then .error .runtime
  else if (mesh O I).all fun q => q.1 < f.rows && q.2 < f.cols then
    .ok ⟨f.S, f.rows, f.cols, fun p r c => if (r, c) ∈ mesh O I then e.flat p ((mesh O I).idxOf (r, c)) else f.get p r c⟩
  else .error .index

/-- The assignment to `_filter`, basissampler_blocks.py L380-394. -/
def writeBlock (f : Filters) (contiguous : Bool) (oi ii : List ℕ) (e : Expanded) : Except Err Filters :=
  if contiguous then do
    let o0 ← pyGet oi 0
    let o1 ← pyGet oi 1
    let o2 ← pyGet oi 2
    let i0 ← pyGet ii 0
    let i1 ← pyGet ii 1
    let i2 ← pyGet ii 2
    let K ← e.reshape o2 i2
    setBlock f o0 o1 i0 i1 K
  else scatterBlock f oi ii e

/-- The loop of `forward`, basissampler_blocks.py L361-394. The lazy allocation of L371-378 does not change the values. -/
noncomputable def fwdLoop (m : Sampler X A) (w : ℕ → ℝ) (pts : List X) : Filters → List (String × String) → Except Err Filters
  | f, [] => .ok f
  | f, p :: L => do
    let ii ← tabGet m.inIdx p
    let oi ← tabGet m.outIdx p
    let e ← m.contractBlock w pts p
    let c ← dictGet m.contiguous p
    let f ← writeBlock f c oi ii e
    fwdLoop m w pts f L

/-- `forward`, basissampler_blocks.py L329-406, on a vector of `n` weights. -/
noncomputable def forward (m : Sampler X A) (n : ℕ) (w : ℕ → ℝ) (pts : List X) : Except Err Filters :=
  if n ≠ m.dim then .error .assertion
  else if m.uniform then do
    let p ← pyGet m.pairs 0
    let e ← m.contractBlock w pts p
    e.reshape m.outSize m.inSize
  else fwdLoop m w pts ⟨pts.length, m.outSize, m.inSize, fun _ _ _ => 0⟩ m.pairs

/-- A tensor of shape `(S, cols)`. -/
structure Feats where
  S : ℕ
  cols : ℕ
  get : ℕ → ℕ → ℝ

/-- `_expand_filter_then_compute`, basissampler_blocks.py L408-420: `einsum('pgoi,pgi->pgo', _filter, input)`.  The filter has the sizes of `forward`; the calls of `view` need the right numbers of entries. -/
noncomputable def expandThenCompute (m : Sampler X A) (n : ℕ) (w : ℕ → ℝ) (x : Feats) (pts : List X) (groups : ℕ) : Except Err Feats := do
  let F ← m.forward n w pts
  if ¬ 0 < x.S then .error .assertion
  else if x.cols ≠ groups * m.inSize ∨ F.rows * F.cols ≠ groups * (m.outSize / groups) * m.inSize ∨ F.S ≠ x.S then .error .runtime
  else
    let u := m.outSize / groups
    .ok ⟨x.S, m.outSize, fun p c => ∑ i ∈ Finset.range m.inSize, F.get p (c / u * u + c % u) i * x.get p (c / u * m.inSize + i)⟩

/-! ### computing the features first -/

/-- A tensor of shape `(S, groups, n, i)`. -/
structure GFeats where
  S : ℕ
  groups : ℕ
  n : ℕ
  i : ℕ
  get : ℕ → ℕ → ℕ → ℕ → ℝ

/-- A tensor of shape `(S, groups, cols)`. -/
structure GIn where
  S : ℕ
  groups : ℕ
  cols : ℕ
  get : ℕ → ℕ → ℕ → ℝ

/-- `_input.view(S, groups, n, i)`, basissampler_blocks.py L441 and L462. -/
def GIn.view (x : GIn) (n i : ℕ) : Except Err GFeats :=
  if x.S * (x.groups * x.cols) = x.S * (x.groups * (n * i)) then .ok ⟨x.S, x.groups, n, i, fun p g a b => x.get p g (a * i + b)⟩ else .error .runtime

/-- `_compute_out_block`, basissampler_blocks.py L270-300: `einsum('gujk,poik,pgji->pguo', coefficients, _basis, input)`, as a tensor of shape `(S, groups, oc // groups, o)`.  Sizes of an axis which differ raise `RuntimeError`; the broadcasting of axes of size `1` is not modelled
(the basis has the sizes of the representations). -/
noncomputable def computeOut (m : Sampler X A) (w : ℕ → ℝ) (x : GFeats) (pts : List X) (p : String × String) : Except Err GFeats := do
  let b ← tabGet m.blocks p
  let rg ← dictGet m.ranges p
  let u := m.outCount p.2 / x.groups
  let j := m.inCount p.1
  if rg.2 - rg.1 ≠ x.groups * u * j * b.dim then .error .runtime
  else if x.i ≠ b.basis.inSize ∨ x.n ≠ j ∨ x.S ≠ pts.length then .error .runtime
  else .ok ⟨x.S, x.groups, u, b.basis.outSize, fun pt g a o =>
    ∑ c ∈ Finset.range j, ∑ k ∈ Finset.range b.dim, ∑ i ∈ Finset.range b.basis.inSize,
      w (rg.1 + (((g * u + a) * j + c) * b.dim + k)) * b.sample pts pt o i k * x.get pt g c i⟩

/-- `block_out.reshape(S, n)`, basissampler_blocks.py L442 and L466. -/
def GFeats.reshape (x : GFeats) (n : ℕ) : Except Err Feats :=
  if x.S * (x.groups * x.n * x.i) = x.S * n then .ok ⟨x.S, n, fun p c => x.get p (c / x.i / x.n) (c / x.i % x.n) (c % x.i)⟩ else .error .runtime

/-- `input[:, :, a:b]` or `input[:, :, idx]`, basissampler_blocks.py L456-459. -/
def GIn.read (x : GIn) (contiguous : Bool) (idx : List ℕ) : Except Err GIn :=
  if contiguous then do
    let a ← pyGet idx 0
    let b ← pyGet idx 1
    .ok ⟨x.S, x.groups, min b x.cols - a, fun p g c => x.get p g (a + c)⟩
  else if idx.all fun i => i < x.cols then .ok ⟨x.S, x.groups, idx.length, fun p g c => x.get p g (idx[c]?.getD 0)⟩ else .error .index

/-- `_out[:, a:b] += d` or `_out[:, idx] += d`, basissampler_blocks.py L466-468.  One column is broadcast; a repeated index receives one of the values. -/
def Feats.addTo (out : Feats) (contiguous : Bool) (idx : List ℕ) (groups : ℕ) (y : GFeats) : Except Err Feats :=
  if contiguous then do
    let a ← pyGet idx 0
    let b ← pyGet idx 1
    let n ← pyGet idx 2
    let d ← y.reshape (groups * n)
    if d.cols = min b out.cols - a then .ok ⟨out.S, out.cols, fun p c => if a ≤ c ∧ c < b then out.get p c + d.get p (c - a) else out.get p c⟩
    else if d.cols = 1 then .ok ⟨out.S, out.cols, fun p c => if a ≤ c ∧ c < b then out.get p c + d.get p 0 else out.get p c⟩
    else .error .runtime
  else do
    let d ← y.reshape (y.groups * y.n * y.i)
    if ¬ idx.all fun i => i < out.cols then .error .index
    else if d.cols = idx.length then .ok ⟨out.S, out.cols, fun p c => if c ∈ idx then out.get p c + d.get p (idx.idxOf c) else out.get p c⟩
    else if d.cols = 1 then .ok ⟨out.S, out.cols, fun p c => if c ∈ idx then out.get p c + d.get p 0 else out.get p c⟩
    else .error .runtime

/-- The loop of `_compute_then_expand_filter`, basissampler_blocks.py L449-469. -/
noncomputable def cmpLoop (m : Sampler X A) (w : ℕ → ℝ) (x : GIn) (pts : List X) : Feats → List (String × String) → Except Err Feats
  | out, [] => .ok out
  | out, p :: L => do
    let ii ← tabGet m.inIdx p
    let oi ← tabGet m.outIdx p
    let c ← dictGet m.contiguous p
    let d ← x.read c ii
    let s ← dictGet m.inSizes p.1
    let d ← d.view (m.inCount p.1) s
    let y ← m.computeOut w d pts p
    let out ← out.addTo c oi x.groups y
    cmpLoop m w x pts out L

/-- `_compute_then_expand_filter`, basissampler_blocks.py L422-471. -/
noncomputable def computeThenExpand (m : Sampler X A) (w : ℕ → ℝ) (x : Feats) (pts : List X) (groups : ℕ) : Except Err Feats :=
  if ¬ 0 < x.S then .error .assertion
  else if x.cols ≠ groups * m.inSize then .error .runtime
  else
    let x3 : GIn := ⟨x.S, groups, m.inSize, fun p g c => x.get p (g * m.inSize + c)⟩
    if m.uniform then do
      let p ← pyGet m.pairs 0
      let s ← dictGet m.inSizes p.1
      let d ← x3.view (m.inCount p.1) s
      let y ← m.computeOut w d pts p
      y.reshape m.outSize
    else cmpLoop m w x3 pts ⟨x.S, m.outSize, fun _ _ => 0⟩ m.pairs

/-- `compute_messages`, basissampler_blocks.py L473-528, with `n` weights; `groups ≥ 1` (for `0`, Python raises `ZeroDivisionError` in L523). -/
noncomputable def messages (m : Sampler X A) (n : ℕ) (w : ℕ → ℝ) (x : Feats) (pts : List X) (convFirst : Bool) (groups : ℕ) : Except Err Feats :=
  if n ≠ m.dim ∨ x.cols ≠ m.inSize * groups ∨ x.S ≠ pts.length ∨ m.outSize % groups ≠ 0 then .error .assertion
  else if convFirst then m.computeThenExpand w x pts groups
  else m.expandThenCompute n w x pts groups

end Sampler

end Escnn
