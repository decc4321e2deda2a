import Verif.Model.Kernels

/-!
# Model of escnn/kernels/steerable_basis.py: SteerableKernelBasis, and of UnionBasis and AdjointBasis of basis.py
-/

namespace Escnn

open NpMat

/-! ### SteerableKernelBasis -/

/-- A pair of an input and an output irrep with a non-empty basis: the indices `ii`, `oo`, the first rows and columns and the sizes of the
block (steerable_basis.py L312-330), and `self.bases[ii][oo]`. -/
structure Cell (J J' A : Type) where
  ii : ℕ
  oo : ℕ
  iPos : ℕ
  iSize : ℕ
  oPos : ℕ
  oSize : ℕ
  basis : IBasis J J' A

/-- The attributes added by `SteerableKernelBasis.__getitem__` to those of the irrep basis, steerable_basis.py L499-517 (`shape` and the irreps
are determined by the indices; `irreps_basis_idx` is `base.idx`). -/
structure SAttr (J J' A : Type) where
  idx : ℕ
  j : J
  jIdx : ℕ
  inIdx : ℕ
  outIdx : ℕ
  base : IAttr J J' A

structure SKB (J J' A : Type) where
  dim : ℕ
  rows : ℕ
  cols : ℕ
  js : List J
  dimH : J → ℕ
  cells : List (Cell J J' A)
  slices : List (Cell J J' A × List (J × ℕ × ℕ))
  Ainv : NpMat ℝ
  B : NpMat ℝ

namespace SKB

variable {G J J' P A : Type} [DecidableEq J]

/-- `try … except EmptyBasisException: pass`, steerable_basis.py L244-255. -/
def tryBasis (r : Except Err (IBasis J J' A)) : Except Err (Option (IBasis J J' A)) :=
  match r with
  | .ok b => .ok (some b)
  | .error .emptyBasis => .ok none
  | .error e => .error e

/-- The loop over the output irreps, steerable_basis.py L264-270 and L317-329, for the input irrep `i`.  The loop of L241-255 stores the
result of the generator in a dictionary by the pair of irreps; the generator is a function of the pair. -/
def cellsOut (size : J' → ℕ) (gen : J' → J' → Except Err (IBasis J J' A)) (ii iPos : ℕ) (i : J') : ℕ → ℕ → List J' → Except Err (List (Cell J J' A))
  | _, _, [] => .ok []
  | oo, oPos, o :: L => do
    let b ← tryBasis (gen i o)
    let rest ← cellsOut size gen ii iPos i (oo + 1) (oPos + size o) L
    .ok (match b with
      | some b => ⟨ii, oo, iPos, size i, oPos, size o, b⟩ :: rest
      | none => rest)

/-- The loop over the input irreps, steerable_basis.py L261-270 and L315-330. -/
def cellsIn (size : J' → ℕ) (gen : J' → J' → Except Err (IBasis J J' A)) (out : List J') : ℕ → ℕ → List J' → Except Err (List (Cell J J' A))
  | _, _, [] => .ok []
  | ii, iPos, i :: L => do
    let a ← cellsOut size gen ii iPos i 0 0 out
    let rest ← cellsIn size gen out (ii + 1) (iPos + size i) L
    .ok (a ++ rest)

/-- `self._dim_harmonics[j]`, steerable_basis.py L268-271. -/
def dimHarm (cells : List (Cell J J' A)) (j : J) : ℕ := (cells.map fun c => if j ∈ c.basis.js then c.basis.dimH j else 0).sum

/-- `self._slices[(ii, oo)]` with the counter `basis_count`, steerable_basis.py L319-328. -/
def cellSlices (b : IBasis J J' A) : (J → ℕ) → List J → List (J × ℕ × ℕ) × (J → ℕ)
  | count, [] => ([], count)
  | count, j :: L =>
    let r := cellSlices b (Function.update count j (count j + b.dimH j)) L
    ((j, count j, count j + b.dimH j) :: r.1, r.2)

/-- `self._slices`, steerable_basis.py L312-330. -/
def slicesLoop : (J → ℕ) → List (Cell J J' A) → List (Cell J J' A × List (J × ℕ × ℕ))
  | _, [] => []
  | count, c :: L =>
    let r := cellSlices c.basis count c.basis.js
    (c, r.1) :: slicesLoop r.2 L

/-- `self.js`, steerable_basis.py L295-300. -/
def orderJs (triv : J) (L : List J) : List J := if triv ∈ L then triv :: L.erase triv else L

/-- `SteerableKernelBasis.__init__`, steerable_basis.py L170-330.  `gen` is `irreps_basis._generator` for the given filter basis, `triv` the
trivial irrep of the group of the filters. -/
def init (size : J' → ℕ) (triv : J) (F : FBasis J P A) (gen : J' → J' → Except Err (IBasis J J' A)) (rin rout : Rep G J') : Except Err (SKB J J' A) := do
  let cells ← cellsIn size gen rout.irreps 0 0 rin.irreps
  let dim := (cells.map fun c => c.basis.dim).sum
  if dim = 0 then .error .emptyBasis
  else
    .ok ⟨dim, rout.size, rin.size, orderJs triv ((F.js.map Prod.fst).filter fun j => cells.any fun c => decide (j ∈ c.basis.js)), dimHarm cells, cells,
      slicesLoop (fun _ => 0) cells, rin.cobInv, rout.cob⟩

/-- The assignment to `out[j][:, b_s:b_e, o_s:o_e, i_s:i_e]`, steerable_basis.py L455-458. -/
def writeBlock (out : J → ℕ → ℕ → ℕ → ℝ) (c : Cell J J' A) (j : J) (bs be : ℕ) (f : ℕ → ℕ → ℕ → ℝ) : J → ℕ → ℕ → ℕ → ℝ := fun j' b o i =>
  if j' = j ∧ (bs ≤ b ∧ b < be) ∧ (c.oPos ≤ o ∧ o < c.oPos + c.oSize) ∧ (c.iPos ≤ i ∧ i < c.iPos + c.iSize) then f (b - bs) (o - c.oPos) (i - c.iPos) else out j' b o i

/-- `self.bases[ii][oo].sample_harmonics(points, out=blocks)`, steerable_basis.py L456-459. -/
def writeCell (d : List (J × (ℕ → ℕ → ℝ))) (c : Cell J J' A) : (J → ℕ → ℕ → ℕ → ℝ) → List (J × ℕ × ℕ) → Except Err (J → ℕ → ℕ → ℕ → ℝ)
  | out, [] => .ok out
  | out, (j, bs, be) :: L => do
    let Y ← dictGet d j
    writeCell d c (writeBlock out c j bs be (c.basis.block j Y)) L

/-- `_sample_direct_sum`, steerable_basis.py L431-461, beginning with zeros. -/
def directSum (d : List (J × (ℕ → ℕ → ℝ))) : (J → ℕ → ℕ → ℕ → ℝ) → List (Cell J J' A × List (J × ℕ × ℕ)) → Except Err (J → ℕ → ℕ → ℕ → ℝ)
  | out, [] => .ok out
  | out, (c, sl) :: L => do
    let o ← writeCell d c out sl
    directSum d o L

open Classical in
/-- `_change_of_basis`, steerable_basis.py L463-479, with `A_inv` and `B` of L282-293: identities are not multiplied. -/
noncomputable def cobApply (Ainv B K : NpMat ℝ) : NpMat ℝ :=
  let a := ¬ Ainv ≈ eye Ainv.rows
  let b := ¬ B ≈ eye B.rows
  if a ∧ b then mul (mul B K) Ainv else if a then mul K Ainv else if b then mul B K else K

/-- The harmonic of entry `e`, steerable_basis.py L376-379 and L485-491: the views `out[:, B:B+dim_harmonic(j)]` in the order of `self.js`. -/
def entry (dimH : J → ℕ) : List J → ℕ → Except Err (J × ℕ)
  | [], _ => .error .index
  | j :: L, e => if e < dimH j then .ok (j, e) else entry dimH L (e - dimH j)

/-- `SteerableKernelBasis.sample`, steerable_basis.py L350-385, entry `e` at the point `x`. -/
noncomputable def sample (Fsize : J → ℕ) (F : FBasis J P A) (s : SKB J J' A) (x : P) (e : ℕ) : Except Err (NpMat ℝ) := do
  let out ← directSum (F.asDict Fsize x) (fun _ _ _ _ => 0) s.slices
  let r ← entry s.dimH s.js e
  .ok (cobApply s.Ainv s.B ⟨s.rows, s.cols, out r.1 r.2⟩)

/-- The loop of `__getitem__` over the pairs of irreps, steerable_basis.py L494-520, with `count = j_idx - rel`; without a matching pair the
method returns `None`. -/
def findCell (idx : ℕ) (j : J) (jIdx : ℕ) : ℕ → List (Cell J J' A) → Except Err (Option (SAttr J J' A))
  | _, [] => .ok none
  | rel, c :: L =>
    if rel < c.basis.dimH j then do
      let a ← c.basis.attrsJ j rel
      .ok (some ⟨idx, j, jIdx, c.ii, c.oo, a⟩)
    else findCell idx j jIdx (rel - c.basis.dimH j) L

/-- The loop of `__getitem__` over the harmonics, steerable_basis.py L484-492: the last `j` with the remaining index. -/
def getLoop (dimH : J → ℕ) : J → ℕ → List J → J × ℕ
  | j0, i, [] => (j0, i)
  | _, i, j :: L => if dimH j ≤ i then getLoop dimH j (i - dimH j) L else (j, i)

/-- `SteerableKernelBasis.__getitem__`, steerable_basis.py L481-520, for `idx ≥ 0`. -/
def getItem (s : SKB J J' A) (idx : ℕ) : Except Err (Option (SAttr J J' A)) :=
  if ¬ idx < s.dim then .error .assertion
  else match s.js with
    | [] => .error .runtime
    | j0 :: _ =>
      let r := getLoop s.dimH j0 idx s.js
      if r.2 < s.dimH r.1 then findCell idx r.1 r.2 r.2 s.cells else .error .assertion

/-- The items of one harmonic in `__iter__`, steerable_basis.py L526-551, before the counters are known. -/
def iterJ (cells : List (Cell J J' A)) (j : J) : Except Err (List (Cell J J' A × IAttr J J' A)) := do
  let L ← mapE (fun c : Cell J J' A => do
    let M ← c.basis.attrsIter j
    .ok (M.map fun a => (c, a))) cells
  .ok L.flatten

/-- `SteerableKernelBasis.__iter__`, steerable_basis.py L522-552, as the list of its items; `assert idx < self.dim` at L547. -/
def iter (s : SKB J J' A) : Except Err (List (SAttr J J' A)) := do
  let L ← mapE (fun j => do
    let M ← iterJ s.cells j
    .ok (M.zipIdx.map fun e => (j, e.2, e.1))) s.js
  let M := L.flatten
  if M.length ≤ s.dim then .ok (M.zipIdx.map fun e => ⟨e.2, e.1.1, e.1.2.1, e.1.2.2.1.ii, e.1.2.2.1.oo, e.1.2.2.2⟩) else .error .assertion

end SKB

/-! ### basis.py: UnionBasis, AdjointBasis -/

/-- The interface `KernelBasis`, basis.py L20-100. -/
structure KB (P α : Type) where
  dim : ℕ
  rows : ℕ
  cols : ℕ
  sample : P → ℕ → Except Err (NpMat ℝ)
  getItem : ℕ → Except Err α
  iter : Except Err (List α)

/-- The attributes set by `UnionBasis`: `idx`, `basis_id`, and those of the element (`basis_idx` is its `idx`). -/
structure UAttr (α : Type) where
  idx : ℕ
  basisId : ℕ
  base : α

namespace Union

variable {P α : Type}

/-- `out[:, p:p+basis.dim]` written by each basis, basis.py L200-206. -/
def sample (x : P) : ℕ → List (KB P α) → Except Err (NpMat ℝ)
  | _, [] => .error .index
  | e, b :: L => if e < b.dim then b.sample x e else sample x (e - b.dim) L

/-- The loop of `__getitem__`, basis.py L212-221, with the remaining index `idx - p`; it returns `i` and `self._bases[i][idx - p]`.  After the
assertion `idx < self.dim` the loop ends with `break`. -/
def getLoop : ℕ → ℕ → List (KB P α) → Except Err (ℕ × α)
  | _, _, [] => .error .index
  | i, r, b :: L =>
    if r < b.dim then do
      let a ← b.getItem r
      .ok (i, a)
    else getLoop (i + 1) (r - b.dim) L

/-- `UnionBasis.__init__`, basis.py L169-190, and the methods. -/
def init (bs : List (KB P α)) : Except Err (KB P (UAttr α)) :=
  match bs with
  | [] => .error .emptyBasis
  | b0 :: _ =>
    if ¬ bs.all fun b => b.rows = b0.rows ∧ b.cols = b0.cols then .error .assertion
    else if (bs.map KB.dim).sum = 0 then .error .emptyBasis
    else .ok ⟨(bs.map KB.dim).sum, b0.rows, b0.cols, fun x e => sample x e bs,
      fun idx => if ¬ idx < (bs.map KB.dim).sum then .error .assertion else do
        let a ← getLoop 0 idx bs
        .ok ⟨idx, a.1, a.2⟩,
      do
        let L ← mapE (fun b : KB P α × ℕ => do
          let M ← b.1.iter
          .ok (M.map fun a => (b.2, a))) bs.zipIdx
        let M := L.flatten
        if M.length ≤ (bs.map KB.dim).sum then .ok (M.zipIdx.map fun e => ⟨e.2, e.1.1, e.1.2⟩) else .error .assertion⟩

end Union

end Escnn
