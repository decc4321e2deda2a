import Verif.Model.Rep

/-!
# Model of `escnn.group.disentangle`
-/

namespace Escnn

open NpMat

noncomputable section

/-- `M[np.ix_(R, C)]` -/
def NpMat.ix {S : Type} [CommRing S] (M : NpMat S) (R C : List ℕ) : NpMat S :=
  ⟨R.length, C.length, fun a b => M.get (R.getD a 0) (C.getD b 0)⟩

variable {G Id : Type}

/-- `irreps_pos = np.cumsum([0] + sizes)`, representation.py L664. -/
def irrepsPos (sizes : List ℕ) (i : ℕ) : ℕ := (sizes.take i).sum

/-- `list(range(irreps_pos[irr], irreps_pos[irr] + irreps[irr].size))`, representation.py L703. -/
def irrepCols (sizes : List ℕ) (i : ℕ) : List ℕ := (List.range (sizes.getD i 0)).map (irrepsPos sizes i + ·)

/-- The mask: irrep `i` touches row `a` of the change of basis, representation.py L660-673 (`isclose` to zero is equality
with zero). -/
def cobMask (sizes : List ℕ) (cob : NpMat ℝ) (i a : ℕ) : Prop := ∃ c ∈ irrepCols sizes i, cob.get a c ≠ 0

/-- The bipartite graph between the irreps (vertices `< n`) and the rows (vertices `n + a`), representation.py L675-677. -/
def disGraph (sizes : List ℕ) (cob : NpMat ℝ) (u v : ℕ) : Prop :=
  (u < sizes.length ∧ sizes.length ≤ v ∧ cobMask sizes cob u (v - sizes.length)) ∨
  (v < sizes.length ∧ sizes.length ≤ u ∧ cobMask sizes cob v (u - sizes.length))

/-- `blocks[β][0]`, representation.py L682-687, already sorted (L695). -/
def blockIrreps (n : ℕ) (labels : ℕ → ℕ) (β : ℕ) : List ℕ := (List.range n).filter fun i => labels i = β

/-- `blocks[β][1]`, representation.py L688-689, already sorted (L696). -/
def blockRows (n rsize : ℕ) (labels : ℕ → ℕ) (β : ℕ) : List ℕ := (List.range rsize).filter fun a => labels (n + a) = β

/-- `col_indices`, representation.py L702-704. -/
def blockCols (sizes : List ℕ) (labels : ℕ → ℕ) (β : ℕ) : List ℕ :=
  (blockIrreps sizes.length labels β).flatMap (irrepCols sizes)

/-- `change_of_basis[current:next, rows] = np.eye(len(rows))`, representation.py L717-718. -/
def setEyeRows (P : NpMat ℝ) (cur : ℕ) (rows : List ℕ) : NpMat ℝ :=
  ⟨P.rows, P.cols, fun a b =>
    if cur ≤ a ∧ a < cur + rows.length ∧ b ∈ rows then (if rows.getD (a - cur) 0 = b then 1 else 0) else P.get a b⟩

/-- The loop over the blocks, representation.py L691-720.  `labels` is the output of `connected_components` (L679). -/
def disLoop (T : IrrepTable G Id) (taken : List String) (r : Rep G Id) (labels : ℕ → ℕ) :
    List ℕ → ℕ → NpMat ℝ → Except Err (NpMat ℝ × List (Rep G Id))
  | [], _, P => .ok (P, [])
  | β :: L, cur, P =>
    let sizes := r.irreps.map T.size
    let irr := blockIrreps sizes.length labels β
    let rows := blockRows sizes.length r.size labels β
    let cols := blockCols sizes labels β
    if (irr.map fun i => sizes.getD i 0).sum ≠ rows.length then .error .assertion
    else if cols.length ≠ rows.length then .error .assertion
    else match mkRep T taken (r.name ++ "_" ++ toString β) (irr.filterMap fun i => r.irreps[i]?) (r.cob.ix rows cols) r.nonlin none with
      | .error e => .error e
      | .ok field =>
        match disLoop T taken r labels L (cur + rows.length) (setEyeRows P cur rows) with
        | .error e => .error e
        | .ok (P', fields) => .ok (P', field :: fields)

/-- `disentangle`, representation.py L588-722, given the output `(nBlocks, labels)` of SciPy's `connected_components`. -/
def disentangle (T : IrrepTable G Id) (taken : List String) (r : Rep G Id) (nBlocks : ℕ) (labels : ℕ → ℕ) :
    Except Err (NpMat ℝ × List (Rep G Id)) :=
  disLoop T taken r labels (List.range nBlocks) 0 (zeros r.cob.rows r.cob.cols)

end

end Escnn
