import Verif.Model.Induced
import Verif.Model.Fourier
import Verif.Model.Sparse

/-!
# Model of the harmonics of `HomSpace` (escnn/group/homspace.py) and of the constructor of `SparseOrbitBasis`
-/

namespace Escnn

open NpMat

noncomputable section

variable {G H Id : Type}

/-- `HomSpace.basis(g, rho, psi)`, homspace.py L75-159, with `B = self._dirac_kernel_ft(rho.id, psi.id)`; the list index is the middle axis of the array.
`scalar_basis` (L279-317) is the case of the trivial `psi`. -/
def homBasis (T : IrrepTable G Id) (rho : Id) (B : List (NpMat ℝ)) (g : G) : List (NpMat ℝ) := B.map (mul (T.mat rho g))

/-- The loop of `complete_basis`, homspace.py L442-452: `basis(g, rho, psi)[:, :, 0].T.reshape(-1)` of the irreps, one after the other. -/
def completeLoop (T : IrrepTable G Id) (kernel : Id → Except Err (List (NpMat ℝ))) (g : G) : List Id → Except Err (List ℝ)
  | [] => .ok []
  | i :: L => do
    let B ← kernel i
    let R ← completeLoop T kernel g L
    .ok (((homBasis T i B g).flatMap fun M => (List.range M.rows).map fun o => M.get o 0) ++ R)

/-- `complete_basis`, homspace.py L393-454.  `mult i` is `m_psi * psi.sum_of_squares_constituents` for the irrep `i`.  The array is allocated with the
size of `induced_representation`; entries which do not fit raise, missing ones are left out of the model.  A representation of size 0 (L439-440) is an
error here as in `spectralRep`. -/
def completeBasis (T : IrrepTable G Id) (mult ssc : Id → ℕ) (kernel : Id → Except Err (List (NpMat ℝ))) (name : String) (irreps : List Id) (g : G) :
    Except Err (List ℝ) := do
  let r ← spectralRep T mult ssc name irreps
  let v ← completeLoop T kernel g irreps
  if v.length = r.size then .ok v else .error .value

/-- The product `M @ v` of a matrix and a vector of coordinates. -/
def appVec (M : NpMat ℝ) (v : ℕ → ℝ) (a : ℕ) : ℝ := ∑ b ∈ Finset.range M.cols, M.get a b * v b

open Classical in
/-- The indices returned by `np.unique(keys, return_index=True)`, sparse_basis.py L94-97: the first position of every value, sorted by the
value.  The order `le` of the values is an argument. -/
def uniqueIdx {K : Type} (le : K → K → Bool) (keys : List K) : List ℕ :=
  ((List.range keys.length).filter fun i => decide (∀ k < i, keys[k]? ≠ keys[i]?)).mergeSort fun i k =>
    match keys[i]?, keys[k]? with
    | some a, some b => le a b
    | _, _ => true

/-- The list `js`, sparse_basis.py L73-77; `G.irrep(*j)` raises for ids which are not those of an irrep. -/
def sparseJs (T : IrrepTable G Id) (mult ssc : Id → ℕ) : List Id → Except Err (List (Id × ℕ))
  | [] => .ok []
  | j :: L =>
    if T.ok j = false then .error .assertion
    else do
      let m ← dimensionBasis mult ssc j
      let R ← sparseJs T mult ssc L
      .ok (if 0 < m then (j, m) :: R else R)

/-- The assertion on the shape of the buffers, sparse_basis.py L104-110: `scalar_basis` has as many columns as slices in the kernel. -/
def sparseCheck (kernel : Id → Except Err (List (NpMat ℝ))) : List (Id × ℕ) → Except Err Unit
  | [] => .ok ()
  | (j, m) :: L => do
    let B ← kernel j
    if B.length = m then sparseCheck kernel L else .error .assertion

/-- The buffer `harmonics_j`, sparse_basis.py L106-112: `scalar_basis(elements[idx[i]], j)[..., 0].T`. -/
def sparseHarm (T : IrrepTable G Id) (kernel : Id → Except Err (List (NpMat ℝ))) (els : List G) (idx : List ℕ) (j : Id) (i r c : ℕ) : ℝ :=
  match kernel j with
  | .error _ => 0
  | .ok B =>
    match (idx[i]?).bind (els[·]?) with
    | none => 0
    | some g =>
      match (homBasis T j B g)[r]? with
      | none => 0
      | some M => M.get c 0

/-- Row `i` of `points`, sparse_basis.py L91-98. -/
def sparsePoint (action : Rep G Id) (root : List ℝ) (els : List G) (idx : List ℕ) (i : ℕ) : ℕ → ℝ :=
  match (idx[i]?).bind (els[·]?) with
  | none => fun _ => 0
  | some g => appVec (action.mat g) fun a => root.getD a 0

/-- The rounded columns of the points, sparse_basis.py L91-95; the rounding of a number to four decimals is the argument `rnd`. -/
def sparseKeys (rnd : ℝ → ℝ) (action : Rep G Id) (root : List ℝ) (els : List G) : List (List ℝ) :=
  els.map fun g => (List.range action.size).map fun a => rnd (appVec (action.mat g) (fun a => root.getD a 0) a)

open Classical in
/-- The change of basis of the points, sparse_basis.py L117-124: `cond` is finite for the invertible matrices. -/
def sparseCob (d : ℕ) : Option (NpMat ℝ) → Except Err (NpMat ℝ)
  | none => .ok (eye d)
  | some C =>
    if ¬ (C.rows = d ∧ C.cols = d) then .error .assertion
    else if ¬ ∃ D, IsInv C D then .error .assertion
    else .ok C

open Classical in
/-- `SparseOrbitBasis.__init__`, sparse_basis.py L15-130.  `order` are the elements of the group if it is finite (L68), `irreps` the ids of all its irreps
(L70-71), `hels` the elements of the subgroup with the inclusion `parent`, `kernel j` is `_dirac_kernel_ft(j, trivial)`.  `np.allclose` of L89 is equality,
`points @ C.T` (L124) are the vectors `C p`. -/
def sparseInit (T : IrrepTable G Id) (mult ssc : Id → ℕ) (kernel : Id → Except Err (List (NpMat ℝ))) (irreps : List Id) (order : Option (List G))
    (hels : List H) (parent : H → G) (rnd : ℝ → ℝ) (le : List ℝ → List ℝ → Bool) (action : Rep G Id) (root : List ℝ) (sigma : ℝ)
    (harmonics : Option (List Id)) (cob : Option (NpMat ℝ)) : Except Err (Sparse Id) :=
  match order with
  | none => .error .assertion
  | some els =>
    if els = [] then .error .assertion
    else do
      let js ← sparseJs T mult ssc (harmonics.getD irreps)
      if root.length ≠ action.size then .error .assertion
      else if ¬ ∀ h ∈ hels, ∀ a < action.size, root.getD a 0 = appVec (action.mat (parent h)) (fun a => root.getD a 0) a then .error .assertion
      else if (uniqueIdx le (sparseKeys rnd action root els)).length * hels.length ≠ els.length then .error .assertion
      else if ¬ 0 < sigma then .error .assertion
      else do
        sparseCheck kernel js
        let C ← sparseCob action.size cob
        .ok ⟨js, action.size, (uniqueIdx le (sparseKeys rnd action root els)).length,
          fun i => appVec C (sparsePoint action root els (uniqueIdx le (sparseKeys rnd action root els)) i),
          sparseHarm T kernel els (uniqueIdx le (sparseKeys rnd action root els)), sigma⟩

end

end Escnn
