import Verif.Model.Endo
import Mathlib.Analysis.Real.Sqrt

/-!
# Model of `HomSpace._dirac_kernel_ft` and `build_induced_representation`
-/

namespace Escnn

open NpMat

noncomputable section

variable {G H Id Id' : Type} [DecidableEq Id']

/-- `w_i = (psi.endomorphism_basis()[:, 0, :] ** 2).sum(axis=0)`, homspace.py L178, L189. -/
def diracWeight (E : List (NpMat ℝ)) (c : ℕ) : ℝ := (E.map fun M => M.get 0 c * M.get 0 c).sum

/-- `O_ij[:, j, :]` for the column `c` of the mask: `∑_k E_k[0, c] E_k`, homspace.py L194-198. -/
def diracColumn (E : List (NpMat ℝ)) (d c : ℕ) : NpMat ℝ :=
  ⟨d, d, fun a b => (E.map fun M => M.get 0 c * M.get a b).sum⟩

open Classical in
/-- The columns with `w_i > eps`, homspace.py L190 (exact arithmetic: `> 0`). -/
def diracMask (E : List (NpMat ℝ)) (d : ℕ) : List ℕ := (List.range d).filter fun c => decide (0 < diracWeight E c)

/-- The loop over the irreps of the restricted representation, at offset `p`, homspace.py L185-204: the slices
`basis[:, j, :]`. -/
def diracLoop (TH : IrrepTable H Id') (cols : List (NpMat ℝ)) (psi : Id') (n : ℕ) : ℕ → List Id' → List (NpMat ℝ)
  | _, [] => []
  | p, i :: L =>
    (if i = psi then cols.map (setBlock (zeros n (TH.size psi)) p 0) else []) ++
      diracLoop TH cols psi n (p + TH.size i) L

/-- `HomSpace._dirac_kernel_ft`, homspace.py L161-243; the list index is the middle axis.  `rhoH` is `rho.restrict(self.sgid)`.
The selection of one column per connected component for `rho` of type `'C'`/`'H'` (L206-239) is the argument `sel`, of which the
theorems only use that it selects some of the slices. -/
def diracKernelFT (TH : IrrepTable H Id') (typH : Id' → IrrType) (psi : Id') (rhoH : Rep H Id')
    (sel : List (NpMat ℝ) → Except Err (List (NpMat ℝ))) : Except Err (List (NpMat ℝ)) :=
  let E := endoBasis (typH psi) (TH.size psi)
  let mask := diracMask E (TH.size psi)
  if psi ∈ rhoH.irreps ∧ mask.length ≠ (typH psi).sumsq then .error .assertion
  else
    match sel (diracLoop TH (mask.map (diracColumn E (TH.size psi))) psi rhoH.size 0 rhoH.irreps) with
    | .error e => .error e
    | .ok L => .ok (L.map (mul rhoH.cob))

/-- The loop over `group.irreps()` in `build_induced_representation`, representation.py L970-975: pairs of an irrep and the
slice `basis_rho[:, m, :]`. -/
def inducedBlocks (kernel : Id → Except Err (List (NpMat ℝ))) : List Id → Except Err (List (Id × NpMat ℝ))
  | [] => .ok []
  | i :: L =>
    match kernel i with
    | .error e => .error e
    | .ok B =>
      match inducedBlocks kernel L with
      | .error e => .error e
      | .ok R => .ok (B.map (fun b => (i, b)) ++ R)

/-- Row `(i, p)` of the change of basis: `ift[i, p, :, :].reshape(-1)` of all the irreps, representation.py L977-992, with the
factor `sqrt(rho.size) / sqrt(len(representatives)) / sqrt(repr.size)` of L982-984. -/
def inducedRow (TG : IrrepTable G Id) (n d : ℕ) (blocks : List (Id × NpMat ℝ)) (r : G) (p : ℕ) : List ℝ :=
  blocks.flatMap fun ib => (List.range (TG.size ib.1)).map fun o : ℕ =>
    (mul (TG.mat ib.1 r) ib.2).get o p / Real.sqrt n / Real.sqrt d * Real.sqrt (TG.size ib.1)

/-- The concatenated change of basis, representation.py L994. -/
def inducedCob (TG : IrrepTable G Id) (d : ℕ) (blocks : List (Id × NpMat ℝ)) (reps : List G) : NpMat ℝ :=
  ⟨reps.length * d, (blocks.map fun ib => TG.size ib.1).sum, fun a j =>
    match reps[a / d]? with
    | some r => (inducedRow TG reps.length d blocks r (a % d)).getD j 0
    | none => 0⟩

/-- The coset check, representation.py L961-965, with `same_coset` of homspace.py L62-73. -/
def distinctCosets (same : G → G → Bool) (reps : List G) : Bool :=
  (List.range reps.length).all fun i => (List.range reps.length).all fun j =>
    match reps[i]?, reps[j]? with
    | some a, some b => decide (i = j) || !same a b
    | _, _ => true

/-- `HomSpace.same_coset`, homspace.py L62-73, with `self._restriction` the map `child`. -/
def sameCoset (mul : G → G → G) (inv : G → G) (child : G → Option H) (g1 g2 : G) : Bool := (child (mul (inv g1) g2)).isSome

/-- `assert group.order() // subgroup.order() == len(representatives)`, only for finite groups, representation.py L939-957. -/
def countOk (orders : Option (ℕ × ℕ)) (n : ℕ) : Bool :=
  match orders with
  | some (a, b) => decide (a / b = n)
  | none => true

open Classical in
/-- `build_induced_representation` for given representatives, representation.py L896-1002.  `orders = some (|G|, |H|)` for finite
groups (L939-957); `d = repr.size`.  The per-irrep assertion of L986-989 follows from the last one. -/
def buildInduced (TG : IrrepTable G Id) (kernel : Id → Except Err (List (NpMat ℝ))) (d : ℕ) (orders : Option (ℕ × ℕ))
    (same : G → G → Bool) (reps : List G) (ids : List Id) : Except Err (List Id × NpMat ℝ × NpMat ℝ) :=
  if ¬ countOk orders reps.length then .error .assertion
  else if ¬ distinctCosets same reps then .error .assertion
  else match inducedBlocks kernel ids with
    | .error e => .error e
    | .ok [] => .error .value
    | .ok blocks =>
      let cob := inducedCob TG d blocks reps
      if cob.rows ≠ cob.cols then .error .assertion
      else if ¬ (mul cob (transpose cob) ≈ eye (d * reps.length) ∧ mul (transpose cob) cob ≈ eye (d * reps.length)) then
        .error .assertion
      else .ok (blocks.map Prod.fst, cob, transpose cob)

/-- The default representatives, representation.py L942-951: the first element of every coset, in the order of
`group.elements`; `covered` are the keys of the dictionary `cosets`. -/
def defaultReps [DecidableEq G] (mul : G → G → G) (parentH : List G) : List G → List G → List G
  | _, [] => []
  | covered, e :: L =>
    if e ∈ covered then defaultReps mul parentH covered L
    else e :: defaultReps mul parentH (covered ++ parentH.map (mul e)) L

/-- `Group.induced_representation` / `Group.quotient_representation` the first time it is called with this name,
group.py L473-579. -/
def inducedRep (TG : IrrepTable G Id) (kernel : Id → Except Err (List (NpMat ℝ))) (d : ℕ) (orders : Option (ℕ × ℕ))
    (same : G → G → Bool) (reps : List G) (ids : List Id) (taken : List String) (name : String) (nonlin : Finset String) :
    Except Err (Rep G Id) :=
  match buildInduced TG kernel d orders same reps ids with
  | .error e => .error e
  | .ok (irreps, cob, cobInv) => mkRep TG taken name irreps cob nonlin (some cobInv)

end

end Escnn
