import Verif.Model.NpMat
import Verif.Model.Py
import Mathlib.Data.Real.Basic
import Mathlib.Data.Finset.Basic

/-!
# Model of `escnn.group.Representation`, `directsum`, `change_basis` and `Group.restrict_representation`

Arrays have exact real entries; `np.allclose` is modelled by equality of arrays.
-/

namespace Escnn

open NpMat

/-- `B` is the two-sided inverse of the square array `A`. -/
def NpMat.IsInv (A B : NpMat ℝ) : Prop :=
  A.rows = A.cols ∧ B.rows = A.rows ∧ B.cols = A.rows ∧ mul A B ≈ eye A.rows ∧ mul B A ≈ eye A.rows

/-- What the representation code sees of a group: `group.irrep(*id)` (which raises unless `ok id`), its `size`, its value on
a group element (`IrreducibleRepresentation.__call__`), representation.py L193, L331-350. -/
structure IrrepTable (G Id : Type) where
  ok : Id → Bool
  size : Id → ℕ
  mat : Id → G → NpMat ℝ

/-- The fields of `Representation`, representation.py L169-241 used by the rest of the library (`size` is
`change_of_basis.shape[0]`). -/
structure Rep (G Id : Type) where
  name : String
  irreps : List Id
  cob : NpMat ℝ
  cobInv : NpMat ℝ
  mat : G → NpMat ℝ
  nonlin : Finset String

/-- `self.size`, representation.py L176. -/
def Rep.size {G Id : Type} (r : Rep G Id) : ℕ := r.cob.rows

noncomputable section

open Classical in
/-- `scipy.linalg.inv`: the inverse, or `LinAlgError`/`ValueError` if there is none. -/
def npInv (A : NpMat ℝ) : Except Err (NpMat ℝ) :=
  if h : ∃ B, IsInv A B then .ok h.choose else .error .value

variable {G Id H Id' : Type}

/-- `sparse.block_diag([group.irrep(*n)(element) for n in irreps])` as computed by the callable built in
`direct_sum_factory`, representation.py L1043-1058.  (The dictionary `unique_irreps` only shares evaluations.) -/
def irrepsBlock (T : IrrepTable G Id) (irreps : List Id) (g : G) : NpMat ℝ := blockDiag (irreps.map fun i => T.mat i g)

/-- Sum of the sizes of the irreps, representation.py L179, L1026. -/
def irrepsSize (T : IrrepTable G Id) (irreps : List Id) : ℕ := (irreps.map T.size).sum

/-- `if change_of_basis_inv is None: change_of_basis_inv = sp.linalg.inv(change_of_basis)`, representation.py L159-160. -/
def resolveInv (cob : NpMat ℝ) : Option (NpMat ℝ) → Except Err (NpMat ℝ)
  | none => npInv cob
  | some B => .ok B

open Classical in
/-- `Representation.__init__` with `representation=None`, representation.py L34-241.  `taken` are the names registered in
`group.representations` (L154).  The size check of L178-181 only runs for more than one irrep, the one of
`direct_sum_factory` (L1028-1031) only if the change of basis is not the identity. -/
def mkRep (T : IrrepTable G Id) (taken : List String) (name : String) (irreps : List Id) (cob : NpMat ℝ)
    (nonlin : Finset String) (cobInv : Option (NpMat ℝ)) : Except Err (Rep G Id) :=
  if name ∈ taken then .error .assertion
  else if ¬ (cob.rows = cob.cols ∧ 0 < cob.rows) then .error .assertion
  else match resolveInv cob cobInv with
    | .error e => .error e
    | .ok inv =>
      if ¬ IsInv cob inv then .error .assertion
      else if ¬ (irreps.all T.ok) then .error .assertion
      else if irreps.length > 1 ∧ irrepsSize T irreps ≠ cob.rows then .error .assertion
      else if cob ≈ eye cob.rows then .ok ⟨name, irreps, cob, inv, irrepsBlock T irreps, nonlin⟩
      else if irrepsSize T irreps ≠ cob.rows then .error .assertion
      else .ok ⟨name, irreps, cob, inv, fun g => mul (mul cob (irrepsBlock T irreps g)) inv, nonlin⟩

/-- Slice assignment `M[p:p+h, q:q+w] = A` with `A` of shape `(h, w)`. -/
def setBlock (M : NpMat ℝ) (p q : ℕ) (A : NpMat ℝ) : NpMat ℝ :=
  ⟨M.rows, M.cols, fun i j =>
    if p ≤ i ∧ i < p + A.rows ∧ q ≤ j ∧ j < q + A.cols then A.get (i - p) (j - q) else M.get i j⟩

/-- The loop `p = 0; for A in blocks: M[p:p+size, p:p+size] = A; p += size`, representation.py L570-574. -/
def placeBlocks : List (NpMat ℝ) → ℕ → NpMat ℝ → NpMat ℝ
  | [], _, M => M
  | A :: L, p, M => placeBlocks L (p + A.rows) (setBlock M p p A)

/-- The array built from zeros by that loop, representation.py L566-574. -/
def placeDiag (blocks : List (NpMat ℝ)) : NpMat ℝ :=
  let n := (blocks.map NpMat.rows).sum
  placeBlocks blocks 0 (zeros n n)

/-- `directsum`, representation.py L517-585.  The empty list raises `IndexError` (L555).  The assertions that all
representations belong to the same group (L556-557) are typing here. `name=None` joins the names (L559-560). -/
def directsum (T : IrrepTable G Id) (taken : List String) (reprs : List (Rep G Id)) (Q : Option (NpMat ℝ))
    (name : Option String) : Except Err (Rep G Id) :=
  match reprs with
  | [] => .error .index
  | r0 :: rs =>
    let name := name.getD ("_".intercalate (reprs.map fun r => "[" ++ r.name ++ "]"))
    let irreps := reprs.flatMap Rep.irreps
    let cob := placeDiag (reprs.map Rep.cob)
    let cobInv := placeDiag (reprs.map Rep.cobInv)
    let nonlin := rs.foldl (fun s r => s ∩ r.nonlin) r0.nonlin
    match Q with
    | none => mkRep T taken name irreps cob nonlin (some cobInv)
    | some Q =>
      if Q.cols ≠ cob.rows then .error .value
      else match npInv (mul Q cob) with
        | .error e => .error e
        | .ok inv => mkRep T taken name irreps (mul Q cob) nonlin (some inv)

/-- `change_basis`, representation.py L725-763. -/
def changeBasis (T : IrrepTable G Id) (taken : List String) (r : Rep G Id) (Q : NpMat ℝ) (name : String)
    (nonlin : Option (Finset String)) : Except Err (Rep G Id) :=
  if ¬ (Q.rows = Q.cols ∧ Q.rows = r.size) then .error .assertion
  else match npInv Q with
    | .error e => .error e
    | .ok Qi => mkRep T taken name r.irreps (mul Q r.cob) (nonlin.getD ∅) (some (mul r.cobInv Qi))

/-- The loop over the irreps in `restrict_representation`, group.py L692-701: the list of changes of basis and the
concatenated irreps. -/
def restrictLoop (T : IrrepTable G Id) (restrictIrrep : Id → Except Err (NpMat ℝ × List Id')) :
    List Id → Except Err (List (NpMat ℝ) × List Id')
  | [] => .ok ([], [])
  | i :: L =>
    match restrictIrrep i with
    | .error e => .error e
    | .ok (C, ids) =>
      if ¬ (C.rows = T.size i ∧ C.cols = T.size i) then .error .assertion
      else match restrictLoop T restrictIrrep L with
        | .error e => .error e
        | .ok (Cs, ids') => .ok (C :: Cs, ids ++ ids')

open Classical in
/-- `Group.restrict_representation`, group.py L657-719, for the subgroup with irrep table `S` and names `taken`;
`restrictIrrep` is `self._restrict_irrep(·, id)`, `trivial` the id of the trivial irrep of the subgroup (`is_trivial`,
representation.py L286 with `irreducible` of L234). -/
def restrictRep (T : IrrepTable G Id) (S : IrrepTable H Id') (taken : List String) (groupName : String) (trivial : Id')
    (restrictIrrep : Id → Except Err (NpMat ℝ × List Id')) (r : Rep G Id) : Except Err (Rep H Id') :=
  match restrictLoop T restrictIrrep r.irreps with
  | .error e => .error e
  | .ok (Cs, ids) =>
    match mkRep S taken (groupName ++ ":" ++ r.name) ids (mul r.cob (blockDiag Cs)) r.nonlin none with
    | .error e => .error e
    | .ok res =>
      if res.irreps = [trivial] ∧ res.cob ≈ eye res.cob.rows then .ok { res with nonlin := insert "pointwise" res.nonlin }
      else .ok res

end

end Escnn
