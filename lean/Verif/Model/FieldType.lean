import Verif.Model.Rep

/-!
# Model of `escnn.nn.FieldType`

The base space is an opaque value with decidable equality; the bookkeeping only uses the sizes of the representations, so the
type `R` of representations is arbitrary with a size function `sz`.  Field indices and offsets (stored as `np.uint64`) are natural
numbers.
-/

namespace Escnn

open NpMat

/-- The attributes `gspace` and `representations` of a field type, field_type.py L78-84. -/
structure FType (S R : Type) where
  gspace : S
  reprs : List R

namespace FType

variable {S R : Type}

/-- `FieldType.__init__`, field_type.py L70-84.  The assertions on types and groups are typing here. -/
def mk' (gspace : S) (reprs : List R) : Except Err (FType S R) :=
  if 0 < reprs.length then .ok ⟨gspace, reprs⟩ else .error .assertion

/-- `self.size = sum([repr.size for repr in representations])`, field_type.py L90. -/
def size (sz : R → ℕ) (t : FType S R) : ℕ := (t.reprs.map sz).foldl (· + ·) 0

/-- `__len__`, field_type.py L456. -/
def len (t : FType S R) : ℕ := t.reprs.length

/-- The loop of `fields_end`, field_type.py L500-504. -/
def endLoop (sz : R → ℕ) : ℕ → List R → List ℕ
  | _, [] => []
  | p, r :: L => (p + sz r) :: endLoop sz (p + sz r) L

/-- `fields_end`, field_type.py L490-507. -/
def fieldsEnd (sz : R → ℕ) (t : FType S R) : List ℕ := endLoop sz 0 t.reprs

/-- The loop of `fields_start`, field_type.py L519-523. -/
def startLoop (sz : R → ℕ) : ℕ → List R → List ℕ
  | _, [] => []
  | p, r :: L => p :: startLoop sz (p + sz r) L

/-- `fields_start`, field_type.py L509-526. -/
def fieldsStart (sz : R → ℕ) (t : FType S R) : List ℕ := startLoop sz 0 t.reprs

/-- `irreps`, field_type.py L143-156. -/
def irreps {Id : Type} (irr : R → List Id) (t : FType S R) : List Id := t.reprs.foldl (fun L r => L ++ irr r) []

/-- `__add__`, field_type.py L420-441. -/
def add [DecidableEq S] (t t' : FType S R) : Except Err (FType S R) :=
  if t.gspace = t'.gspace then mk' t.gspace (t.reprs ++ t'.reprs) else .error .assertion

/-- `index_select`, field_type.py L468-488; `max` of an empty list raises `ValueError`. -/
def indexSelect (t : FType S R) (index : List ℤ) : Except Err (FType S R) :=
  if index = [] then .error .value
  else if ¬ (index.all fun i => i < t.reprs.length) then .error .assertion
  else if ¬ (index.all fun i => 0 ≤ i) then .error .assertion
  else mk' t.gspace (index.filterMap fun i => t.reprs[i.toNat]?)

/-- Python's order on the tuples `(r.size, i)`. -/
def keyLe (a b : ℕ × ℕ) : Bool := decide (a.1 < b.1) || (decide (a.1 = b.1) && decide (a.2 ≤ b.2))

/-- The permutation computed by `sorted`, field_type.py L412-416. -/
def sortPerm (sz : R → ℕ) (t : FType S R) : List ℕ :=
  ((t.reprs.zipIdx.map fun ri => (sz ri.1, ri.2)).mergeSort keyLe).map Prod.snd

/-- `sorted`, field_type.py L402-418. -/
def sorted (sz : R → ℕ) (t : FType S R) : Except Err (FType S R) :=
  t.indexSelect ((sortPerm sz t).map fun i : ℕ => (i : ℤ))

/-- `fields[l]`, field_type.py L544-548: the indices appended for label `l`. -/
def labelLoop {L : Type} [DecidableEq L] (l : L) : ℕ → List L → List ℕ
  | _, [] => []
  | c, x :: xs => if x = l then c :: labelLoop l (c + 1) xs else labelLoop l (c + 1) xs

/-- The loop building `types`, field_type.py L551-555: a dictionary as its list of assignments in order (a later assignment to
the same key overwrites). -/
def groupLoop {L : Type} [DecidableEq L] (t : FType S R) (labels : List L) : List L → Except Err (List (L × FType S R))
  | [] => .ok []
  | l :: rest =>
    match t.indexSelect ((labelLoop l 0 labels).map fun i : ℕ => (i : ℤ)) with
    | .error e => .error e
    | .ok u =>
      match groupLoop t labels rest with
      | .error e => .error e
      | .ok d => .ok ((l, u) :: d)

/-- Lookup in a dictionary given by its assignments: the last one wins. -/
def lookupLast {L V : Type} [DecidableEq L] (d : List (L × V)) (l : L) : Option V :=
  ((d.filter fun p => p.1 = l).getLast?).map Prod.snd

/-- `group_by_labels`, field_type.py L528-557. -/
def groupByLabels {L : Type} [DecidableEq L] (t : FType S R) (labels : List L) : Except Err (List (L × FType S R)) :=
  if labels.length ≠ t.len then .error .assertion else groupLoop t labels labels

/-- The dictionary `restricted_reprs`, field_type.py L390-392: for the unique representations, in the order in which Python
iterates over that set. -/
def restrictDict {R' : Type} (name : R → String) (res : R → Except Err R') : List R → Except Err (List (String × R'))
  | [] => .ok []
  | r :: L =>
    match res r with
    | .error e => .error e
    | .ok r' =>
      match restrictDict name res L with
      | .error e => .error e
      | .ok d => .ok ((name r, r') :: d)

/-- `restrict`, field_type.py L365-400, with `sub = gspace.restrict(id)[0]` and `res = fibergroup.restrict_representation(id, ·)`;
`uniq` lists the set `_unique_representations` in iteration order.  A missing key raises `KeyError`. -/
def restrict {S' R' : Type} (name : R → String) (res : R → Except Err R') (sub : S') (uniq : List R) (t : FType S R) :
    Except Err (FType S' R') :=
  match restrictDict name res uniq with
  | .error e => .error e
  | .ok d =>
    if t.reprs.all fun r => (lookupLast d (name r)).isSome then mk' sub (t.reprs.filterMap fun r => lookupLast d (name r))
    else .error .key

end FType

/-- Values of a tensor with channels in the second axis: `get b c p` for a batch index, a channel, and the remaining axes. `B` and
`P` are arbitrary types, so that all the shapes are covered. -/
structure FTensor (B P : Type) where
  chans : ℕ
  get : B → ℕ → P → ℝ

/-- Equality of the entries inside of the shape. -/
def FTensor.Eqv {B P : Type} (x y : FTensor B P) : Prop := x.chans = y.chans ∧ ∀ b c p, c < x.chans → x.get b c p = y.get b c p

instance {B P : Type} : HasEquiv (FTensor B P) := ⟨FTensor.Eqv⟩

variable {B P G Id S : Type}

/-- `fiber_representation`, field_type.py L216-226. -/
noncomputable def FType.fiberRep (t : FType S (Rep G Id)) (g : G) : NpMat ℝ := blockDiag (t.reprs.map fun r => r.mat g)

/-- `torch.einsum("oi,bi...->bo...", M, x)`, which raises `RuntimeError` if the sizes differ. -/
noncomputable def matChannels (M : NpMat ℝ) (x : FTensor B P) : Except Err (FTensor B P) :=
  if M.cols = x.chans then .ok ⟨M.rows, fun b o p => ∑ i ∈ Finset.range M.cols, M.get o i * x.get b i p⟩ else .error .runtime

/-- `transform_fibers`, field_type.py L228-261. -/
noncomputable def FType.transformFibers (t : FType S (Rep G Id)) (x : FTensor B P) (g : G) : Except Err (FTensor B P) :=
  matChannels (t.fiberRep g) x

/-- `representation`, field_type.py L119-141, the first time it is called. -/
noncomputable def FType.representation (T : IrrepTable G Id) (taken : List String) (name : String) (t : FType S (Rep G Id)) :
    Except Err (Rep G Id) := directsum T taken t.reprs none (some name)

end Escnn
