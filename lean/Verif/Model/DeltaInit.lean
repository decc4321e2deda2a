import Mathlib.Data.List.Dedup
import Mathlib.Data.Real.Sqrt
import Mathlib.Algebra.BigOperators.Group.Finset.Basic
import Verif.Model.Py

/-!
# Model of `deltaorthonormal_init`, nn/init.py L87-162
-/

namespace Escnn

namespace DeltaInit

variable {I : Type} [DecidableEq I]

/-- The entries of the dictionary of a weight which are read in init.py L109-117 (`radius` may be missing); irreps are identified by their ids. -/
structure Attr (I : Type) where
  inIrrep : I
  outIrrep : I
  inPos : ℕ
  outPos : ℕ
  radius : Option ℝ

noncomputable section

open Classical in
/-- The condition of init.py L113-119 (`math.isclose(r, 0.)` has no absolute tolerance and is equality). -/
def Attr.counts (a : Attr I) : Bool := decide (a.inIrrep = a.outIrrep ∧ a.radius.getD 0 = 0)

/-- Keys in order of their first insertion. -/
def keysOf {α : Type} [DecidableEq α] (l : List α) : List α := (l.reverse.dedup).reverse

/-- `counts.keys()`, init.py L106-120: the dictionaries are filled by appending. -/
def irreps (L : List (Attr I)) : List I := keysOf ((L.filter Attr.counts).map Attr.inIrrep)

/-- `counts[irrep].keys()`, init.py L120. -/
def keys (L : List (Attr I)) (k : I) : List (ℕ × ℕ) := keysOf ((L.filter fun a => a.counts && decide (a.inIrrep = k)).map fun a => (a.inPos, a.outPos))

/-- `counts[irrep][key]`, init.py L120. -/
def count (L : List (Attr I)) (k : I) (key : ℕ × ℕ) : List ℕ :=
  (List.range L.length).filter fun p => match L[p]? with
    | some a => a.counts && decide (a.inIrrep = k ∧ (a.inPos, a.outPos) = key)
    | none => false

/-- `same_content`, init.py L122-124. -/
def sameContent (l : List ℕ) : Bool := l.all fun x => decide (some x = l.head?)

/-- `in_c.keys()` and `out_c.keys()`, init.py L130-132. -/
def ins (L : List (Attr I)) (k : I) : List ℕ := keysOf ((keys L k).map Prod.fst)

/-- See `ins`. -/
def outs (L : List (Attr I)) (k : I) : List ℕ := keysOf ((keys L k).map Prod.snd)

/-- `in_c.values()`, init.py L130-131. -/
def inC (L : List (Attr I)) (k : I) : List ℕ := (ins L k).map fun ip => ((keys L k).filter fun q => q.1 = ip).length

/-- `out_c.values()`, init.py L130 L132. -/
def outC (L : List (Attr I)) (k : I) : List ℕ := (outs L k).map fun op => ((keys L k).filter fun q => q.2 = op).length

/-- The assertions of init.py L127 L133-137. -/
def gridOk (L : List (Attr I)) (k : I) : Bool :=
  sameContent ((keys L k).map fun q => (count L k q).length) && sameContent (inC L k) && sameContent (outC L k) &&
    decide ((inC L k).head? = some (outs L k).length) && decide ((outC L k).head? = some (ins L k).length)

/-- `s`, init.py L139. -/
def width (L : List (Attr I)) (k : I) : ℕ := (((keys L k).map fun q => (count L k q).length).head?).getD 0

/-- `W`, init.py L147-152: `rvs k n` is the result of `stats.ortho_group.rvs(n)`; `torch.randint(0, 1, …)` only returns `0`. -/
def mixing (rvs : I → ℕ → ℕ → ℕ → ℝ) (L : List (Attr I)) (k : I) (o i : ℕ) : ℝ :=
  if max (outs L k).length (ins L k).length > 1 then rvs k (max (ins L k).length (outs L k).length) o i else -1

/-- `w`, init.py L154-157: `randn k` is the result of `torch.randn((o, s))`. -/
def weight (randn : I → ℕ → ℕ → ℝ) (L : List (Attr I)) (k : I) (o p : ℕ) : ℝ :=
  randn k o p * 5 / √(∑ j ∈ Finset.range (width L k), (randn k o j * 5) ^ 2)

/-- The assignments `tensor[pp] = …` in their order, init.py L159-162. -/
def assigns (rvs : I → ℕ → ℕ → ℕ → ℝ) (randn : I → ℕ → ℕ → ℝ) (L : List (Attr I)) (k : I) : List (ℕ × ℝ) :=
  (ins L k).zipIdx.flatMap fun x => (outs L k).zipIdx.flatMap fun y => (count L k (x.1, y.1)).zipIdx.map fun z =>
    (z.1, weight randn L k y.2 z.2 * mixing rvs L k y.2 x.2)

/-- `deltaorthonormal_init(tensor, basismanager)`, init.py L87-162, for a basis manager with `get_basis_info() = L` and `dimension() = len(L)`, as a function of the length of `tensor` (a tensor with one axis). -/
def deltaInit (rvs : I → ℕ → ℕ → ℕ → ℝ) (randn : I → ℕ → ℕ → ℝ) (L : List (Attr I)) (len : ℕ) : Except Err (List ℝ) :=
  if len ≠ L.length then .error .assertion
  else if ∃ k ∈ irreps L, gridOk L k = false then .error .assertion
  else .ok (((irreps L).flatMap (assigns rvs randn L)).foldl (fun t q => t.set q.1 q.2) (List.replicate len 0))

end

end DeltaInit

end Escnn
