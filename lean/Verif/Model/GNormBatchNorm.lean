import Verif.Model.IIDBatchNorm
import Verif.Model.GatedUniform

/-!
# Model of escnn/nn/modules/batchnormalization/gnorm.py (`GNormBatchNorm`)

The square root and the division are exact.  The strides of the tensors are left out: the calls of `.view` on the results of `einsum` and of the indexing with a list always succeed here.  The means over an empty
batch are NaN in PyTorch and 0 here; the two checks for NaN (L263-264) and the two comparisons of a buffer with itself (L265-266) are left out.
-/

namespace Escnn

variable {B P S G Id C : Type}

/-- The running statistics of one field: a row of `{name}_running_mean`, one entry for each trivial irrep, and a row of `{name}_running_var`, one entry for each irrep, gnorm.py L165-168. -/
structure GNormStat where
  mean : ℕ → ℝ
  var : ℕ → ℝ

/-- The buffers `num_batches_tracked` (gnorm.py L176), `{name}_running_mean` and `{name}_running_var`. -/
structure GNormState where
  count : ℕ
  stat : String → ℕ → GNormStat

/-- The mode and the parameters `{name}_weight` (one entry for each irrep) and `{name}_bias` (one for each trivial irrep). -/
structure GNormPar where
  training : Bool
  weight : String → ℕ → ℕ → ℝ
  bias : String → ℕ → ℕ → ℝ

/-- What is stored for a representation, gnorm.py L134-168: the size, the number of irreps, `_trivial_idxs`, `vars_aggregator`, `vars_propagator`, and the change of basis and its inverse if it is not the identity. -/
structure GNormTab where
  size : ℕ
  nirr : ℕ
  trivials : List ℕ
  agg : NpMat ℝ
  prop : NpMat ℝ
  cobs : Option (NpMat ℝ × NpMat ℝ)

/-- `GNormBatchNorm`, gnorm.py L21-179. -/
structure GNormBatchNorm (S R : Type) where
  inType : FType S R
  eps : ℝ
  momentum : Option ℝ
  affine : Bool
  track : Bool
  names : List String
  table : List (String × Bool × List ℕ)
  order : List String
  tabs : List (String × GNormTab)

namespace GNormTab

/-- `aggregator[p:p+irr.size, i] = 1. / irr.size`, gnorm.py L145. -/
noncomputable def setShare (M : NpMat ℝ) (p size i : ℕ) : NpMat ℝ := ⟨M.rows, M.cols, fun a c => if p ≤ a ∧ a < p + size ∧ c = i then 1 / size else M.get a c⟩

/-- The loop of gnorm.py L140-148. -/
noncomputable def aggLoop (size : Id → ℕ) : ℕ → ℕ → List Id → NpMat ℝ → NpMat ℝ
  | _, _, [], M => M
  | p, i, j :: L, M => aggLoop size (p + size j) (i + 1) L (setShare M p (size j) i)

open Classical in
/-- gnorm.py L134-168. -/
noncomputable def of [DecidableEq Id] (size : Id → ℕ) (triv : Id) (r : Rep G Id) : GNormTab :=
  let agg := aggLoop size 0 0 r.irreps (NpMat.zeros r.size r.irreps.length)
  ⟨r.size, r.irreps.length, trivPos size triv r, agg, ⟨agg.rows, agg.cols, fun a c => if 0 < agg.get a c then 1 else 0⟩, if r.cob ≈ NpMat.eye r.size then none else some (r.cob, r.cobInv)⟩

/-- `einsum("ds,bcsxy->bcdxy", (M, t))`, gnorm.py L246 and L293; it raises unless there are two spatial axes. -/
noncomputable def change (nd : ℕ) (M : Option (NpMat ℝ)) (x : FieldsT B P) : Except Err (FieldsT B P) :=
  match M with
  | none => .ok x
  | some M => if nd = 2 then .ok ⟨x.n, M.rows, fun b n o p => ∑ s ∈ Finset.range M.cols, M.get o s * x.get b n s p⟩ else .error .runtime

/-- The variances of the entries before they are averaged over the irreps, gnorm.py L341-349, for one field. -/
noncomputable def raw [Fintype B] [Fintype P] (T : GNormTab) (v : B → ℕ → P → ℝ) (o : ℕ) : ℝ :=
  max 0 ((batchMean fun b p => v b o p ^ 2) - if o ∈ T.trivials then (batchMean fun b p => v b (T.trivials.getD (T.trivials.idxOf o) 0) p) ^ 2 else 0)

/-- `_compute_statistics`, gnorm.py L323-361, for one field; the entries past the end of a row are 0. -/
noncomputable def estimate [Fintype B] [Fintype P] (T : GNormTab) (v : B → ℕ → P → ℝ) : GNormStat :=
  ⟨fun l => if l < T.trivials.length then batchMean fun b p => v b (T.trivials.getD l 0) p else 0,
    fun i => max 0 (∑ o ∈ Finset.range T.agg.rows, T.agg.get o i * raw T v o) *
      if 1 < Fintype.card B * Fintype.card P then ((Fintype.card B * Fintype.card P : ℕ) : ℝ) / ((Fintype.card B * Fintype.card P : ℕ) - 1) else 1⟩

/-- The buffers of one field after a call, gnorm.py L248-277, for the factor `f`.  In evaluation mode `vars` is the buffer itself, hence L277 clamps the running variances. -/
noncomputable def update [Fintype B] [Fintype P] (T : GNormTab) (track training : Bool) (f : ℝ) (a : GNormStat) (v : B → ℕ → P → ℝ) : GNormStat :=
  if !track then a else if training then ⟨fun l => a.mean l * (1 - f) + f * (estimate T v).mean l, fun i => a.var i * (1 - f) + f * (estimate T v).var i⟩ else ⟨a.mean, fun i => max 0 (a.var i)⟩

/-- The statistics which are used in a call, gnorm.py L248-277. -/
noncomputable def used [Fintype B] [Fintype P] (T : GNormTab) (track training : Bool) (a : GNormStat) (v : B → ℕ → P → ℝ) : GNormStat :=
  let s := if !track then estimate T v else if training then estimate T v else a
  ⟨s.mean, fun i => max 0 (s.var i)⟩

/-- `_scale`, gnorm.py L363-375, for one vector. -/
noncomputable def scale (T : GNormTab) (v : ℕ → ℝ) (s : ℕ → ℝ) (o : ℕ) : ℝ := v o * ∑ i ∈ Finset.range T.nirr, T.prop.get o i * s i

/-- `_shift`, gnorm.py L377-391, for one vector. -/
noncomputable def shift (T : GNormTab) (v : ℕ → ℝ) (β : ℕ → ℝ) (o : ℕ) : ℝ := if o ∈ T.trivials then v o + β (T.trivials.idxOf o) else v o

/-- What is computed for one vector in the basis of the irreps, gnorm.py L271-289. -/
noncomputable def normalize (T : GNormTab) (eps : ℝ) (affine : Bool) (w β : ℕ → ℝ) (s : GNormStat) (v : ℕ → ℝ) : ℕ → ℝ :=
  let y := T.scale (T.shift v fun l => -1 * s.mean l) fun i => (if affine then w i else 1) / Real.sqrt (s.var i + eps)
  if affine then T.shift y β else y

end GNormTab

namespace GNormBatchNorm

/-- `__init__`, gnorm.py L21-179; `uniq` is the set `in_type._unique_representations` in the order of the iteration. -/
noncomputable def init [DecidableEq Id] (size : Id → ℕ) (triv : Id) (uniq : List (Rep G Id)) (t : FType S (Rep G Id)) (eps : ℝ) (momentum : Option ℝ) (affine track : Bool) :
    Except Err (GNormBatchNorm S (Rep G Id)) := do
  let table ← runTable Rep.size t (t.reprs.map Rep.name)
  .ok ⟨t, eps, momentum, affine, track, t.reprs.map Rep.name, table, uniq.map Rep.name, uniq.map fun r => (r.name, GNormTab.of size triv r)⟩

/-- The buffers after the construction (gnorm.py L165-168, L176) or `reset_running_stats` (L181-187). -/
def fresh : GNormState := ⟨0, fun _ _ => ⟨fun _ => 0, fun _ => 1⟩⟩

/-- The body of the loop, gnorm.py L234-298, for the fields called `name`; `nd` is the number of spatial axes. -/
noncomputable def step [Fintype B] [Fintype P] {R : Type} (m : GNormBatchNorm S R) (nd : ℕ) (c : GNormPar) (f : ℝ) (name : String) (a : ℕ → GNormStat) (d : FTensor B P) :
    Except Err ((ℕ → GNormStat) × FTensor B P) := do
  let T ← tabGet m.tabs name
  let x ← d.toFields (m.names.count name) T.size
  let x ← GNormTab.change nd (T.cobs.map Prod.snd) x
  let y ← GNormTab.change nd (T.cobs.map Prod.fst)
    (⟨x.n, x.size, fun b n o p => T.normalize m.eps m.affine (c.weight name n) (c.bias name n) (T.used m.track c.training (a n) fun b o p => x.get b n o p) (fun o => x.get b n o p) o⟩ : FieldsT B P)
  .ok (fun n => if n < x.n then T.update m.track c.training f (a n) fun b o p => x.get b n o p else a n, y.flat)

open Classical in
/-- `forward`, gnorm.py L203-307; `junk` is the content of `torch.empty_like`. -/
noncomputable def forward (m : GNormBatchNorm S (Rep G Id)) (nd : ℕ) (B P : Type) [Fintype B] [Fintype P] (c : GNormPar) (junk : B → ℕ → P → ℝ) (st : GNormState) (x : GTensor B P S (Rep G Id) C) :
    Except Err (GNormState × GTensor B P S (Rep G Id) C) :=
  if x.type = m.inType then do
    let count := if c.training then st.count + 1 else st.count
    let f := if c.training then avgFactor m.momentum count else 0
    let r ← statLoop (m.step nd c f) m.table x.tensor st.stat ⟨x.tensor.chans, junk⟩ m.order
    let y ← GTensor.mk' Rep.size r.2 m.inType x.coords
    .ok (⟨count, r.1⟩, y)
  else .error .assertion

end GNormBatchNorm

end Escnn
