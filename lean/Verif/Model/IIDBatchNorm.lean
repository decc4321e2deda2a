import Verif.Model.NormTables
import Verif.Model.StatLoop
import Mathlib.Data.Fintype.BigOperators

/-!
# Model of escnn/nn/modules/batchnormalization/iid.py (`_IIDBatchNorm`)

The square root and the division are exact.  A variance over less than two vectors is NaN in PyTorch and 0 here.  The methods
`_check_input_shape` of the subclasses are never called.
-/

namespace Escnn

variable {B P S G Id C : Type}

/-- The running statistics of one field: a row of `{name}_running_mean` (zeros, iid.py L137; not registered, and never used, without trivial irreps) and of `{name}_running_var` (ones, L141). -/
structure FieldStat where
  mean : ℕ → ℝ
  var : ℝ

/-- The buffers `num_batches_tracked` (iid.py L153) and `{name}_running_mean`, `{name}_running_var`. -/
structure IIDState where
  count : ℕ
  stat : String → ℕ → FieldStat

/-- What may change between two calls: the mode and the parameters `{name}_weight` and `{name}_bias`. -/
structure BNPar where
  training : Bool
  weight : String → ℕ → ℝ
  bias : String → ℕ → ℕ → ℝ

/-- `_IIDBatchNorm`, iid.py L28-156; `momentum = none` is `None`; `order` are the names in `_sizes`. -/
structure IIDBatchNorm (S R : Type) where
  inType : FType S R
  eps : ℝ
  momentum : Option ℝ
  affine : Bool
  track : Bool
  names : List String
  table : List (String × Bool × List ℕ)
  order : List String
  tabs : List (String × NormTab)

/-- The mean over the batch and the positions. -/
noncomputable def batchMean [Fintype B] [Fintype P] (v : B → P → ℝ) : ℝ := (∑ b, ∑ p, v b p) / (Fintype.card B * Fintype.card P)

/-- `Tensor.var(unbiased=True)` over the batch and the positions. -/
noncomputable def batchVar [Fintype B] [Fintype P] (v : B → P → ℝ) : ℝ := (∑ b, ∑ p, (v b p - batchMean v) ^ 2) / (Fintype.card B * Fintype.card P - 1)

/-- `exponential_average_factor`, iid.py L230-237; `count` is the counter after the increment. -/
noncomputable def avgFactor (momentum : Option ℝ) (count : ℕ) : ℝ :=
  match momentum with
  | none => 1 / count
  | some m => m

namespace IIDBatchNorm

/-- `__init__`, iid.py L28-156; `uniq` is the set `in_type._unique_representations` in the order of the iteration. -/
noncomputable def init [DecidableEq Id] (size : Id → ℕ) (triv : Id) (uniq : List (Rep G Id)) (t : FType S (Rep G Id)) (eps : ℝ) (momentum : Option ℝ) (affine track : Bool) :
    Except Err (IIDBatchNorm S (Rep G Id)) := do
  let table ← runTable Rep.size t (t.reprs.map Rep.name)
  .ok ⟨t, eps, momentum, affine, track, t.reprs.map Rep.name, table, uniq.map Rep.name, uniq.map fun r => (r.name, NormTab.of size triv r)⟩

/-- The buffers after the construction (iid.py L137-142, L153) or `reset_running_stats` (L158-168). -/
def fresh : IIDState := ⟨0, fun _ _ => ⟨fun _ => 0, 1⟩⟩

/-- `_estimate_stats`, iid.py L180-205, for one field. -/
noncomputable def estimate [Fintype B] [Fintype P] (T : NormTab) (v : B → ℕ → P → ℝ) : FieldStat :=
  ⟨fun o => T.mean (fun j => batchMean fun b p => v b j p) o,
    (∑ o ∈ Finset.range T.size, batchVar fun b p => v b o p - T.mean (fun j => batchMean fun b p => v b j p) o) / T.size⟩

/-- The running statistics of one field after a call, iid.py L257-274, for the factor `f`; the running mean changes for representations with trivial irreps only. -/
noncomputable def update [Fintype B] [Fintype P] (track training : Bool) (f : ℝ) (T : NormTab) (a : FieldStat) (v : B → ℕ → P → ℝ) : FieldStat :=
  if track ∧ training then ⟨if T.has then fun o => a.mean o * (1 - f) + f * (estimate T v).mean o else a.mean, a.var * (1 - f) + f * (estimate T v).var⟩ else a

/-- The statistics which are used in a call, iid.py L257-274. -/
noncomputable def used [Fintype B] [Fintype P] (track training : Bool) (T : NormTab) (a : FieldStat) (v : B → ℕ → P → ℝ) : FieldStat :=
  if !track then estimate T v else if training then estimate T v else a

/-- What is computed for one field, iid.py L276-299. -/
noncomputable def normalize (T : NormTab) (eps : ℝ) (affine : Bool) (w : ℝ) (β : ℕ → ℝ) (s : FieldStat) (v : ℕ → ℝ) (o : ℕ) : ℝ :=
  (if T.has then v o - s.mean o else v o) * ((if affine then w else 1) / Real.sqrt (s.var + eps)) + T.shift affine β o

/-- The body of the loop, iid.py L247-304, for the fields called `name`. -/
noncomputable def step [Fintype B] [Fintype P] {R : Type} (m : IIDBatchNorm S R) (c : BNPar) (f : ℝ) (name : String) (a : ℕ → FieldStat) (d : FTensor B P) : Except Err ((ℕ → FieldStat) × FTensor B P) := do
  let T ← tabGet m.tabs name
  let x ← d.toFields (m.names.count name) T.size
  .ok (fun n => if n < x.n then update m.track c.training f T (a n) fun b o p => x.get b n o p else a n,
    (⟨x.n, x.size, fun b n o p => normalize T m.eps m.affine (c.weight name n) (c.bias name n) (used m.track c.training T (a n) fun b o p => x.get b n o p) (fun o => x.get b n o p) o⟩ : FieldsT B P).flat)

open Classical in
/-- `forward`, iid.py L216-307; `junk` is the content of `torch.empty_like`. -/
noncomputable def forward (m : IIDBatchNorm S (Rep G Id)) (B P : Type) [Fintype B] [Fintype P] (c : BNPar) (junk : B → ℕ → P → ℝ) (st : IIDState) (x : GTensor B P S (Rep G Id) C) :
    Except Err (IIDState × GTensor B P S (Rep G Id) C) :=
  if x.type = m.inType then do
    let count := if c.training then st.count + 1 else st.count
    let f := if c.training then avgFactor m.momentum count else 0
    let r ← statLoop (m.step c f) m.table x.tensor st.stat ⟨x.tensor.chans, junk⟩ m.order
    let y ← GTensor.mk' Rep.size r.2 m.inType x.coords
    .ok (⟨count, r.1⟩, y)
  else .error .assertion

end IIDBatchNorm

end Escnn
