import Verif.Model.IIDBatchNorm

/-!
# Model of escnn/nn/modules/batchnormalization/norm.py (`NormBatchNorm`)

The square root and the division are exact; the mean over an empty batch is NaN in PyTorch and 0 here.
-/

namespace Escnn

variable {B P S G Id C : Type}

/-- The buffers `num_batches_tracked` and `{s}_running_var`, norm.py L118-119, L129. -/
structure NormBNState where
  count : ℕ
  var : ℕ → ℕ → ℝ

/-- The mode and the parameters `{s}_weight`. -/
structure NormBNPar where
  training : Bool
  weight : ℕ → ℕ → ℝ

/-- `NormBatchNorm`, norm.py L21-132. -/
structure NormBatchNorm (S R : Type) where
  inType : FType S R
  eps : ℝ
  momentum : Option ℝ
  affine : Bool
  sizes : List ℕ
  table : List (ℕ × Bool × List ℕ)
  order : List ℕ

namespace NormBatchNorm

/-- `__init__`, norm.py L21-132: the representations must support 'norm' and contain no trivial irreps. -/
noncomputable def init [DecidableEq Id] (triv : Id) (t : FType S (Rep G Id)) (eps : ℝ) (momentum : Option ℝ) (affine : Bool) : Except Err (NormBatchNorm S (Rep G Id)) :=
  if ∀ r ∈ t.reprs, "norm" ∈ r.nonlin ∧ triv ∉ r.irreps then do
    let table ← runTable Rep.size t (t.reprs.map Rep.size)
    .ok ⟨t, eps, momentum, affine, t.reprs.map Rep.size, table, keysInOrder (t.reprs.map Rep.size)⟩
  else .error .assertion

/-- The buffers after the construction (norm.py L118-129) or `reset_running_stats` (L134-138). -/
def fresh : NormBNState := ⟨0, fun _ _ => 1⟩

/-- The variance of one field of size `s`, norm.py L194-210; `q` are the squared entries. -/
noncomputable def estimate [Fintype B] [Fintype P] (s : ℕ) (q : B → ℕ → P → ℝ) : ℝ :=
  batchMean (fun b p => ∑ o ∈ Finset.range s, q b o p) / s *
    if 1 < Fintype.card B * Fintype.card P then ((Fintype.card B * Fintype.card P : ℕ) : ℝ) / ((Fintype.card B * Fintype.card P : ℕ) - 1) else 1

/-- The body of the first loop, norm.py L184-217, for the fields of size `s`. -/
noncomputable def updStep [Fintype B] [Fintype P] {R : Type} (m : NormBatchNorm S R) (f : ℝ) (s : ℕ) (a : ℕ → ℝ) (d : FTensor B P) : Except Err (ℕ → ℝ) := do
  let q ← d.toFields (m.sizes.count s) s
  .ok fun n => if n < q.n then a n * (1 - f) + f * estimate s (fun b o p => q.get b n o p) else a n

/-- The body of the second loop, norm.py L224-252, for the fields of size `s`.  The code multiplies the channels of a clone of the input in place; the channels of different sizes are disjoint, hence each of them still
holds the input when it is read. -/
noncomputable def mulStep {R : Type} (m : NormBatchNorm S R) (c : NormBNPar) (var : ℕ → ℕ → ℝ) (s : ℕ) (d : FTensor B P) : Except Err (FTensor B P) := do
  let x ← d.toFields (m.sizes.count s) s
  .ok (⟨x.n, x.size, fun b n o p => x.get b n o p * ((if m.affine then c.weight s n else 1) / Real.sqrt (var s n + m.eps))⟩ : FieldsT B P).flat

/-- The running variances after the first loop, norm.py L160-217; `count` is the counter after the increment. -/
noncomputable def nextVar [Fintype B] [Fintype P] {R : Type} (m : NormBatchNorm S R) (training : Bool) (count : ℕ) (var : ℕ → ℕ → ℝ) (x : FTensor B P) : Except Err (ℕ → ℕ → ℝ) :=
  if training then updLoop (m.updStep (avgFactor m.momentum count)) m.table ⟨x.chans, fun b o p => x.get b o p ^ 2⟩ var m.order else .ok var

open Classical in
/-- `forward`, norm.py L146-255. -/
noncomputable def forward (m : NormBatchNorm S (Rep G Id)) (B P : Type) [Fintype B] [Fintype P] (c : NormBNPar) (_junk : B → ℕ → P → ℝ) (st : NormBNState) (x : GTensor B P S (Rep G Id) C) :
    Except Err (NormBNState × GTensor B P S (Rep G Id) C) :=
  if x.type = m.inType then do
    let count := if c.training then st.count + 1 else st.count
    let var ← m.nextVar c.training count st.var x.tensor
    let out ← groupedLoop (m.mulStep c var) m.table m.table x.tensor x.tensor m.order
    let y ← GTensor.mk' Rep.size out m.inType x.coords
    .ok (⟨count, var⟩, y)
  else .error .assertion

end NormBatchNorm

end Escnn
