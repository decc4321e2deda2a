import Verif.Model.IIDBatchNorm

/-!
# Model of escnn/nn/modules/batchnormalization/inner.py (`InnerBatchNorm`)

`torch.nn.BatchNormNd` is described by its documentation: in training mode, or without running statistics, each channel is normalized with its mean and its biased variance over the batch and all the other axes; the
running variance is updated with the unbiased variance.  The square root and the division are exact; the mean over an empty batch is NaN in PyTorch and 0 here.
-/

namespace Escnn

variable {B P S G Id C : Type}

/-- The buffers of one `torch.nn.BatchNormNd`: `num_batches_tracked`, `running_mean`, `running_var`. -/
structure TorchBNState where
  count : ℕ
  mean : ℕ → ℝ
  var : ℕ → ℝ

/-- The mode and the parameters `weight` and `bias` of the modules `batch_norm_[s]`. -/
structure InnerPar where
  training : Bool
  weight : ℕ → ℕ → ℝ
  bias : ℕ → ℕ → ℝ

/-- `InnerBatchNorm`, inner.py L28-119; `bnDims` is the number of dimensions which the inner batch normalization accepts. -/
structure InnerBatchNorm (S R : Type) where
  inType : FType S R
  eps : ℝ
  momentum : Option ℝ
  affine : Bool
  track : Bool
  sizes : List ℕ
  table : List (ℕ × Bool × List ℕ)
  bnDims : ℕ

namespace InnerBatchNorm

/-- inner.py L102-109 for a gspace of dimensionality `dim`: `BatchNorm2d`, `BatchNorm3d` and `BatchNorm4d` accept tensors with 4, 5 and 6 dimensions. -/
def dims (dim : ℕ) : Except Err ℕ := if dim = 0 ∨ dim = 1 then .ok 4 else if dim = 2 then .ok 5 else if dim = 3 then .ok 6 else .error .notImplemented

/-- `__init__`, inner.py L28-119, for a gspace of dimensionality `dim`. -/
noncomputable def init (dim : ℕ) (t : FType S (Rep G Id)) (eps : ℝ) (momentum : Option ℝ) (affine track : Bool) : Except Err (InnerBatchNorm S (Rep G Id)) :=
  if ∀ r ∈ t.reprs, "pointwise" ∈ r.nonlin then do
    let table ← fieldTable Rep.size t (t.reprs.map Rep.size)
    let d ← dims dim
    .ok ⟨t, eps, momentum, affine, track, t.reprs.map Rep.size, table, d⟩
  else .error .assertion

/-- The buffers after the construction. -/
def fresh : ℕ → TorchBNState := fun _ => ⟨0, fun _ => 0, fun _ => 1⟩

/-- The number of values of one channel. -/
def number (B P : Type) [Fintype B] [Fintype P] (s : ℕ) : ℕ := Fintype.card B * s * Fintype.card P

/-- The mean of one channel of a tensor of shape `(batch, n, s, ...)`. -/
noncomputable def mean [Fintype B] [Fintype P] (s : ℕ) (v : B → ℕ → P → ℝ) : ℝ := (∑ b, ∑ o ∈ Finset.range s, ∑ p, v b o p) / number B P s

/-- The sum of the squared deviations of one channel. -/
noncomputable def dev [Fintype B] [Fintype P] (s : ℕ) (v : B → ℕ → P → ℝ) : ℝ := ∑ b, ∑ o ∈ Finset.range s, ∑ p, (v b o p - mean s v) ^ 2

/-- `torch.nn.BatchNormNd.forward` on a tensor of shape `(batch, n, s, ...)` with `dims` dimensions: the new buffers and the output.  A tensor with another number of dimensions, or with one value per channel in training
mode, raises `ValueError`. -/
noncomputable def batchnorm [Fintype B] [Fintype P] {R : Type} (m : InnerBatchNorm S R) (dims : ℕ) (training : Bool) (w β : ℕ → ℝ) (a : TorchBNState) (x : FieldsT B P) : Except Err (TorchBNState × FieldsT B P) :=
  if dims ≠ m.bnDims then .error .value
  else if (training ∨ ¬ m.track) ∧ number B P x.size = 1 then .error .value
  else
    let f := avgFactor m.momentum (a.count + 1)
    let v : ℕ → B → ℕ → P → ℝ := fun n b o p => x.get b n o p
    let a' : TorchBNState := if training ∧ m.track then ⟨a.count + 1, fun n => if n < x.n then (1 - f) * a.mean n + f * mean x.size (v n) else a.mean n,
      fun n => if n < x.n then (1 - f) * a.var n + f * (dev x.size (v n) / (number B P x.size - 1)) else a.var n⟩ else a
    let μ : ℕ → ℝ := fun n => if training ∨ ¬ m.track then mean x.size (v n) else a.mean n
    let σ2 : ℕ → ℝ := fun n => if training ∨ ¬ m.track then dev x.size (v n) / number B P x.size else a.var n
    .ok (a', ⟨x.n, x.size, fun b n o p => (x.get b n o p - μ n) / Real.sqrt (σ2 n + m.eps) * (if m.affine then w n else 1) + if m.affine then β n else 0⟩)

/-- The body of the loop, inner.py L150-164, for the fields of size `s`; `nd` is the number of spatial dimensions of the input. -/
noncomputable def step [Fintype B] [Fintype P] {R : Type} (m : InnerBatchNorm S R) (nd : ℕ) (c : InnerPar) (s : ℕ) (a : TorchBNState) (d : FTensor B P) : Except Err (TorchBNState × FTensor B P) := do
  let x ← d.toFields (m.sizes.count s) s
  let r ← m.batchnorm (3 + nd) c.training (c.weight s) (c.bias s) a x
  .ok (r.1, r.2.flat)

open Classical in
/-- `forward`, inner.py L131-167, for inputs with `nd` spatial dimensions; `junk` is the content of `torch.empty_like`. -/
noncomputable def forward (m : InnerBatchNorm S (Rep G Id)) (nd : ℕ) (B P : Type) [Fintype B] [Fintype P] (c : InnerPar) (junk : B → ℕ → P → ℝ) (st : ℕ → TorchBNState) (x : GTensor B P S (Rep G Id) C) :
    Except Err ((ℕ → TorchBNState) × GTensor B P S (Rep G Id) C) :=
  if x.type = m.inType then do
    let r ← statLoop (m.step nd c) m.table x.tensor st ⟨x.tensor.chans, junk⟩ (keysInOrder m.sizes)
    let y ← GTensor.mk' Rep.size r.2 m.inType x.coords
    .ok (r.1, y)
  else .error .assertion

end InnerBatchNorm

end Escnn
