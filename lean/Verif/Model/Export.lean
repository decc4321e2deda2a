import Verif.Model.ConvTransposed
import Verif.Model.Sequential
import Verif.Model.Pointwise
import Verif.Model.InvariantMaps
import Verif.Model.InnerBatchNorm
import Verif.Model.GNormBatchNorm

/-!
# Model of the methods `export`

The modules of PyTorch which are returned are described by their documentation, with the default values of the arguments which are not given.  Most of the methods begin with `self.eval()`, which changes the
module itself: the new state is returned, too.
-/

namespace Escnn

open NpMat

variable {n : ℕ} {B P S G Id A C : Type}

/-- `torch.nn.Conv2d` / `torch.nn.Conv3d` (contract): `padding_mode` is `'zeros'`; the sizes of the filter are read from `weight`. -/
structure TorchConv (n : ℕ) where
  kernelSize : ℕ
  stride : ℕ
  padding : Fin n → ℕ
  dilation : ℕ
  groups : ℕ
  weight : Kern
  bias : Option (ℕ → ℝ)

/-- `forward` of `torch.nn.Conv2d` (contract). -/
noncomputable def TorchConv.forward (c : TorchConv n) (x : FMap n B) : Except Err (FMap n B) := convNd c.weight c.kernelSize c.stride c.padding c.dilation c.groups c.bias x

/-- The checks of the constructors of the convolutions of PyTorch (contract). -/
def torchConvOk (inCh outCh groups : ℕ) : Prop := 0 < groups ∧ inCh % groups = 0 ∧ outCh % groups = 0

/-- `conv.bias.data = _bias.data` if `has_bias`, r2convolution.py L373-375; `None` has no attribute `data`. -/
def exportBias (be : Option (NpMat ℝ)) (b : Option (ℕ → ℝ)) : Except Err (Option (ℕ → ℝ)) :=
  if be.isSome then
    match b with
    | some v => .ok (some v)
    | none => .error .attribute
  else .ok none

/-- `export`, r2convolution.py L349-377 and r3convolution.py L342-370; `bias` is a parameter exactly if there is a `bias_expansion` (rd_convolution.py L186-200). -/
noncomputable def RdConv.export' {R : Type} (sz : R → ℕ) (l : RdConv n S R A) : Except Err (RdConv n S R A × TorchConv n) := do
  let l' ← l.train false
  let p ← l'.current
  haveI := Classical.dec (torchConvOk (l.inType.size sz) (l.outType.size sz) l.groups)
  if torchConvOk (l.inType.size sz) (l.outType.size sz) l.groups then do
    let b ← exportBias l.biasExpansion p.2
    .ok (l', ⟨l.kernelSize, l.stride, l.axes, l.dilation, l.groups, p.1, b⟩)
  else .error .value

/-- `torch.nn.ConvTranspose2d` / `torch.nn.ConvTranspose3d` (contract). -/
structure TorchConvT (n : ℕ) where
  kernelSize : ℕ
  stride : ℕ
  padding : Fin n → ℕ
  outputPadding : Fin n → ℕ
  dilation : ℕ
  groups : ℕ
  weight : Kern
  bias : Option (ℕ → ℝ)

/-- `forward` of `torch.nn.ConvTranspose2d` (contract). -/
noncomputable def TorchConvT.forward (c : TorchConvT n) (x : FMap n B) : Except Err (FMap n B) :=
  convTransposeNd c.weight c.kernelSize c.stride c.padding c.outputPadding c.dilation c.groups c.bias x

/-- `export`, r2_transposed_convolution.py L255-283 and r3_transposed_convolution.py: `output_padding` is not given, so it is 0.  `weight.data[:] = _filter.data` needs the shape
`(in_channels, out_channels / groups, k, …, k)` (the broadcasting of axes of length 1 is left out). -/
noncomputable def RdConvT.export' {R : Type} (sz : R → ℕ) (l : RdConvT n S R A) : Except Err (RdConvT n S R A × TorchConvT n) := do
  let l' ← l.train false
  let p ← l'.current
  haveI := Classical.dec (torchConvOk (l.inType.size sz) (l.outType.size sz) l.groups)
  if torchConvOk (l.inType.size sz) (l.outType.size sz) l.groups then
    if p.1.rows = l.inType.size sz ∧ p.1.cols = l.outType.size sz / l.groups then do
      let b ← exportBias l.biasExpansion p.2
      .ok (l', ⟨l.kernelSize, l.stride, l.pad, fun _ => 0, l.dilation, l.groups, p.1, b⟩)
    else .error .runtime
  else .error .value

/-- `torch.nn.Linear` (contract): `weight` and `bias`. -/
structure TorchLinear where
  weight : NpMat ℝ
  bias : Option (ℕ → ℝ)

/-- `forward` of `torch.nn.Linear` (contract). -/
noncomputable def TorchLinear.forward (c : TorchLinear) (x : FTensor B P) : Except Err (FTensor B P) := Linear.affine c.weight c.bias x

/-- `export`, linear.py L289-311. -/
noncomputable def Linear.export' {R : Type} (l : Linear S R A) : Except Err (Linear S R A × TorchLinear) := do
  let l' ← l.train false
  let p ← l'.current
  let b ← exportBias l.biasExpansion p.2
  .ok (l', ⟨p.1, b⟩)

/-- `torch.nn.ReLU`, `torch.nn.LeakyReLU` and `torch.nn.ELU` (contract), relu.py L108-115, leakyrelu.py L118-127, elu.py L113-120: the same function is applied to each entry. -/
def PointwiseNL.export' {R : Type} (m : PointwiseNL S R) (x : FTensor B P) : Except Err (FTensor B P) := .ok ⟨x.chans, fun b c p => m.function (x.get b c p)⟩

/-- `MaxPoolChannels.forward`, gpool.py L219-233. -/
noncomputable def maxPoolChannels (k : ℕ) (x : FTensor B P) : Except Err (FTensor B P) :=
  if k = 0 then .error .runtime
  else if x.chans % k = 0 then do
    let f ← x.toFields (x.chans / k) k
    .ok ⟨f.n, fun b c p => maxOf k fun o => f.get b c o p⟩
  else .error .assertion

/-- `GroupPooling.export`, gpool.py L163-200: the size of the first key of `_contiguous`. -/
noncomputable def PoolMap.exportGpool {R : Type} (m : PoolMap ℕ S R) : Except Err (FTensor B P → Except Err (FTensor B P)) :=
  if 1 < m.order.length then .error .notImplemented
  else do
    let k ← pyGet m.order 0
    .ok (maxPoolChannels k)

/-! ### Batch normalization -/

/-- `torch.nn.BatchNormNd` with running statistics, in evaluation mode (contract): the buffers and the parameters, one entry for each channel; `affine` tells whether `weight` and `bias` exist; `dims` are the
numbers of dimensions of the tensors which are accepted. -/
structure TorchBN where
  features : ℕ
  eps : ℝ
  affine : Bool
  dims : List ℕ
  count : ℕ
  mean : ℕ → ℝ
  var : ℕ → ℝ
  weight : ℕ → ℝ
  bias : ℕ → ℝ

/-- `forward` in evaluation mode (contract), for an input with `nd` spatial dimensions. -/
noncomputable def TorchBN.forward (m : TorchBN) (nd : ℕ) (x : FTensor B P) : Except Err (FTensor B P) :=
  if 2 + nd ∉ m.dims then .error .value
  else if x.chans ≠ m.features then .error .runtime
  else .ok ⟨x.chans, fun b c p => (x.get b c p - m.mean c) / Real.sqrt (m.var c + m.eps) * (if m.affine then m.weight c else 1) + if m.affine then m.bias c else 0⟩

/-- The numbers of dimensions accepted by `BatchNorm1d`, `BatchNorm2d` and `BatchNorm3d` (contract). -/
def torchBNDims (d : ℕ) : List ℕ := if d = 1 then [2, 3] else [d + 2]

/-- A buffer with one entry for each of `c` channels. -/
def chanVec (c : ℕ) (v : ℕ → ℝ) : FTensor Unit Unit := ⟨c, fun _ i _ => v i⟩

/-- `v.reshape(-1)` for a tensor of shape `(n, size)`. -/
def fieldVec (n size : ℕ) (v : ℕ → ℕ → ℝ) : FTensor Unit Unit := (⟨n, size, fun _ i o _ => v i o⟩ : FieldsT Unit Unit).flat

/-- The loop over the labels which writes one buffer of the new module: `data[start:end] = …` or `data[indices] = …`, iid.py L378-421, inner.py L216-240, gnorm.py. -/
def writeLoop {L : Type} [DecidableEq L] (F : L → Except Err (FTensor Unit Unit)) (tab : List (L × Bool × List ℕ)) : FTensor Unit Unit → List L → Except Err (FTensor Unit Unit)
  | out, [] => .ok out
  | out, l :: ls => do
    let i ← tabGet tab l
    let e ← F l
    let out ← writeIdx out i.1 i.2 e
    writeLoop F tab out ls

/-- One entry for each channel. -/
def vecOf (x : FTensor Unit Unit) (c : ℕ) : ℝ := x.get () c ()

/-- `_IIDBatchNorm._export(d)`, iid.py L341-429, for the buffers `st` and the parameters `c`; a new `BatchNormNd` has the mean 0, the variance 1, the weight 1 and the bias 0.  The four buffers are written in one
loop of the code; here each has its own loop. -/
noncomputable def IIDBatchNorm.export' {R : Type} (sz : R → ℕ) (m : IIDBatchNorm S R) (d : ℕ) (c : BNPar) (st : IIDState) : Except Err TorchBN := do
  if ¬ m.track then .error .value
  else if ¬ (d = 1 ∨ d = 2 ∨ d = 3) then .error .value
  else
    let size := m.inType.size sz
    let field : (NormTab → String → ℕ → ℕ → ℝ) → String → Except Err (FTensor Unit Unit) := fun v name => do
      let T ← tabGet m.tabs name
      .ok (fieldVec (m.names.count name) T.size (v T name))
    let var ← writeLoop (field fun _ name i _ => (st.stat name i).var) m.table (chanVec size fun _ => 1) m.order
    let weight ← writeLoop (field fun _ name i _ => c.weight name i) m.table (chanVec size fun _ => 1) m.order
    let mean ← writeLoop (field fun T name i o => if T.has then (st.stat name i).mean o else 0) m.table (chanVec size fun _ => 0) m.order
    let bias ← writeLoop (field fun T name i o => if T.has then ∑ j ∈ Finset.range T.Q.cols, T.Q.get o j * c.bias name i j else 0) m.table (chanVec size fun _ => 0) m.order
    .ok ⟨size, m.eps, m.affine, torchBNDims d, st.count, vecOf mean, vecOf var, vecOf weight, vecOf bias⟩

/-- `InnerBatchNorm.export`, inner.py L183-245, for a gspace of dimensionality `dim`. -/
noncomputable def InnerBatchNorm.export' {R : Type} (sz : R → ℕ) (m : InnerBatchNorm S R) (dim : ℕ) (c : InnerPar) (st : ℕ → TorchBNState) : Except Err TorchBN := do
  if ¬ m.track then .error .value
  else if 3 < dim then .error .notImplemented
  else
    let size := m.inType.size sz
    let order := keysInOrder m.sizes
    let field : (ℕ → ℕ → ℝ) → ℕ → Except Err (FTensor Unit Unit) := fun v s => do
      let i ← tabGet m.table s
      if i.1 then .ok (fieldVec (m.sizes.count s) s fun j _ => v s j) else .error .notImplemented
    let var ← writeLoop (field fun s => (st s).var) m.table (chanVec size fun _ => 1) order
    let mean ← writeLoop (field fun s => (st s).mean) m.table (chanVec size fun _ => 0) order
    haveI := Classical.dec (∀ s ∈ order, ∀ s' ∈ order, (st s).count = (st s').count)
    if ∀ s ∈ order, ∀ s' ∈ order, (st s).count = (st s').count then do
      let weight ← writeLoop (field (c.weight ·)) m.table (chanVec size fun _ => 1) order
      let bias ← writeLoop (field (c.bias ·)) m.table (chanVec size fun _ => 0) order
      .ok ⟨size, m.eps, m.affine, torchBNDims (if dim = 0 then 1 else dim), (st (order.headD 0)).count, vecOf mean, vecOf var, vecOf weight, vecOf bias⟩
    else .error .assertion

/-- The change of basis of the running variances, gnorm.py L466-473. -/
noncomputable def GNormTab.changeVec (T : GNormTab) (v : ℕ → ℝ) (o : ℕ) : ℝ :=
  match T.cobs with
  | none => v o
  | some M => ∑ s ∈ Finset.range M.1.cols, M.1.get o s * v s

/-- `GNormBatchNorm.export`, gnorm.py L415-483: always a `BatchNorm3d`; only the running variances are changed to the basis of the representation (L466-473). -/
noncomputable def GNormBatchNorm.export' {R : Type} (sz : R → ℕ) (m : GNormBatchNorm S R) (c : GNormPar) (st : GNormState) : Except Err TorchBN := do
  if ¬ m.track then .error .value
  else
    let size := m.inType.size sz
    let field : (GNormTab → String → ℕ → ℕ → ℝ) → String → Except Err (FTensor Unit Unit) := fun v name => do
      let T ← tabGet m.tabs name
      let i ← tabGet m.table name
      if i.1 then .ok (fieldVec (m.names.count name) T.size (v T name)) else .error .notImplemented
    let mean ← writeLoop (field fun T name i => T.shift (fun _ => 0) (st.stat name i).mean) m.table (chanVec size fun _ => 0) m.order
    let var ← writeLoop (field fun T name i => T.changeVec (T.scale (fun _ => 1) (st.stat name i).var)) m.table (chanVec size fun _ => 1) m.order
    let weight ← writeLoop (field fun T name i => T.scale (fun _ => 1) (c.weight name i)) m.table (chanVec size fun _ => 1) m.order
    let bias ← writeLoop (field fun T name i => T.shift (fun _ => 0) (c.bias name i)) m.table (chanVec size fun _ => 0) m.order
    .ok ⟨size, m.eps, m.affine, torchBNDims 3, st.count, vecOf mean, vecOf var, vecOf weight, vecOf bias⟩

/-! ### Sequential modules -/

/-- A module of a `SequentialModule` with its method `export`, which returns the function computed by a module of PyTorch on tensors `Y`. -/
structure ExMod (X T Sh Y : Type) extends SMod X T Sh where
  export' : Except Err (Y → Except Err Y)

/-- `torch.nn.Sequential.forward` (contract). -/
def torchSequential {Y : Type} : List (Y → Except Err Y) → Y → Except Err Y
  | [], y => .ok y
  | h :: hs, y => do
    let y ← h y
    torchSequential hs y

/-- `SequentialModule.export`, sequential_module.py L150-169: the submodules in the order of the dictionary. -/
def Seq.export' {X T Sh Y : Type} (mods : List (ExMod X T Sh Y)) : Except Err (Y → Except Err Y) := do
  let hs ← mapE (fun m => m.export') mods
  .ok (torchSequential hs)

end Escnn
