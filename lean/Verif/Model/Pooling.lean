import Verif.Model.Conv
import Verif.Model.Grouped
import Mathlib.Data.List.MinMax
import Mathlib.Algebra.Order.Floor.Ring
import Mathlib.Data.Rat.Floor

/-!
# Model of escnn/nn/modules/pooling and of `evaluate_output_shape`

A shape is a list of integers `(batch, channels, *spatial sizes)`.  Quotients of floating point numbers are exact; a stride 0 (`ZeroDivisionError`) is rejected by PyTorch in `forward`.
-/

namespace Escnn

open NpMat

/-- `tensor.shape`, for a batch of `b` samples. -/
def FMap.sizes {n : ℕ} {B : Type} (b : ℤ) (x : FMap n B) : List ℤ := b :: (x.chans : ℤ) :: List.ofFn fun i => (x.shape i : ℤ)

/-- `assert len(input_shape) == 2 + d; assert input_shape[1] == in_type.size`, then the computation of the output shape from the batch size and the spatial sizes; e.g. rd_convolution.py L338-349. -/
def checkedShape (n size : ℕ) (out : ℤ → List ℤ → Except Err (List ℤ)) (shape : List ℤ) : Except Err (List ℤ) :=
  if shape.length ≠ 2 + n then .error .assertion
  else match shape with
    | b :: c :: w => if c ≠ size then .error .assertion else out b w
    | _ => .error .assertion

/-- `_RdConv.evaluate_output_shape`, rd_convolution.py L338-349.  With a tuple as `padding`, `2 * self.padding` is a longer tuple, which cannot be added to a number (L347). -/
def RdConv.evaluateOutputShape {n : ℕ} {S R A : Type} (sz : R → ℕ) (l : RdConv n S R A) : List ℤ → Except Err (List ℤ) :=
  checkedShape n (l.inType.size sz) fun b w =>
    match l.padding with
    | .int p => .ok (b :: (l.outType.size sz : ℤ) :: w.map fun wi => ⌊((wi + 2 * p - l.dilation * ((l.kernelSize : ℤ) - 1) - 1 : ℤ) : ℚ) / l.stride + 1⌋)
    | .tuple _ => .error .type

/-- The arguments `kernel_size`, `stride`, `padding`, `dilation` (one integer for each axis) and `ceil_mode`; see `PoolArgs.ofInt`. -/
structure PoolArgs (n : ℕ) where
  kernel : Fin n → ℕ
  stride : Fin n → ℕ
  padding : Fin n → ℕ
  dilation : Fin n → ℕ
  ceilMode : Bool

/-- Integers as arguments, pointwise_max.py L74-96: the default of `stride` is `kernel_size`. -/
def PoolArgs.ofInt (n k : ℕ) (stride : Option ℕ) (padding dilation : ℕ) (ceilMode : Bool) : PoolArgs n :=
  ⟨fun _ => k, fun _ => stride.getD k, fun _ => padding, fun _ => dilation, ceilMode⟩

/-- Contract of PyTorch (`pooling_output_shape`): with `ceil_mode` the quotient is rounded up, but the last window has to start inside of the input or of the left padding. -/
def poolSize (w k s p d : ℕ) (ceil : Bool) : ℤ :=
  let o : ℤ := ((w : ℤ) + 2 * p - d * ((k : ℤ) - 1) - 1 + if ceil then (s : ℤ) - 1 else 0) / s + 1
  if ceil ∧ (w : ℤ) + p ≤ (o - 1) * s then o - 1 else o

/-- The positions of a box in row-major order. -/
def boxList : (n : ℕ) → (Fin n → ℕ) → List (Fin n → ℕ)
  | 0, _ => [fun i => i.elim0]
  | n + 1, s => (List.range (s 0)).flatMap fun a => (boxList n fun i => s i.succ).map fun r => Fin.cons a r

/-- The positions of the input in the window of the output position `o`. -/
def poolWindow {n : ℕ} (a : PoolArgs n) (shape o : Fin n → ℕ) : List (Fin n → ℕ) :=
  (boxList n a.kernel).filterMap fun u =>
    if ∀ i, 0 ≤ (o i * a.stride i + u i * a.dilation i : ℤ) - a.padding i ∧ (o i * a.stride i + u i * a.dilation i : ℤ) - a.padding i < shape i then
      some fun i => ((o i * a.stride i + u i * a.dilation i : ℤ) - a.padding i).toNat
    else none

/-- The arguments accepted by PyTorch (contract): positive sizes, at most half of the window in the padding, non-empty output. -/
def PoolArgs.Ok {n : ℕ} (a : PoolArgs n) (shape : Fin n → ℕ) : Prop :=
  ∀ i, 0 < a.kernel i ∧ 0 < a.stride i ∧ 0 < a.dilation i ∧ 2 * a.padding i ≤ (a.kernel i - 1) * a.dilation i + 1 ∧ 0 < poolSize (shape i) (a.kernel i) (a.stride i) (a.padding i) (a.dilation i) a.ceilMode

/-- The shape of the output (contract). -/
def PoolArgs.outShape {n : ℕ} (a : PoolArgs n) (shape : Fin n → ℕ) : Fin n → ℕ := fun i =>
  (poolSize (shape i) (a.kernel i) (a.stride i) (a.padding i) (a.dilation i) a.ceilMode).toNat

/-- The index of the maximum of the window: the first one in row-major order (contract of `return_indices=True`); `none` if the window has no entry of the input. -/
noncomputable def maxPoolIdx {n : ℕ} (a : PoolArgs n) (shape : Fin n → ℕ) (f : (Fin n → ℕ) → ℝ) (o : Fin n → ℕ) : Option (Fin n → ℕ) := (poolWindow a shape o).argmax f

open Classical in
/-- `max_pool2d` / `max_pool3d` (contract); `ninf` is the floating point number `-inf`, the maximum of no entries. -/
noncomputable def maxPool {n : ℕ} {B : Type} (ninf : ℝ) (a : PoolArgs n) (x : FMap n B) : Except Err (FMap n B) :=
  if a.Ok x.shape then .ok ⟨x.chans, a.outShape x.shape, fun b c o => ((maxPoolIdx a x.shape (x.get b c) o).map (x.get b c)).getD ninf⟩ else .error .runtime

/-- The divisor of `avg_pool2d` with `count_include_pad=True` (contract): the part of the window inside of the padded input. -/
def avgDivisor {n : ℕ} (a : PoolArgs n) (shape o : Fin n → ℕ) : ℤ :=
  ∏ i, (min (o i * a.stride i + a.kernel i - a.padding i : ℤ) (shape i + a.padding i) - (o i * a.stride i - a.padding i))

open Classical in
/-- `avg_pool2d` / `avg_pool3d` (contract); the dilation is 1. -/
noncomputable def avgPool {n : ℕ} {B : Type} (a : PoolArgs n) (x : FMap n B) : Except Err (FMap n B) :=
  if a.Ok x.shape then .ok ⟨x.chans, a.outShape x.shape, fun b c o => ((poolWindow a x.shape o).map (x.get b c)).sum / avgDivisor a x.shape o⟩ else .error .runtime

variable {n : ℕ} {S G Id B : Type}

/-- `(w + 2 * padding - dilation * (kernel_size - 1) - 1) / stride + 1`, pointwise_max.py L141. -/
def poolQuot (a : PoolArgs n) (i : Fin n) (w : ℤ) : ℚ := ((w + 2 * a.padding i - a.dilation i * ((a.kernel i : ℤ) - 1) - 1 : ℤ) : ℚ) / a.stride i + 1

/-- `_PointwiseMaxPoolND`, pointwise_max.py L23-96. -/
structure PointwisePool (n : ℕ) (S R : Type) where
  inType : FType S R
  args : PoolArgs n

namespace PointwisePool

/-- The constructor of `_PointwiseMaxPoolND`, pointwise_max.py L57-96; `gdim` is the dimension of the base space.  The constructors of the average poolings do not check the representations (pointwise_avg.py L51-57). -/
def initMax (gdim : S → ℕ) (inType : FType S (Rep G Id)) (args : PoolArgs n) : Except Err (PointwisePool n S (Rep G Id)) :=
  if n ≠ 2 ∧ n ≠ 3 then .error .assertion
  else if gdim inType.gspace ≠ n then .error .assertion
  else if ¬ ∀ r ∈ inType.reprs, "pointwise" ∈ r.nonlin then .error .assertion
  else .ok ⟨inType, args⟩

open Classical in
/-- `_PointwiseMaxPoolND.forward`, pointwise_max.py L98-130. -/
noncomputable def forwardMax (ninf : ℝ) (l : PointwisePool n S (Rep G Id)) (x : GMap n B S (Rep G Id)) : Except Err (GMap n B S (Rep G Id)) :=
  if x.type ≠ l.inType then .error .assertion
  else do
    let y ← maxPool ninf l.args x.map
    GMap.mk' Rep.size y l.inType

open Classical in
/-- `PointwiseAvgPool2D.forward`, pointwise_avg.py L84-105 and `PointwiseAvgPool3D.forward`, pointwise_avg_3d.py L79-100. -/
noncomputable def forwardAvg (l : PointwisePool n S (Rep G Id)) (x : GMap n B S (Rep G Id)) : Except Err (GMap n B S (Rep G Id)) :=
  if x.type ≠ l.inType then .error .assertion
  else do
    let y ← avgPool l.args x.map
    GMap.mk' Rep.size y l.inType

/-- `evaluate_output_shape`, pointwise_max.py L132-156, pointwise_avg.py L107-124 and pointwise_avg_3d.py L102-122 (there the dilation is 1). -/
def evaluateOutputShape (l : PointwisePool n S (Rep G Id)) : List ℤ → Except Err (List ℤ) :=
  checkedShape n (l.inType.size Rep.size) fun b w =>
    .ok (b :: (l.inType.size Rep.size : ℤ) :: List.ofFn fun i : Fin n =>
      if l.args.ceilMode then ⌈poolQuot l.args i (w.getD i 0)⌉ else ⌊poolQuot l.args i (w.getD i 0)⌋)

/-- `export`, pointwise_max.py L163-176: the module `torch.nn.MaxPool2d(kernel_size, stride, padding, dilation)`, whose `ceil_mode` is `False`. -/
noncomputable def exportMax (ninf : ℝ) (l : PointwisePool n S (Rep G Id)) : FMap n B → Except Err (FMap n B) := maxPool ninf { l.args with ceilMode := false }

end PointwisePool

/-- The convolution of each channel with its own filter, of which the sides have the length `2 * h + 1`: `conv2d(x, filter, stride, padding, groups=channels)` (contract).  The strides and paddings may differ
between the axes.  `f` is the filter of a channel. -/
noncomputable def blurPool (f : (Fin n → ℕ) → ℝ) (size : ℕ) (stride pad : Fin n → ℕ) (x : FMap n B) : Except Err (FMap n B) := do
  let y ← padMap .zeros pad x
  haveI := Classical.dec (0 < size ∧ ∀ i, 0 < stride i ∧ size ≤ y.shape i)
  if 0 < size ∧ ∀ i, 0 < stride i ∧ size ≤ y.shape i then
    .ok ⟨y.chans, fun i => (y.shape i - size) / stride i + 1, fun b c o => ∑ u : Fin n → Fin size, f (fun i => u i) * y.get b c fun i => o i * stride i + u i⟩
  else .error .runtime

/-- The Gaussian filter of a channel before its normalization, pointwise_max.py L226-239 and pointwise_avg.py L171-203. -/
noncomputable def gaussAt (size : ℕ) (sigma : ℝ) (u : Fin n → ℕ) : ℝ := Real.exp (-(∑ i, ((u i : ℝ) - ((size : ℝ) - 1) / 2) ^ 2) / (2 * sigma ^ 2))

/-- The filter, pointwise_max.py L242. -/
noncomputable def gaussFilter (size : ℕ) (sigma : ℝ) (u : Fin n → ℕ) : ℝ := gaussAt size sigma u / ∑ v : Fin n → Fin size, gaussAt size sigma fun i => (v i : ℕ)

/-- `_PointwiseMaxPoolAntialiasedND` and `PointwiseAvgPoolAntialiased2D/3D`; `half` is `int(round(4 * sigma))`, pointwise_max.py L226, or `int(round(3 * sigma))`, pointwise_avg.py L171. -/
structure AntialiasedPool (n : ℕ) (S R : Type) where
  inType : FType S R
  args : PoolArgs n
  sigma : ℝ
  half : ℕ

namespace AntialiasedPool

/-- `filter_size`, pointwise_max.py L226. -/
def filterSize {R : Type} (l : AntialiasedPool n S R) : ℕ := 2 * l.half + 1

open Classical in
/-- `_PointwiseMaxPoolAntialiasedND.forward`, pointwise_max.py L250-285, with `_pad` of L248. -/
noncomputable def forwardMax (ninf : ℝ) (l : AntialiasedPool n S (Rep G Id)) (x : GMap n B S (Rep G Id)) : Except Err (GMap n B S (Rep G Id)) :=
  if x.type ≠ l.inType then .error .assertion
  else do
    let y ← maxPool ninf { l.args with stride := fun _ => 1 } x.map
    let z ← blurPool (gaussFilter l.filterSize l.sigma) l.filterSize l.args.stride (fun i => l.args.padding i + (l.filterSize - 1) / 2) y
    GMap.mk' Rep.size z l.inType

/-- `evaluate_output_shape`, inherited from `_PointwiseMaxPoolND`, pointwise_max.py L132-156. -/
def evaluateOutputShapeMax (l : AntialiasedPool n S (Rep G Id)) : List ℤ → Except Err (List ℤ) := PointwisePool.evaluateOutputShape ⟨l.inType, l.args⟩

open Classical in
/-- `PointwiseAvgPoolAntialiased2D.forward`, pointwise_avg.py L215-231 and pointwise_avg_3d.py L216-232. -/
noncomputable def forwardAvg (l : AntialiasedPool n S (Rep G Id)) (x : GMap n B S (Rep G Id)) : Except Err (GMap n B S (Rep G Id)) :=
  if x.type ≠ l.inType then .error .assertion
  else do
    let z ← blurPool (gaussFilter l.filterSize l.sigma) l.filterSize l.args.stride l.args.padding x.map
    GMap.mk' Rep.size z l.inType

/-- `evaluate_output_shape`, pointwise_avg.py L233-246 and pointwise_avg_3d.py L234-249. -/
def evaluateOutputShapeAvg (l : AntialiasedPool n S (Rep G Id)) : List ℤ → Except Err (List ℤ) :=
  checkedShape n (l.inType.size Rep.size) fun b w =>
    .ok (b :: (l.inType.size Rep.size : ℤ) :: List.ofFn fun i : Fin n => ⌊((w.getD i 0 + 2 * l.args.padding i - ((l.filterSize : ℤ) - 1) - 1 : ℤ) : ℚ) / l.args.stride i + 1⌋)

end AntialiasedPool

/-- The bounds of the window of the output position `o` of adaptive pooling from size `w` to size `m` (contract). -/
def adaptiveBounds (w m o : ℕ) : ℕ × ℕ := (o * w / m, ((o + 1) * w + m - 1) / m)

open Classical in
/-- `adaptive_max_pool2d` / `adaptive_max_pool3d` (contract). -/
noncomputable def adaptiveMax (ninf : ℝ) (out : Fin n → ℕ) (x : FMap n B) : Except Err (FMap n B) :=
  if ∀ i, 0 < x.shape i then
    .ok ⟨x.chans, out, fun b c o =>
      (((boxList n fun i => (adaptiveBounds (x.shape i) (out i) (o i)).2 - (adaptiveBounds (x.shape i) (out i) (o i)).1).argmax
        fun u => x.get b c fun i => (adaptiveBounds (x.shape i) (out i) (o i)).1 + u i).map fun u => x.get b c fun i => (adaptiveBounds (x.shape i) (out i) (o i)).1 + u i).getD ninf⟩
  else .error .runtime

open Classical in
/-- `adaptive_avg_pool2d` / `adaptive_avg_pool3d` (contract). -/
noncomputable def adaptiveAvg (out : Fin n → ℕ) (x : FMap n B) : Except Err (FMap n B) :=
  if ∀ i, 0 < x.shape i then
    .ok ⟨x.chans, out, fun b c o =>
      let lo := fun i => (adaptiveBounds (x.shape i) (out i) (o i)).1
      let len := fun i => (adaptiveBounds (x.shape i) (out i) (o i)).2 - lo i
      ((boxList n len).map fun u => x.get b c fun i => lo i + u i).sum / ∏ i, (len i : ℝ)⟩
  else .error .runtime

/-- `_PointwiseAdaptiveMaxPoolND` / `_PointwiseAdaptiveAvgPoolND`, pointwise_adaptive_max.py L20-68. -/
structure AdaptivePool (n : ℕ) (S R : Type) where
  inType : FType S R
  outputSize : Fin n → ℕ

namespace AdaptivePool

open Classical in
/-- `forward`, pointwise_adaptive_max.py L70-92 (with `adaptiveMax`) and pointwise_adaptive_avg.py L69-91 (with `adaptiveAvg`). -/
noncomputable def forward (pool : (Fin n → ℕ) → FMap n B → Except Err (FMap n B)) (l : AdaptivePool n S (Rep G Id)) (x : GMap n B S (Rep G Id)) : Except Err (GMap n B S (Rep G Id)) :=
  if x.type ≠ l.inType then .error .assertion
  else do
    let y ← pool l.outputSize x.map
    GMap.mk' Rep.size y l.inType

/-- `evaluate_output_shape`, pointwise_adaptive_max.py L94-97. -/
def evaluateOutputShape (l : AdaptivePool n S (Rep G Id)) : List ℤ → Except Err (List ℤ) :=
  checkedShape n (l.inType.size Rep.size) fun b _ => .ok (b :: (l.inType.size Rep.size : ℤ) :: List.ofFn fun i => (l.outputSize i : ℤ))

/-- `export`, pointwise_adaptive_max.py L104-118: `torch.nn.AdaptiveMaxPool2d(output_size)`, and the same for the average. -/
noncomputable def export' {R : Type} (pool : (Fin n → ℕ) → FMap n B → Except Err (FMap n B)) (l : AdaptivePool n S R) : FMap n B → Except Err (FMap n B) := pool l.outputSize

end AdaptivePool

/-- `NormMaxPool`, norm_max.py L54-126 (the tables of the channels grouped by the size of the field are `runTable`). -/
structure NormMaxPool (n : ℕ) (S R : Type) where
  inType : FType S R
  args : PoolArgs n
  table : List (ℕ × Bool × List ℕ)

namespace NormMaxPool

/-- `__init__`, norm_max.py L54-126. -/
def init (gdim : S → ℕ) (inType : FType S (Rep G Id)) (args : PoolArgs n) : Except Err (NormMaxPool n S (Rep G Id)) := do
  if gdim inType.gspace ≠ 2 ∨ n ≠ 2 then .error .assertion
  else
    let t ← runTable Rep.size inType (inType.reprs.map Rep.size)
    .ok ⟨inType, args, t⟩

/-- `evaluate_output_shape`, norm_max.py L221-233: `ceil_mode` is not used. -/
def evaluateOutputShape (l : NormMaxPool n S (Rep G Id)) : List ℤ → Except Err (List ℤ) :=
  checkedShape n (l.inType.size Rep.size) fun b w => .ok (b :: (l.inType.size Rep.size : ℤ) :: List.ofFn fun i : Fin n => ⌊poolQuot l.args i (w.getD i 0)⌋)

open Classical in
/-- The body of the loop of `forward`, norm_max.py L159-216, for the fields of size `s`.  `dflt` is the index returned by `max_pool2d` for a window without entries, which does not depend on the values.
`indx.view(b, -1, 1, ho * wo)` needs as many entries as there are positions in the predicted shape; as the predicted size of each axis is at most the real one (`poolSize_floor_le`), this is equality of the
shapes. -/
noncomputable def poolFields (dflt : (Fin n → ℕ) → Fin n → ℕ) (a : PoolArgs n) (shape pred : Fin n → ℕ) (s : ℕ) (d : FTensor B (Fin n → ℕ)) : Except Err (FTensor B (Fin n → ℕ)) := do
  let f ← d.toFields (d.chans / s) s
  if ¬ a.Ok shape then .error .runtime
  else if a.outShape shape ≠ pred then .error .runtime
  else
    let norms : B → ℕ → (Fin n → ℕ) → ℝ := fun b c p => Real.sqrt (∑ o ∈ Finset.range s, f.get b c o p ^ 2)
    .ok (FieldsT.flat ⟨f.n, s, fun b c o p => f.get b c o ((maxPoolIdx a shape (norms b c) p).getD (dflt p))⟩)

open Classical in
/-- `forward`, norm_max.py L128-219.  `junk` is the content of `torch.empty`. -/
noncomputable def forward (dflt : (Fin n → ℕ) → Fin n → ℕ) (junk : B → ℕ → (Fin n → ℕ) → ℝ) (l : NormMaxPool n S (Rep G Id)) (x : GMap n B S (Rep G Id)) :
    Except Err (GMap n B S (Rep G Id)) :=
  if x.type ≠ l.inType then .error .assertion
  else do
    let sh ← l.evaluateOutputShape (x.map.sizes 1)
    let pred : Fin n → ℕ := fun i => (sh.getD (2 + i) 0).toNat
    let y ← groupedLoop (poolFields dflt l.args x.map.shape pred) l.table l.table (⟨x.map.chans, x.map.get⟩ : FTensor B (Fin n → ℕ)) ⟨x.map.chans, junk⟩ (keysInOrder (l.inType.reprs.map Rep.size))
    GMap.mk' Rep.size ⟨y.chans, pred, y.get⟩ l.inType

end NormMaxPool

end Escnn
