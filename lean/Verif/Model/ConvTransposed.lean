import Verif.Model.Pooling

/-!
# Model of escnn/nn/modules/conv/rd_transposed_convolution.py, r2_transposed_convolution.py and r3_transposed_convolution.py
-/

namespace Escnn

open NpMat

/-- The exchange of the first two axes of a filter, rd_transposed_convolution.py L255. -/
def Kern.swap (F : Kern) : Kern := ⟨F.cols, F.rows, fun i j p => F.get j i p⟩

/-- Does the entry `u` of the filter connect an input position to the output position `p`, on one axis of size `w` of the input: `q * stride + u * dil = p + pad` for an input position `q`. -/
def backPos (w stride dil pad u p : ℕ) : Option ℕ :=
  if u * dil ≤ p + pad ∧ (p + pad - u * dil) % stride = 0 ∧ (p + pad - u * dil) / stride < w then some ((p + pad - u * dil) / stride) else none

open Classical in
/-- `conv_transpose2d` / `conv_transpose3d` (contract): `W` has the shape `(in channels, out channels / groups, k, …, k)`; the input value at `q` is added to the output at `q * stride + u * dil - pad`, weighted by
the entry `u` of the filter. -/
noncomputable def convTransposeNd {n : ℕ} {B : Type} (W : Kern) (k stride : ℕ) (pad opad : Fin n → ℕ) (dil groups : ℕ) (b : Option (ℕ → ℝ)) (x : FMap n B) : Except Err (FMap n B) :=
  if 0 < k ∧ 0 < stride ∧ 0 < dil ∧ 0 < groups ∧ x.chans = W.rows ∧ W.rows % groups = 0 ∧
      ∀ i, 0 < x.shape i ∧ (opad i < stride ∨ opad i < dil) ∧ 0 < ((x.shape i : ℤ) - 1) * stride - 2 * pad i + dil * ((k : ℤ) - 1) + opad i + 1 then
    .ok ⟨W.cols * groups, fun i => (((x.shape i : ℤ) - 1) * stride - 2 * pad i + dil * ((k : ℤ) - 1) + opad i + 1).toNat, fun s o p =>
      ∑ c ∈ Finset.range (W.rows / groups), ∑ u : Fin n → Fin k,
        (if ∀ i, (backPos (x.shape i) stride dil (pad i) (u i) (p i)).isSome then
          W.get (o / W.cols * (W.rows / groups) + c) (o % W.cols) (flatIndex k u) * x.get s (o / W.cols * (W.rows / groups) + c) fun i => (backPos (x.shape i) stride dil (pad i) (u i) (p i)).getD 0
        else 0) + Linear.biasAt b o⟩
  else .error .runtime

/-- The attributes of `_RdConvTransposed`. -/
structure RdConvT (n : ℕ) (S R A : Type) where
  inType : FType S R
  outType : FType S R
  kernelSize : ℕ
  padding : Padding
  outputPadding : Padding
  pad : Fin n → ℕ
  opad : Fin n → ℕ
  stride : ℕ
  dilation : ℕ
  groups : ℕ
  blocks : Blocks R A
  biasExpansion : Option (NpMat ℝ)
  weights : ℕ → ℝ
  bias : ℕ → ℝ
  training : Bool
  filter : Option Kern
  expandedBias : Option (Option (ℕ → ℝ))

namespace RdConvT

variable {n : ℕ} {S G Id A B : Type} [DecidableEq Id]

open Classical in
/-- `_RdConvTransposed.__init__`, rd_transposed_convolution.py L107-223; with `groups > 1` the filter is built for the first group of the output fields (L156), `RdConv.groupType` with the types exchanged. -/
noncomputable def init (size : Id → ℕ) (triv : Id) (gdim : S → ℕ) (gen : List (Fin n → ℝ) → Rep G Id → Rep G Id → Except Err (KBasis A)) (filt : Option (Attr A → Bool)) (uin uout : List (Rep G Id))
    (inType outType : FType S (Rep G Id)) (kernelSize : ℕ) (padding outputPadding : Padding) (stride dilation groups : ℕ) (bias : Bool) (w0 : ℕ → ℝ) :
    Except Err (RdConvT n S (Rep G Id) A) := do
  if inType.gspace ≠ outType.gspace ∨ n < gdim inType.gspace then .error .assertion
  else
    let pad ← padding.axes n
    let opad ← outputPadding.axes n
    let outType' ← RdConv.groupType groups outType inType
    let be := if bias then Bias.expansion size triv outType.reprs else none
    let grid := gridCoords n kernelSize dilation
    let b ← Blocks.init Rep.name Rep.size (Blocks.blockFor (gen grid) filt (kernelSize ^ n)) uin uout inType.reprs outType'.reprs (kernelSize ^ n)
    if b.dim = 0 then .error .value
    else .ok ⟨inType, outType, kernelSize, padding, outputPadding, pad, opad, stride, dilation, groups, b, be, w0, fun _ => 0, true,
      some ⟨inType.size Rep.size, outType'.size Rep.size, fun _ _ _ => 0⟩, some (be.map fun _ _ => 0)⟩

/-- `expand_parameters`, rd_transposed_convolution.py L243-262; the filter is kept flat, see `flatIndex`. -/
noncomputable def expandParameters {R : Type} (l : RdConvT n S R A) : Except Err (Kern × Option (ℕ → ℝ)) := do
  let F ← Blocks.forward l.blocks l.blocks.dim l.weights
  .ok (F.swap, l.biasExpansion.map fun B => Bias.expand B l.bias)

/-- `train(mode)`, rd_transposed_convolution.py L278-318. -/
noncomputable def train {R : Type} (l : RdConvT n S R A) (mode : Bool) : Except Err (RdConvT n S R A) :=
  if mode then .ok { l with filter := none, expandedBias := none, training := true }
  else if l.training then do
    let p ← l.expandParameters
    .ok { l with filter := some p.1, expandedBias := some p.2, training := false }
  else .ok { l with training := false }

/-- The parameters used by `forward`, r2_transposed_convolution.py L122-127. -/
noncomputable def current {R : Type} (l : RdConvT n S R A) : Except Err (Kern × Option (ℕ → ℝ)) :=
  if ¬ l.training then
    match l.filter, l.expandedBias with
    | some M, some b => .ok (M, b)
    | _, _ => .error .attribute
  else l.expandParameters

open Classical in
/-- `forward`, r2_transposed_convolution.py L119-139 and r3_transposed_convolution.py L119-140. -/
noncomputable def forward (l : RdConvT n S (Rep G Id) A) (x : GMap n B S (Rep G Id)) : Except Err (GMap n B S (Rep G Id)) :=
  if x.type ≠ l.inType then .error .assertion
  else do
    let p ← l.current
    let y ← convTransposeNd p.1 l.kernelSize l.stride l.pad l.opad l.dilation l.groups p.2 x.map
    GMap.mk' Rep.size y l.outType

/-- `evaluate_output_shape`, rd_transposed_convolution.py L320-331; a tuple cannot be added to a number (L329). -/
def evaluateOutputShape {R : Type} (sz : R → ℕ) (l : RdConvT n S R A) : List ℤ → Except Err (List ℤ) :=
  checkedShape n (l.inType.size sz) fun b w =>
    match l.padding, l.outputPadding with
    | .int p, .int q => .ok (b :: (l.outType.size sz : ℤ) :: w.map fun wi => (wi - 1) * l.stride - 2 * p + l.dilation * ((l.kernelSize : ℤ) - 1) + q + 1)
    | _, _ => .error .type

end RdConvT

end Escnn
