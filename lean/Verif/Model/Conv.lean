import Verif.Model.Linear
import Verif.Model.Grid

/-!
# Model of escnn/nn/modules/conv/rd_convolution.py and r2convolution.py (and r3convolution.py, which differs in the dimension)

A feature map has a batch axis, a channel axis and `n` spatial axes.
-/

namespace Escnn

open NpMat

/-- A tensor of shape `(batch, chans, *shape)`. -/
structure FMap (n : ℕ) (B : Type) where
  chans : ℕ
  shape : Fin n → ℕ
  get : B → ℕ → (Fin n → ℕ) → ℝ

namespace FMap

variable {n : ℕ} {B : Type}

/-- Equal shapes and equal entries. -/
def Eqv (x y : FMap n B) : Prop := x.chans = y.chans ∧ x.shape = y.shape ∧ ∀ b, ∀ c < x.chans, ∀ k ∈ NdArr.Box x.shape, x.get b c k = y.get b c k

instance : HasEquiv (FMap n B) := ⟨Eqv⟩

end FMap

/-- A `GeometricTensor` without coordinates, geometric_tensor.py L226-253. -/
structure GMap (n : ℕ) (B S R : Type) where
  map : FMap n B
  type : FType S R

namespace GMap

variable {n : ℕ} {B S G Id : Type}

/-- `GeometricTensor(x, type, coords=None)`, geometric_tensor.py L226-253: `tensor.shape[1] == type.size`. -/
def mk' {R : Type} (sz : R → ℕ) (x : FMap n B) (t : FType S R) : Except Err (GMap n B S R) := if x.chans = t.size sz then .ok ⟨x, t⟩ else .error .assertion

/-- `transform`, geometric_tensor.py L385-411, `FieldType.transform`, field_type.py L338-346 and `_interpolate_transform_basespace`, gspace.py L225-228:
the fibres are transformed, then the base space by the matrix `base g`.  `interp` is the interpolation used when the matrix does not preserve the grid. -/
noncomputable def transform (base : G → NpMat ℝ) (interp : NdArr n (B × ℕ) → NpMat ℝ → Except Err (NdArr n (B × ℕ))) (x : GMap n B S (Rep G Id)) (g : G) : Except Err (GMap n B S (Rep G Id)) := do
  let y ← x.type.transformFibers (⟨x.map.chans, x.map.get⟩ : FTensor B (Fin n → ℕ)) g
  let z ← NdArr.linearTransform interp ⟨x.map.shape, fun l k => y.get l.1 l.2 k⟩ (base g)
  mk' Rep.size ⟨y.chans, z.shape, fun b c k => z.get (b, c) k⟩ x.type

end GMap

/-- `get_grid_coords(d, kernel_size, dilation)`, rd_convolution.py L379-401: row `i`, column `j`. -/
noncomputable def gridCoords (d k dil : ℕ) : List (Fin d → ℝ) :=
  (List.range (k ^ d)).map fun i j =>
    let origin : ℝ := (dil * ((k : ℝ) - 1) + 1) / 2 - 0.5
    let p : ℝ := ((i / k ^ (j : ℕ) % k : ℕ) : ℝ) * dil - origin
    if 1 ≤ j.val then p * -1 else p

/-- The values of `padding_mode`. -/
inductive PadMode where
  | zeros | reflect | replicate | circular | other
  deriving DecidableEq

/-- Where the value at position `q` comes from, for an axis of size `W` (contract of `torch.nn.functional.pad`); `none` is the value 0. -/
def padIndex (m : PadMode) (W : ℕ) (q : ℤ) : Option ℕ :=
  match m with
  | .reflect => some (if q < 0 then -q else if (W : ℤ) ≤ q then 2 * ((W : ℤ) - 1) - q else q).toNat
  | .replicate => some (if q < 0 then 0 else if (W : ℤ) ≤ q then (W : ℤ) - 1 else q).toNat
  | .circular => some (q % W).toNat
  | _ => if 0 ≤ q ∧ q < W then some q.toNat else none

/-- The sizes accepted by `torch.nn.functional.pad`. -/
def padOk (m : PadMode) (W p : ℕ) : Prop :=
  match m with
  | .reflect => p < W
  | .replicate => 0 < W
  | .circular => p ≤ W ∧ 0 < W
  | _ => True

open Classical in
/-- `torch.nn.functional.pad(x, (p_n, p_n, …, p_1, p_1), mode)` (contract). -/
noncomputable def padMap {n : ℕ} {B : Type} (m : PadMode) (p : Fin n → ℕ) (x : FMap n B) : Except Err (FMap n B) :=
  if ∀ i, padOk m (x.shape i) (p i) then
    .ok ⟨x.chans, fun i => x.shape i + 2 * p i, fun b c k =>
      if ∀ i, (padIndex m (x.shape i) ((k i : ℤ) - p i)).isSome then x.get b c fun i => (padIndex m (x.shape i) ((k i : ℤ) - p i)).getD 0 else 0⟩
  else .error .runtime

/-- The position of the entry `u` of a filter in the flattened filter: `reshape(o, i, k, …, k)`, rd_convolution.py L273, is row-major. -/
def flatIndex {n : ℕ} (k : ℕ) (u : Fin n → Fin k) : ℕ := ∑ l : Fin n, (u l : ℕ) * k ^ (l.rev : ℕ)

open Classical in
/-- `conv2d` without padding (contract of PyTorch; `conv3d` is the same with another dimension): the output channel `o` belongs to group `o / (out / groups)`, and reads the input channels of that
group. -/
noncomputable def convValid {n : ℕ} {B : Type} (F : Kern) (k stride dil groups : ℕ) (b : Option (ℕ → ℝ)) (x : FMap n B) : Except Err (FMap n B) :=
  if 0 < k ∧ 0 < stride ∧ 0 < dil ∧ 0 < groups ∧ F.rows % groups = 0 ∧ x.chans = groups * F.cols ∧ ∀ i, dil * (k - 1) + 1 ≤ x.shape i then
    .ok ⟨F.rows, fun i => (x.shape i - dil * (k - 1) - 1) / stride + 1, fun s o p =>
      ∑ c ∈ Finset.range F.cols, ∑ u : Fin n → Fin k, F.get o c (flatIndex k u) * x.get s (o / (F.rows / groups) * F.cols + c) (fun i => p i * stride + u i * dil) +
        Linear.biasAt b o⟩
  else .error .runtime

/-- `conv2d` with padding (contract). -/
noncomputable def convNd {n : ℕ} {B : Type} (F : Kern) (k stride : ℕ) (p : Fin n → ℕ) (dil groups : ℕ) (b : Option (ℕ → ℝ)) (x : FMap n B) : Except Err (FMap n B) := do
  let y ← padMap .zeros p x
  convValid F k stride dil groups b y

/-- The argument `padding`: an integer or a tuple. -/
inductive Padding where
  | int (p : ℕ)
  | tuple (l : List ℕ)

/-- `_padding`, rd_convolution.py L146-151. -/
def Padding.axes (n : ℕ) : Padding → Except Err (Fin n → ℕ)
  | .int p => .ok fun _ => p
  | .tuple l => if l.length = n then .ok fun i => l.getD i 0 else .error .value

/-- The attributes of `_RdConv`. -/
structure RdConv (n : ℕ) (S R A : Type) where
  inType : FType S R
  outType : FType S R
  kernelSize : ℕ
  padding : Padding
  axes : Fin n → ℕ
  stride : ℕ
  dilation : ℕ
  mode : PadMode
  groups : ℕ
  blocks : Blocks R A
  biasExpansion : Option (NpMat ℝ)
  weights : ℕ → ℝ
  bias : ℕ → ℝ
  training : Bool
  filter : Option Kern
  expandedBias : Option (Option (ℕ → ℝ))

namespace RdConv

variable {n : ℕ} {S G Id A B : Type} [DecidableEq Id]

open Classical in
/-- The input type seen by the basis expansion, L158-175.  Representations are compared as a whole, not by `Representation.__eq__`. -/
noncomputable def groupType {R : Type} (groups : ℕ) (inType outType : FType S R) : Except Err (FType S R) :=
  if 1 < groups then
    if ¬ (inType.reprs.length % groups = 0 ∧ outType.reprs.length % groups = 0) then .error .assertion
    else if ¬ ((∀ i < inType.reprs.length, inType.reprs[i]? = inType.reprs[i % (inType.reprs.length / groups)]?) ∧
        ∀ i < outType.reprs.length, outType.reprs[i]? = outType.reprs[i % (outType.reprs.length / groups)]?) then .error .assertion
    else inType.indexSelect ((List.range (inType.reprs.length / groups)).map fun i : ℕ => (i : ℤ))
  else .ok inType

open Classical in
/-- `_RdConv.__init__`, rd_convolution.py L128-242 (and R2Conv.__init__).  `gen pts` is the generator of the bases sampled at the points `pts`, `filt` is `basis_filter`, `uin` and `uout` list the sets of
representations, `w0` are the weights after the initialization, `gdim` is the dimension of the base space. -/
noncomputable def init (size : Id → ℕ) (triv : Id) (gdim : S → ℕ) (gen : List (Fin n → ℝ) → Rep G Id → Rep G Id → Except Err (KBasis A)) (filt : Option (Attr A → Bool)) (uin uout : List (Rep G Id))
    (inType outType : FType S (Rep G Id)) (kernelSize : ℕ) (padding : Padding) (stride dilation : ℕ) (mode : PadMode) (groups : ℕ) (bias : Bool) (w0 : ℕ → ℝ) :
    Except Err (RdConv n S (Rep G Id) A) := do
  if inType.gspace ≠ outType.gspace ∨ n < gdim inType.gspace then .error .assertion
  else
    let axes ← padding.axes n
    if mode = .other then .error .value
    else
      let inType' ← groupType groups inType outType
      let be := if bias then Bias.expansion size triv outType.reprs else none
      let grid := gridCoords n kernelSize dilation
      let b ← Blocks.init Rep.name Rep.size (Blocks.blockFor (gen grid) filt (kernelSize ^ n)) uin uout inType'.reprs outType.reprs (kernelSize ^ n)
      if b.dim = 0 then .error .value
      else .ok ⟨inType, outType, kernelSize, padding, axes, stride, dilation, mode, groups, b, be, w0, fun _ => 0, true, some ⟨outType.size Rep.size, inType'.size Rep.size, fun _ _ _ => 0⟩, some (be.map fun _ _ => 0)⟩

/-- `expand_parameters`, rd_convolution.py L262-280; the filter is kept flat, see `flatIndex`. -/
noncomputable def expandParameters {R : Type} (l : RdConv n S R A) : Except Err (Kern × Option (ℕ → ℝ)) := do
  let F ← Blocks.forward l.blocks l.blocks.dim l.weights
  .ok (F, l.biasExpansion.map fun B => Bias.expand B l.bias)

/-- `train(mode)`, rd_convolution.py L296-336. -/
noncomputable def train {R : Type} (l : RdConv n S R A) (mode : Bool) : Except Err (RdConv n S R A) :=
  if mode then .ok { l with filter := none, expandedBias := none, training := true }
  else if l.training then do
    let p ← l.expandParameters
    .ok { l with filter := some p.1, expandedBias := some p.2, training := false }
  else .ok { l with training := false }

/-- The parameters used by `forward`, r2convolution.py L206-212. -/
noncomputable def current {R : Type} (l : RdConv n S R A) : Except Err (Kern × Option (ℕ → ℝ)) :=
  if ¬ l.training then
    match l.filter, l.expandedBias with
    | some M, some b => .ok (M, b)
    | _, _ => .error .attribute
  else l.expandParameters

/-- The convolution of `forward`, r2convolution.py L216-229. -/
noncomputable def convolve {R : Type} (l : RdConv n S R A) (F : Kern) (b : Option (ℕ → ℝ)) (x : FMap n B) : Except Err (FMap n B) :=
  if l.mode = .zeros then convNd F l.kernelSize l.stride l.axes l.dilation l.groups b x
  else do
    let y ← padMap l.mode l.axes x
    convNd F l.kernelSize l.stride (fun _ => 0) l.dilation l.groups b y

open Classical in
/-- `forward`, r2convolution.py L193-231. -/
noncomputable def forward (l : RdConv n S (Rep G Id) A) (x : GMap n B S (Rep G Id)) : Except Err (GMap n B S (Rep G Id)) :=
  if x.type ≠ l.inType then .error .assertion
  else do
    let p ← l.current
    let y ← l.convolve p.1 p.2 x.map
    GMap.mk' Rep.size y l.outType

end RdConv

end Escnn
