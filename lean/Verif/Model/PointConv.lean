import Verif.Model.Conv
import Verif.Model.Sampler
import Verif.Model.KernelsR2

/-!
# Model of escnn/nn/modules/pointconv/rd_point_convolution.py and r2_point_convolution.py

A point cloud has `N` points with coordinates in `n` dimensions and one feature vector per point.
-/

namespace Escnn

open NpMat

/-- A `GeometricTensor` with coordinates, geometric_tensor.py L226-253: `coords` has the shape `(size, n)`, `feats` the shape `(size, chans)`. -/
structure GPoints (n : ℕ) (S R : Type) where
  size : ℕ
  coords : ℕ → Fin n → ℝ
  chans : ℕ
  feats : ℕ → ℕ → ℝ
  type : FType S R

namespace GPoints

variable {n : ℕ} {S G Id : Type}

/-- `GeometricTensor(x, type, coords)`, geometric_tensor.py L226-253: the assertions on the dimension (`gdim` is `gspace.dimensionality`) and on the number of channels. -/
def mk' {R : Type} (sz : R → ℕ) (gdim : S → ℕ) (size : ℕ) (coords : ℕ → Fin n → ℝ) (chans : ℕ) (feats : ℕ → ℕ → ℝ) (t : FType S R) : Except Err (GPoints n S R) :=
  if n = gdim t.gspace ∧ chans = t.size sz then .ok ⟨size, coords, chans, feats, t⟩ else .error .assertion

/-- `transform`, geometric_tensor.py L385-411, with `FieldType.transform`, field_type.py L338-366: `transform_fibers` and `einsum("oi,pi->po", base(g), coords)`. -/
noncomputable def transform (gdim : S → ℕ) (base : G → NpMat ℝ) (x : GPoints n S (Rep G Id)) (g : G) : Except Err (GPoints n S (Rep G Id)) := do
  let y ← x.type.transformFibers (⟨x.chans, fun p c _ => x.feats p c⟩ : FTensor ℕ Unit) g
  if n ≠ gdim x.type.gspace then .error .assertion
  else if (base g).cols ≠ n then .error .runtime
  else if (base g).rows ≠ n then .error .assertion
  else mk' Rep.size gdim x.size (fun p o => ∑ i : Fin n, (base g).get o i * x.coords p i) y.chans (fun p c => y.get p c ()) x.type

/-- Equal coordinates and features, and the same type. -/
def Eqv {R : Type} (x y : GPoints n S R) : Prop :=
  x.size = y.size ∧ x.chans = y.chans ∧ x.type = y.type ∧ ∀ p < x.size, x.coords p = y.coords p ∧ ∀ c < x.chans, x.feats p c = y.feats p c

instance {R : Type} : HasEquiv (GPoints n S R) := ⟨Eqv⟩

end GPoints

/-- A `SteerableKernelBasis` as `SingleBlockBasisSampler` sees it, basissampler_singleblock.py L28-74: its attributes, and `sample` at points which are passed in each call; `dec` reads the coordinates.  `SKB.sample` does not fail for the bases which
the constructors return (C37, C38). -/
noncomputable def SKB.pbasis {X J J' P A : Type} [DecidableEq J] [DecidableEq J'] (Fsize : J → ℕ) (F : FBasis J P A) (dec : X → P) (s : SKB J J' A) : Except Err (PBasis X (SAttr J J' A)) := do
  let L ← s.iter
  .ok ⟨s.rows, s.cols, L.map (SAttr.toAttr s.rows), fun pts p o i e =>
    match pts[p]? with
    | none => 0
    | some x => match SKB.sample Fsize F s (dec x) e with
      | .ok M => M.get o i
      | .error _ => 0⟩

/-- A generator of kernel bases for `BlocksBasisSampler`. -/
noncomputable def sampleGen {X J J' P A G : Type} [DecidableEq J] [DecidableEq J'] (Fsize : J → ℕ) (F : FBasis J P A) (dec : X → P) (mk : Rep G J' → Rep G J' → Except Err (SKB J J' A)) (rin rout : Rep G J') :
    Except Err (PBasis X (SAttr J J' A)) := do
  let s ← mk rin rout
  s.pbasis Fsize F dec

/-- `_build_kernel_basis`, r2_point_convolution.py L164-168, with `build_kernel_basis`, gspace.py L369-458 (without the cache, see C22). -/
noncomputable def planeSampleGen {H J' : Type} [DecidableEq J'] (kern : Rep H J' → Rep H J' → Except Err (SKB (ℕ × ℕ) J' (Option StAttr) × FBasis (ℕ × ℕ) (ℝ × ℝ) (Option StAttr)))
    (rin rout : Rep H J') : Except Err (PBasis (Fin 2 → ℝ) (SAttr (ℕ × ℕ) J' (Option StAttr))) := do
  let sF ← kern rin rout
  sF.1.pbasis O2.table.size sF.2 fun v : Fin 2 → ℝ => (v 0, v 1)

/-- The attributes of `_RdPointConv`. -/
structure PointConv (n : ℕ) (S R A : Type) where
  inType : FType S R
  outType : FType S R
  groups : ℕ
  sampler : Sampler (Fin n → ℝ) A
  biasExpansion : Option (NpMat ℝ)
  weights : ℕ → ℝ
  bias : ℕ → ℝ
  training : Bool
  expandedBias : Option (Option (ℕ → ℝ))

namespace PointConv

variable {n : ℕ} {S G Id A : Type} [DecidableEq Id]

open Classical in
/-- `_RdPointConv.__init__`, rd_point_convolution.py L113-207 (and `R2PointConv.__init__`, r2_point_convolution.py L151-162).  `gen` is `_build_kernel_basis`, `filt` is `basis_filter`, `uin` and `uout` list the sets of representations, `w0` are the weights after the
initialization. -/
noncomputable def init (size : Id → ℕ) (triv : Id) (gdim : S → ℕ) (gen : Rep G Id → Rep G Id → Except Err (PBasis (Fin n → ℝ) A)) (filt : Option (Attr A → Bool)) (uin uout : List (Rep G Id))
    (inType outType : FType S (Rep G Id)) (groups : ℕ) (bias : Bool) (w0 : ℕ → ℝ) : Except Err (PointConv n S (Rep G Id) A) := do
  if inType.gspace ≠ outType.gspace ∨ gdim inType.gspace ≠ n then .error .assertion
  else
    let inType' ← RdConv.groupType groups inType outType
    let be := if bias then Bias.expansion size triv outType.reprs else none
    let m ← Sampler.init Rep.name Rep.size (Sampler.blockFor Rep.name gen filt) uin uout inType'.reprs outType.reprs
    if m.dim = 0 then .error .value
    else .ok ⟨inType, outType, groups, m, be, w0, fun _ => 0, true, some (be.map fun _ _ => 0)⟩

/-- `expand_bias`, rd_point_convolution.py L230-244. -/
noncomputable def expandBias {R : Type} (l : PointConv n S R A) : Option (ℕ → ℝ) := l.biasExpansion.map fun B => Bias.expand B l.bias

/-- `train(mode)`, rd_point_convolution.py L340-376. -/
noncomputable def train {R : Type} (l : PointConv n S R A) (mode : Bool) : PointConv n S R A :=
  if mode then { l with expandedBias := none, training := true }
  else if l.training then { l with expandedBias := some l.expandBias, training := false }
  else { l with training := false }

/-- `edge_delta`, rd_point_convolution.py L308-311: `pos[row] - pos[cols]` if it is not passed.  The edges are the pairs of `edge_index`. -/
def deltas (pos : ℕ → Fin n → ℝ) (edges : List (ℕ × ℕ)) : Option (List (Fin n → ℝ)) → List (Fin n → ℝ)
  | none => edges.map fun e i => pos e.1 i - pos e.2 i
  | some d => d

/-- `message`, rd_point_convolution.py L328-338, for all the edges at once: `x_j` is the feature vector of the first point of the edge. -/
noncomputable def message {R : Type} (l : PointConv n S R A) (chans : ℕ) (x : ℕ → ℕ → ℝ) (edges : List (ℕ × ℕ)) (d : List (Fin n → ℝ)) : Except Err Sampler.Feats :=
  l.sampler.messages l.sampler.dim l.weights ⟨edges.length, chans, fun e c => edges[e]?.elim 0 fun d => x d.1 c⟩ d true l.groups

/-- The aggregation of `MessagePassing(aggr='mean')` (rd_point_convolution.py L117, contract): the mean of the messages of the edges which end in the point, `0` if there are none. -/
noncomputable def mean (edges : List (ℕ × ℕ)) (msg : ℕ → ℕ → ℝ) (p c : ℕ) : ℝ :=
  (∑ e ∈ (Finset.range edges.length).filter fun e => (edges[e]?.getD (0, 0)).2 = p, msg e c) / max 1 (edges.filter fun e => decide (e.2 = p)).length

/-- The bias used by `forward`, rd_point_convolution.py L315-319. -/
noncomputable def current {R : Type} (l : PointConv n S R A) : Except Err (Option (ℕ → ℝ)) :=
  if ¬ l.training then
    match l.expandedBias with
    | some b => .ok b
    | none => .error .attribute
  else .ok l.expandBias

open Classical in
/-- `forward`, rd_point_convolution.py L274-326; an edge with a point which does not exist raises `IndexError`. -/
noncomputable def forward (gdim : S → ℕ) (l : PointConv n S (Rep G Id) A) (edges : List (ℕ × ℕ)) (delta : Option (List (Fin n → ℝ))) (x : GPoints n S (Rep G Id)) : Except Err (GPoints n S (Rep G Id)) :=
  if x.type ≠ l.inType then .error .assertion
  else if ¬ ∀ e ∈ edges, e.1 < x.size ∧ e.2 < x.size then .error .index
  else do
    let y ← l.message x.chans x.feats edges (deltas x.coords edges delta)
    let b ← l.current
    GPoints.mk' Rep.size gdim x.size x.coords y.cols (fun p c => mean edges y.get p c + Linear.biasAt b c) l.outType

/-- `evaluate_output_shape`, rd_point_convolution.py L378-382. -/
def outputShape {R : Type} (sz : R → ℕ) (l : PointConv n S R A) (shape : List ℕ) : Except Err (List ℕ) :=
  match shape with
  | [b, c, p] => if c = l.inType.size sz then .ok [b, l.outType.size sz, p] else .error .assertion
  | _ => .error .assertion

end PointConv

end Escnn
