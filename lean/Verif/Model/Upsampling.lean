import Verif.Model.Pooling
import Verif.Model.Dropout
import Verif.Model.TypeModules
import Verif.Model.Export

/-!
# Model of the upsampling modules, of `IdentityModule` and of the remaining exports
-/

namespace Escnn

variable {n : ℕ} {B P S R C G Id : Type}

/-- The ratio between positions in the input and in the output of `torch.nn.functional.interpolate` for an axis of size `W` resized to `M` (contract of `area_pixel_compute_scale`). -/
noncomputable def interpRatio (align : Bool) (scale : Option ℚ) (W M : ℕ) : ℝ :=
  if align then if 1 < M then ((W : ℝ) - 1) / ((M : ℝ) - 1) else 0
  else match scale with
    | some s => 1 / (s : ℝ)
    | none => (W : ℝ) / M

/-- The position in the input which belongs to the position `o` of the output, linear modes (contract of `area_pixel_compute_source_index`). -/
noncomputable def interpSource (align : Bool) (ratio : ℝ) (o : ℕ) : ℝ := if align then ratio * o else max 0 (ratio * ((o : ℝ) + 1 / 2) - 1 / 2)

/-- The left of the two neighbours of a position (contract of `guard_index_and_lambda`). -/
noncomputable def interpLeft (W : ℕ) (src : ℝ) : ℕ := min ⌊src⌋₊ (W - 1)

/-- The weight of the right neighbour (contract of `guard_index_and_lambda`). -/
noncomputable def interpLambda (W : ℕ) (src : ℝ) : ℝ := min (max (src - interpLeft W src) 0) 1

/-- The weight of the entry `k` of the input in the linear modes: the two neighbours have the weights `1 - λ` and `λ`. -/
noncomputable def interpWeight (W : ℕ) (src : ℝ) (k : ℕ) : ℝ :=
  (if k = interpLeft W src then 1 - interpLambda W src else 0) +
    if k = (if interpLeft W src < W - 1 then interpLeft W src + 1 else interpLeft W src) then interpLambda W src else 0

/-- The entry of the input which is copied to the position `o` in the mode `nearest` (contract of `nearest_neighbor_compute_source_index`). -/
noncomputable def nearestIndex (scale : Option ℚ) (W M o : ℕ) : ℕ := min ⌊(o : ℝ) * interpRatio false scale W M⌋₊ (W - 1)

/-- The size of an axis in the output of `torch.nn.functional.interpolate`. -/
def interpSize (size : Option (Fin n → ℕ)) (scale : Option ℚ) (i : Fin n) (W : ℕ) : ℕ :=
  match size with
  | some m => m i
  | none => ⌊(W : ℚ) * scale.getD 0⌋.toNat

/-- `torch.nn.functional.interpolate(x, size, scale_factor, mode, align_corners)`: contract of the external function for the modes `nearest`, `bilinear` (images) and `trilinear` (volumes). -/
noncomputable def interpolate (size : Option (Fin n → ℕ)) (scale : Option ℚ) (mode : String) (align : Option Bool) (x : FMap n B) : Except Err (FMap n B) :=
  if size.isSome = scale.isSome then .error .value
  else if ¬ ((∀ i, 0 < x.shape i) ∧ ∀ i, 0 < interpSize size scale i (x.shape i)) then .error .runtime
  else if mode = "nearest" then
    if align.isSome then .error .value
    else .ok ⟨x.chans, fun i => interpSize size scale i (x.shape i), fun b c o => x.get b c fun i => nearestIndex scale (x.shape i) (interpSize size scale i (x.shape i)) (o i)⟩
  else if (mode = "bilinear" ∧ n = 2) ∨ (mode = "trilinear" ∧ n = 3) then
    .ok ⟨x.chans, fun i => interpSize size scale i (x.shape i), fun b c o =>
      ∑ k ∈ Fintype.piFinset fun i => Finset.range (x.shape i),
        (∏ i, interpWeight (x.shape i) (interpSource (align.getD false) (interpRatio (align.getD false) scale (x.shape i) (interpSize size scale i (x.shape i))) (o i)) (k i)) * x.get b c k⟩
  else .error .notImplemented

/-- `_RdUpsampling`, `R2Upsampling` and `R3Upsampling`, rdupsampling.py L68-82.  A size given as an integer is the tuple which repeats it. -/
structure Upsampling (n : ℕ) (S R : Type) where
  inType : FType S R
  size : Option (Fin n → ℕ)
  scale : Option ℚ
  mode : String
  align : Option Bool

namespace Upsampling

/-- `__init__`, rdupsampling.py L25-91, L164-207 and L290-333. -/
def init (gdim : S → ℕ) (t : FType S R) (scale : Option ℚ) (size : Option (Fin n → ℕ)) (mode : String) (align : Bool) : Except Err (Upsampling n S R) :=
  if n ≠ 2 ∧ n ≠ 3 then .error .assertion
  else if gdim t.gspace ≠ n then .error .assertion
  else if ¬ (size = none ∨ scale = none) then .error .assertion
  else if ¬ (mode = "nearest" ∨ (n = 2 ∧ mode = "bilinear") ∨ (n = 3 ∧ mode = "trilinear")) then .error .value
  else .ok ⟨t, size, scale, mode, if mode ≠ "nearest" then some align else none⟩

open Classical in
/-- `forward`, rdupsampling.py L93-119. -/
noncomputable def forward (sz : R → ℕ) (m : Upsampling n S R) (x : GMap n B S R) : Except Err (GMap n B S R) :=
  if x.type ≠ m.inType then .error .assertion
  else do
    let y ← interpolate m.size m.scale m.mode m.align x.map
    GMap.mk' sz y m.inType

/-- `evaluate_output_shape`, rdupsampling.py L121-135.  Without size and scale factor the product with `None` raises `TypeError`. -/
def evaluateOutputShape (sz : R → ℕ) (m : Upsampling n S R) : List ℤ → Except Err (List ℤ) :=
  checkedShape n (m.inType.size sz) fun b w =>
    match m.size with
    | some s => .ok (b :: (m.inType.size sz : ℤ) :: List.ofFn fun i => (s i : ℤ))
    | none =>
      match m.scale with
      | some f => .ok (b :: (m.inType.size sz : ℤ) :: List.ofFn fun i : Fin n => ⌊(w.getD i 0 : ℚ) * f⌋)
      | none => .error .type

/-- `export`, rdupsampling.py L137-159: `torch.nn.Upsample` calls `interpolate` with the attributes given to it. -/
noncomputable def export' (m : Upsampling n S R) : FMap n B → Except Err (FMap n B) := interpolate m.size m.scale m.mode m.align

end Upsampling

open Classical in
/-- `IdentityModule.forward`, identity_module.py L30-44. -/
noncomputable def identityForward (t : FType S R) (x : GTensor B P S R C) : Except Err (GTensor B P S R C) := if x.type = t then .ok x else .error .assertion

/-- `torch.nn.Identity`: `IdentityModule.export`, identity_module.py L56-65, and `RestrictionModule.export`, restriction_module.py L90-99. -/
def identityExport (x : FTensor B P) : Except Err (FTensor B P) := .ok x

/-- `PointwiseDropout.export`, dropout/pointwise.py L81-89: `torch.nn.Dropout(p, inplace)` in evaluation mode. -/
noncomputable def PointDropout.export' (m : PointDropout S R) (u : B → ℕ → P → ℝ) (x : FTensor B P) : Except Err (FTensor B P) :=
  .ok ⟨x.chans, fun b c p => torchDropout false m.p (u b c p) (x.get b c p)⟩

end Escnn
