import Verif.Model.NormNonlin

/-!
# Model of escnn/nn/modules/dropout: field.py, pointwise.py

The random numbers drawn by `uniform_()` and `torch.nn.functional.dropout` are an argument.  The division by `1 - p` is exact; for `p = 1` PyTorch divides by zero and returns NaN in `dropout_field`, which the
model does not represent.
-/

namespace Escnn

variable {B P S R G Id C L : Type}

open Classical in
/-- The factor `mask / (1. - p)` for the random number `u`, field.py L32-39. -/
noncomputable def dropFactor (p u : ℝ) : ℝ := (if u > p then 1 else 0) / (1 - p)

/-- The loop over the sizes with `inplace`, field.py L144-164: for contiguous fields the result is written to a view of the input, for the others to a copy, which is dropped. -/
def inplaceLoop [DecidableEq L] (F : L → FTensor B P → Except Err (FTensor B P)) (tab : List (L × Bool × List ℕ)) : FTensor B P → List L → Except Err (FTensor B P)
  | x, [] => .ok x
  | x, l :: ls => do
    let i ← tabGet tab l
    let d ← readIdx x i.1 i.2
    let e ← F l d
    if i.1 then do
      let x ← writeIdx x true i.2 e
      inplaceLoop F tab x ls
    else inplaceLoop F tab x ls

/-- `FieldDropout`, field.py L44-119. -/
structure FieldDropout (S R : Type) where
  inType : FType S R
  p : ℝ
  inplace : Bool
  sizes : List ℕ
  table : List (ℕ × Bool × List ℕ)
  order : List ℕ

namespace FieldDropout

open Classical in
/-- `FieldDropout.__init__`, field.py L65-119. -/
noncomputable def init (sz : R → ℕ) (t : FType S R) (p : ℝ) (inplace : Bool) : Except Err (FieldDropout S R) :=
  if p < 0 ∨ p > 1 then .error .value
  else do
    let table ← runTable sz t (t.reprs.map sz)
    .ok ⟨t, p, inplace, t.reprs.map sz, table, keysInOrder (t.reprs.map sz)⟩

/-- `dropout_field`, field.py L20-41, for the fields of size `s`; `u` are the random numbers: one for each sample, field and position. -/
noncomputable def step (m : FieldDropout S R) (u : ℕ → B → ℕ → P → ℝ) (s : ℕ) (d : FTensor B P) : Except Err (FTensor B P) := do
  let f ← d.toFields (m.sizes.count s) s
  .ok (⟨f.n, f.size, fun b n o p => f.get b n o p * dropFactor m.p (u s b n p)⟩ : FieldsT B P).flat

open Classical in
/-- `forward`, field.py L121-167, in the mode `training`; `u s` are the random numbers drawn for the fields of size `s` and `junk` is the content of `torch.empty_like`.  With `inplace`, the tensor of the input is
overwritten by the output, too. -/
noncomputable def forward (sz : R → ℕ) (training : Bool) (u : ℕ → B → ℕ → P → ℝ) (junk : B → ℕ → P → ℝ) (m : FieldDropout S R) (x : GTensor B P S R C) : Except Err (GTensor B P S R C) :=
  if x.type = m.inType then
    if ¬ training then .ok x
    else if m.inplace then do
      let out ← inplaceLoop (m.step u) m.table x.tensor m.order
      GTensor.mk' sz out m.inType x.coords
    else do
      let out ← groupedLoop (m.step u) m.table m.table x.tensor ⟨x.tensor.chans, junk⟩ m.order
      GTensor.mk' sz out m.inType x.coords
  else .error .assertion

end FieldDropout

/-- `PointwiseDropout`, pointwise.py L15-52. -/
structure PointDropout (S R : Type) where
  inType : FType S R
  p : ℝ
  inplace : Bool

namespace PointDropout

open Classical in
/-- `PointwiseDropout.__init__`, pointwise.py L37-52. -/
noncomputable def init (t : FType S (Rep G Id)) (p : ℝ) (inplace : Bool) : Except Err (PointDropout S (Rep G Id)) :=
  if p < 0 ∨ p > 1 then .error .value
  else if ∀ r ∈ t.reprs, "pointwise" ∈ r.nonlin then .ok ⟨t, p, inplace⟩
  else .error .assertion

open Classical in
/-- `torch.nn.functional.dropout`, entry by entry: the identity unless `training`, zero for `p = 1`. -/
noncomputable def torchDropout (training : Bool) (p u t : ℝ) : ℝ := if training then if p = 1 then 0 else t * dropFactor p u else t

open Classical in
/-- `forward`, pointwise.py L54-70; `u` are the random numbers: one for each sample, channel and position.  `inplace` only changes where the result is stored. -/
noncomputable def forward (sz : R → ℕ) (training : Bool) (u : B → ℕ → P → ℝ) (m : PointDropout S R) (x : GTensor B P S R C) : Except Err (GTensor B P S R C) :=
  if x.type = m.inType then GTensor.mk' sz ⟨x.tensor.chans, fun b c p => torchDropout training m.p (u b c p) (x.tensor.get b c p)⟩ m.inType x.coords else .error .assertion

end PointDropout

end Escnn
