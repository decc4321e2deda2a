import Verif.Model.NormTables

/-!
# Model of escnn/nn/modules/normalization/fieldnorm.py

The square root and the division are exact; for `eps = 0` and a constant field PyTorch divides by zero and returns NaN, which the model does not represent.
-/

namespace Escnn

variable {B P S G Id C : Type}

/-- `FieldNorm`, fieldnorm.py L21-161.  `names` are the names of the representations, from which `_nfields` is computed, `order` the names in `_sizes`; `weight` and `bias` are the current values of the
parameters `{name}_weight` and `{name}_bias`. -/
structure FieldNorm (S R : Type) where
  inType : FType S R
  eps : ℝ
  affine : Bool
  names : List String
  table : List (String × Bool × List ℕ)
  order : List String
  tabs : List (String × NormTab)
  weight : String → ℕ → ℝ
  bias : String → ℕ → ℕ → ℝ

namespace FieldNorm

/-- `FieldNorm.__init__`, fieldnorm.py L52-161; `uniq` is the set `in_type._unique_representations` in the order of the iteration. -/
noncomputable def init [DecidableEq Id] (size : Id → ℕ) (triv : Id) (uniq : List (Rep G Id)) (t : FType S (Rep G Id)) (eps : ℝ) (affine : Bool) : Except Err (FieldNorm S (Rep G Id)) := do
  let table ← runTable Rep.size t (t.reprs.map Rep.name)
  .ok ⟨t, eps, affine, t.reprs.map Rep.name, table, uniq.map Rep.name, uniq.map fun r => (r.name, NormTab.of size triv r), fun _ _ => 1, fun _ _ _ => 0⟩

/-- `_estimate_stats` for one field, fieldnorm.py L175-197: the variance. -/
noncomputable def variance (T : NormTab) (v : ℕ → ℝ) : ℝ := (∑ o ∈ Finset.range T.size, (v o - T.mean v o) ^ 2) / T.size

/-- What is computed for one field, fieldnorm.py L231-264. -/
noncomputable def normalize (T : NormTab) (eps : ℝ) (affine : Bool) (w : ℝ) (β : ℕ → ℝ) (v : ℕ → ℝ) (o : ℕ) : ℝ :=
  (v o - T.mean v o) * ((if affine then w else 1) / Real.sqrt (variance T v + eps)) + T.shift affine β o

/-- The body of the loop, fieldnorm.py L222-272, for the fields called `name`. -/
noncomputable def step {R : Type} (m : FieldNorm S R) (name : String) (d : FTensor B P) : Except Err (FTensor B P) := do
  let T ← tabGet m.tabs name
  let f ← d.toFields (m.names.count name) T.size
  .ok (⟨f.n, f.size, fun b n o p => normalize T m.eps m.affine (m.weight name n) (m.bias name n) (fun o => f.get b n o p) o⟩ : FieldsT B P).flat

open Classical in
/-- `forward`, fieldnorm.py L199-275; `junk` is the content of `torch.empty_like`. -/
noncomputable def forward (junk : B → ℕ → P → ℝ) (m : FieldNorm S (Rep G Id)) (x : GTensor B P S (Rep G Id) C) : Except Err (GTensor B P S (Rep G Id) C) :=
  if x.type = m.inType then do
    let out ← groupedLoop m.step m.table m.table x.tensor ⟨x.tensor.chans, junk⟩ m.order
    GTensor.mk' Rep.size out m.inType x.coords
  else .error .assertion

end FieldNorm

end Escnn
