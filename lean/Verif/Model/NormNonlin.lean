import Verif.Model.Grouped
import Verif.Model.Pointwise
import Mathlib.Data.List.Sort
import Mathlib.Analysis.SpecialFunctions.Sqrt

/-!
# Model of escnn/nn/modules/nonlinearities/norm.py
-/

namespace Escnn

/-- `.norm(dim=2)` of one field. -/
noncomputable def fieldNormOf (s : ℕ) (v : ℕ → ℝ) : ℝ := Real.sqrt (∑ o ∈ Finset.range s, v o ^ 2)

/-- `NormNonLinearity`, norm.py L42-117.  `order` is `_order`, `sizes` the sizes of the representations, from which `_nfields` is computed; `logBias` is `None` or the entries of the parameter `log_bias`. -/
structure NormNL (S R : Type) where
  inType : FType S R
  function : ℝ → ℝ
  sizes : List ℕ
  table : List (ℕ × Bool × List ℕ)
  logBias : Option (ℕ → ℝ)
  order : List ℕ
  eps : ℝ

namespace NormNL

variable {B P S G Id C : Type}

/-- The function of a name, norm.py L57-67; the bias is not allowed for `squash`. -/
noncomputable def functionOf (function : String) (bias : Bool) : Except Err (ℝ → ℝ) :=
  if function = "n_relu" then .ok torchRelu
  else if function = "n_sigmoid" then .ok torchSigmoid
  else if function = "n_softplus" then .ok torchSoftplus
  else if function = "squash" then if bias then .error .assertion else .ok fun t => t / (1 + t)
  else .error .value

/-- `NormNonLinearity.__init__`, norm.py L42-117. -/
noncomputable def init (t : FType S (Rep G Id)) (function : String) (bias : Bool) : Except Err (NormNL S (Rep G Id)) :=
  if ∀ r ∈ t.reprs, "norm" ∈ r.nonlin then do
    let f ← functionOf function bias
    let table ← runTable Rep.size t (t.reprs.map Rep.size)
    .ok ⟨t, f, t.reprs.map Rep.size, table, if bias then some fun _ => 0 else none, (keysInOrder (t.reprs.map Rep.size)).mergeSort (fun a b => decide (a ≤ b)), 1 / 10 ^ 10⟩
  else .error .assertion

/-- The value of `next_bias` for the size `s`, norm.py L142, L196: the number of fields of the sizes before `s` in `_order`. -/
def nextBias {R : Type} (m : NormNL S R) (s : ℕ) : ℕ := ((m.order.takeWhile (· ≠ s)).map fun s' => m.sizes.count s').sum

/-- `m = new_norms / max(norms, eps)`, `m[norms <= eps] = 0`, norm.py L171-185, for the field with bias number `i`. -/
noncomputable def multiplier {R : Type} (m : NormNL S R) (i : ℕ) (norm : ℝ) : ℝ :=
  let new := match m.logBias with
    | some lb => m.function (norm - Real.exp (lb i))
    | none => m.function norm
  if norm ≤ m.eps then 0 else new / max norm m.eps

/-- The multipliers of the fields of size `s`, norm.py L168-189. -/
noncomputable def step {R : Type} (m : NormNL S R) (s : ℕ) (d : FTensor B P) : Except Err (FTensor B P) := do
  let f ← d.toFields (m.sizes.count s) s
  .ok (⟨f.n, f.size, fun b n _ p => m.multiplier (m.nextBias s + n) (fieldNormOf s fun o => f.get b n o p)⟩ : FieldsT B P).flat

open Classical in
/-- `forward`, norm.py L119-199; `junk` is the content of `torch.empty_like`. -/
noncomputable def forward (junk : B → ℕ → P → ℝ) (m : NormNL S (Rep G Id)) (x : GTensor B P S (Rep G Id) C) : Except Err (GTensor B P S (Rep G Id) C) :=
  if x.type = m.inType then do
    let mult ← groupedLoop m.step m.table m.table x.tensor ⟨x.tensor.chans, junk⟩ m.order
    GTensor.mk' Rep.size ⟨x.tensor.chans, fun b c p => x.tensor.get b c p * mult.get b c p⟩ m.inType x.coords
  else .error .assertion

end NormNL

end Escnn
