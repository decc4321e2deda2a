import Verif.Model.Arith
import Mathlib.Analysis.SpecialFunctions.Exp
import Mathlib.Analysis.SpecialFunctions.Trigonometric.DerivHyp

/-!
# Model of escnn/nn/modules/nonlinearities: pointwise.py, relu.py, leakyrelu.py, elu.py
-/

namespace Escnn

/-- `torch.relu`. -/
noncomputable def torchRelu (t : ℝ) : ℝ := max t 0
/-- `torch.nn.functional.elu(·, alpha)`. -/
noncomputable def torchElu (alpha t : ℝ) : ℝ := if 0 < t then t else alpha * (Real.exp t - 1)
/-- `torch.nn.functional.leaky_relu(·, negative_slope)`. -/
noncomputable def torchLeakyRelu (slope t : ℝ) : ℝ := if 0 ≤ t then t else slope * t
/-- `torch.sigmoid`. -/
noncomputable def torchSigmoid (t : ℝ) : ℝ := 1 / (1 + Real.exp (-t))
/-- `torch.nn.functional.softplus`; PyTorch replaces it by the identity for `t > 20`, which agrees up to rounding. -/
noncomputable def torchSoftplus (t : ℝ) : ℝ := Real.log (1 + Real.exp t)

/-- `PointwiseNonLinearity`, `ReLU`, `LeakyReLU` and `ELU`: modules which apply a function to every entry.  With `inplace`, the tensor of the input is overwritten by the output, too. -/
structure PointwiseNL (S R : Type) where
  inType : FType S R
  function : ℝ → ℝ

namespace PointwiseNL

variable {B P S G Id C : Type}

/-- The checks of the constructors, pointwise.py L41-49, relu.py L39-47, leakyrelu.py L37-48, elu.py L40-49. -/
def make (f : ℝ → ℝ) (t : FType S (Rep G Id)) : Except Err (PointwiseNL S (Rep G Id)) :=
  if ∀ r ∈ t.reprs, "pointwise" ∈ r.nonlin then .ok ⟨t, f⟩ else .error .assertion

/-- `PointwiseNonLinearity.__init__`, pointwise.py L37-61. -/
noncomputable def init (t : FType S (Rep G Id)) (function : String) : Except Err (PointwiseNL S (Rep G Id)) :=
  if ∀ r ∈ t.reprs, "pointwise" ∈ r.nonlin then
    if function = "p_relu" then .ok ⟨t, torchRelu⟩
    else if function = "p_elu" then .ok ⟨t, torchElu 1⟩
    else if function = "p_sigmoid" then .ok ⟨t, torchSigmoid⟩
    else if function = "p_tanh" then .ok ⟨t, Real.tanh⟩
    else .error .value
  else .error .assertion

/-- `ReLU.__init__`, relu.py L35-49. -/
noncomputable def initReLU (t : FType S (Rep G Id)) : Except Err (PointwiseNL S (Rep G Id)) := make torchRelu t
/-- `LeakyReLU.__init__`, leakyrelu.py L33-51. -/
noncomputable def initLeakyReLU (t : FType S (Rep G Id)) (slope : ℝ) : Except Err (PointwiseNL S (Rep G Id)) := make (torchLeakyRelu slope) t
/-- `ELU.__init__`, elu.py L36-51. -/
noncomputable def initELU (t : FType S (Rep G Id)) (alpha : ℝ) : Except Err (PointwiseNL S (Rep G Id)) := make (torchElu alpha) t

open Classical in
/-- `forward`, pointwise.py L63-80, relu.py L51-65, leakyrelu.py L53-75, elu.py L53-70. -/
noncomputable def forward (m : PointwiseNL S (Rep G Id)) (x : GTensor B P S (Rep G Id) C) : Except Err (GTensor B P S (Rep G Id) C) :=
  if x.type = m.inType then GTensor.mk' Rep.size ⟨x.tensor.chans, fun b c p => m.function (x.tensor.get b c p)⟩ m.inType x.coords else .error .assertion

end PointwiseNL

end Escnn
