import Verif.Model.KernelIface
import Verif.Model.Bias
import Verif.Model.GTensor

/-!
# Model of escnn/nn/modules/linear.py
-/

namespace Escnn

open NpMat

/-- The attributes of `Linear`.  `matrix` and `expandedBias` are buffers which `train` deletes (`none`); the bias may be Python's `None` (`some none`). -/
structure Linear (S R A : Type) where
  inType : FType S R
  outType : FType S R
  blocks : Blocks R A
  biasExpansion : Option (NpMat ℝ)
  weights : ℕ → ℝ
  bias : ℕ → ℝ
  training : Bool
  matrix : Option (NpMat ℝ)
  expandedBias : Option (Option (ℕ → ℝ))

namespace Linear

variable {S G Id A B C : Type} [DecidableEq Id]

open Classical in
/-- `Linear.__init__`, linear.py L24-180.  `gen` is the basis generator, `uin` and `uout` list the sets of representations, `w0` are the weights after the initialization;
`Parameter`s begin in training mode. -/
noncomputable def init (size : Id → ℕ) (triv : Id) (gen : Rep G Id → Rep G Id → Except Err (KBasis A)) (uin uout : List (Rep G Id)) (inType outType : FType S (Rep G Id)) (bias : Bool)
    (w0 : ℕ → ℝ) : Except Err (Linear S (Rep G Id) A) := do
  if inType.gspace ≠ outType.gspace then .error .assertion
  else
    let be := if bias then Bias.expansion size triv outType.reprs else none
    let b ← Blocks.init Rep.name Rep.size (Blocks.blockFor gen none 1) uin uout inType.reprs outType.reprs 1
    .ok ⟨inType, outType, b, be, w0, fun _ => 0, true, some (zeros (outType.size Rep.size) (inType.size Rep.size)), some (be.map fun _ _ => 0)⟩

/-- `expand_parameters`, linear.py L222-240; `reshape` drops the axis of the single point. -/
noncomputable def expandParameters {R : Type} (l : Linear S R A) : Except Err (NpMat ℝ × Option (ℕ → ℝ)) := do
  let F ← Blocks.forward l.blocks l.blocks.dim l.weights
  .ok (⟨F.rows, F.cols, fun r c => F.get r c 0⟩, l.biasExpansion.map fun B => Bias.expand B l.bias)

/-- `train(mode)`, linear.py L242-281. -/
noncomputable def train {R : Type} (l : Linear S R A) (mode : Bool) : Except Err (Linear S R A) :=
  if mode then .ok { l with matrix := none, expandedBias := none, training := true }
  else do
    let p ← l.expandParameters
    .ok { l with matrix := some p.1, expandedBias := some p.2, training := false }

/-- The value added by a bias, which may be Python's `None`. -/
def biasAt (b : Option (ℕ → ℝ)) (r : ℕ) : ℝ := match b with | some v => v r | none => 0

/-- `torch.nn.functional.linear(x, M, b)` on the channels; sizes which do not match raise `RuntimeError`. -/
noncomputable def affine {P : Type} (M : NpMat ℝ) (b : Option (ℕ → ℝ)) (x : FTensor B P) : Except Err (FTensor B P) :=
  if M.cols = x.chans then .ok ⟨M.rows, fun i r p => ∑ c ∈ Finset.range M.cols, M.get r c * x.get i c p + biasAt b r⟩ else .error .runtime

/-- The parameters used by `forward`, linear.py L198-203. -/
noncomputable def current {R : Type} (l : Linear S R A) : Except Err (NpMat ℝ × Option (ℕ → ℝ)) :=
  if ¬ l.training then
    match l.matrix, l.expandedBias with
    | some M, some b => .ok (M, b)
    | _, _ => .error .attribute
  else l.expandParameters

open Classical in
/-- `forward`, linear.py L182-207. -/
noncomputable def forward (l : Linear S (Rep G Id) A) (x : GTensor B Unit S (Rep G Id) C) : Except Err (GTensor B Unit S (Rep G Id) C) :=
  if x.type ≠ l.inType then .error .assertion
  else do
    let p ← l.current
    let y ← affine p.1 p.2 x.tensor
    GTensor.mk' Rep.size y l.outType x.coords

end Linear

end Escnn
