import Verif.Model.Py

/-!
# Model of the buffers which the layers keep in evaluation mode

`W` are the values of the trainable parameters (`weights` and `bias`), `F` the filter (or matrix) and the bias expanded from them by `expand_parameters`; the two buffers are created
and deleted together and are one optional value here.  A layer whose expansion raises an exception is not modelled (see C34, C42).
-/

namespace Escnn

/-- The mutable part of a layer: `weights` and `bias`, `training`, and the buffers (`none` after they are deleted). -/
structure Layer (W F : Type) where
  weights : W
  training : Bool
  buffer : Option F

/-- What `state_dict()` contains: the parameters, and the buffers if they are there. -/
structure StateDict (W F : Type) where
  weights : W
  buffer : Option F

namespace Layer

variable {W F : Type}

/-- A layer after its constructor: rd_convolution.py L239-242, rd_transposed_convolution.py L220-223, linear.py L174-180: training mode (the default of PyTorch), buffers of zeros. -/
def init (w : W) (zero : F) : Layer W F := ⟨w, true, some zero⟩

/-- `Linear.train`, linear.py L265-281. -/
def trainLinear (expand : W → F) (s : Layer W F) (mode : Bool) : Layer W F :=
  if ¬ mode then { s with buffer := some (expand s.weights), training := mode }
  else { s with buffer := none, training := mode }

/-- `_RdConv.train`, rd_convolution.py L319-336; `_RdConvTransposed.train`, rd_transposed_convolution.py L301-318, and `_RdPointConv.train`, rd_point_convolution.py L363-376 (where only the bias
is stored) are the same. -/
def trainConv (expand : W → F) (s : Layer W F) (mode : Bool) : Layer W F :=
  if mode then { s with buffer := none, training := mode }
  else if s.training then { s with buffer := some (expand s.weights), training := mode }
  else { s with training := mode }

/-- The parameters with which `forward` computes: linear.py L198-203, r2convolution.py L207-212; a deleted buffer raises `AttributeError`. -/
def used (expand : W → F) (s : Layer W F) : Except Err F :=
  if ¬ s.training then
    match s.buffer with
    | some f => .ok f
    | none => .error .attribute
  else .ok (expand s.weights)

/-- `state_dict()` of PyTorch. -/
def stateDict (s : Layer W F) : StateDict W F := ⟨s.weights, s.buffer⟩

/-- `load_state_dict(d)` of PyTorch: values with a name present on both sides are copied; if `strict`, names present on one side only make it raise `RuntimeError` after the copies. -/
def load (s : Layer W F) (d : StateDict W F) : Layer W F :=
  { s with weights := d.weights, buffer := match s.buffer, d.buffer with | some _, some f => some f | b, _ => b }

/-- Whether `load_state_dict(d, strict=True)` returns without an exception. -/
def loadOk (s : Layer W F) (d : StateDict W F) : Bool := s.buffer.isSome == d.buffer.isSome

end Layer

/-- The operations on a layer. -/
inductive LayerOp (W F : Type) where
  | train (mode : Bool)
  | update (w : W)
  | forward
  | load (d : StateDict W F)

/-- The state after an operation, for the given `train` method. -/
def Layer.step {W F : Type} (tr : Layer W F → Bool → Layer W F) (s : Layer W F) : LayerOp W F → Layer W F
  | .train mode => tr s mode
  | .update w => { s with weights := w }
  | .forward => s
  | .load d => s.load d

/-- The state after a history. -/
def Layer.run {W F : Type} (tr : Layer W F → Bool → Layer W F) (s : Layer W F) (h : List (LayerOp W F)) : Layer W F := h.foldl (Layer.step tr) s

end Escnn
