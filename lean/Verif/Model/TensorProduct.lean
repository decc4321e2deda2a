import Verif.Model.TensorRep
import Verif.Model.Linear

/-!
# Model of escnn/nn/modules/nonlinearities/tensor.py (`TensorProductModule`)
-/

namespace Escnn

open NpMat

/-- The attributes of `TensorProductModule`, tensor.py L58-100; `hid` is the representation of the fields of `hidden_type`, `matrix` the buffer which `train` deletes (`none`). -/
structure TensorProduct (S R A : Type) where
  inType : FType S R
  outType : FType S R
  rin : R
  rout : R
  hid : R
  blocks : Blocks R A
  weights : ℕ → ℝ
  training : Bool
  matrix : Option (NpMat ℝ)

namespace TensorProduct

variable {S G Id A B P C : Type} [DecidableEq Id]

open Classical in
/-- `__init__`, tensor.py L58-100.  `taken` are the names of the registered representations, `gen` is `gspace.build_fiber_intertwiner_basis`, `w0` are the weights after the initialization.  `uniform` (field_type.py L101-106)
compares the representations with `==`, here with equality; a field type without fields does not exist (field_type.py L102 raises `IndexError`). -/
noncomputable def init (K : KGroup G Id) (taken : List String) (gen : Rep G Id → Rep G Id → Except Err (KBasis A)) (inType outType : FType S (Rep G Id)) (w0 : ℕ → ℝ) :
    Except Err (TensorProduct S (Rep G Id) A) :=
  match inType.reprs, outType.reprs with
  | rin :: ins, rout :: outs =>
    if inType.gspace ≠ outType.gspace then .error .assertion
    else if ¬ (∀ r ∈ ins, r = rin) then .error .assertion
    else if ¬ (∀ r ∈ outs, r = rout) then .error .assertion
    else if inType.len ≠ outType.len then .error .assertion
    else do
      let hid ← TensorRep.tensor K.T K.tensor K.cg taken rin rin
      let b ← Blocks.init Rep.name Rep.size (Blocks.blockFor gen none 1) [hid] [rout] [hid] outType.reprs 1
      if b.dim = 0 then .error .value
      else .ok ⟨inType, outType, rin, rout, hid, b, w0, true, some (zeros (outType.size Rep.size) hid.size)⟩
  | _, _ => .error .index

/-- `expand_parameters`, tensor.py L162-173. -/
noncomputable def expandParameters {R : Type} (l : TensorProduct S R A) : Except Err (NpMat ℝ) := do
  let F ← Blocks.forward l.blocks l.blocks.dim l.weights
  .ok ⟨F.rows, F.cols, fun r c => F.get r c 0⟩

/-- `train(mode)`, tensor.py L175-206. -/
noncomputable def train {R : Type} (l : TensorProduct S R A) (mode : Bool) : Except Err (TensorProduct S R A) :=
  if mode then .ok { l with matrix := none, training := true }
  else do
    let M ← l.expandParameters
    .ok { l with matrix := some M, training := false }

/-- The matrix used by `forward`, tensor.py L128-132. -/
noncomputable def current {R : Type} (l : TensorProduct S R A) : Except Err (NpMat ℝ) :=
  if ¬ l.training then
    match l.matrix with
    | some M => .ok M
    | none => .error .attribute
  else l.expandParameters

/-- `torch.einsum('bci...,bco...->bcio...', x, x)` and the view as fields of size `size`, tensor.py L124-125; another number of entries raises `RuntimeError`. -/
def square (f : FieldsT B P) (size : ℕ) : Except Err (FieldsT B P) :=
  if f.size * f.size = size then .ok ⟨f.n, size, fun b c h p => f.get b c (h / f.size) p * f.get b c (h % f.size) p⟩ else .error .runtime

/-- `_matrix.view(C, osize, isize)` and `torch.einsum('coi,bci...->bco...', _matrix, t)`, tensor.py L134-135; another number of entries raises `RuntimeError`. -/
noncomputable def project (M : NpMat ℝ) (n osize isize : ℕ) (t : FieldsT B P) : Except Err (FieldsT B P) :=
  if M.rows * M.cols = n * osize * isize then
    .ok ⟨n, osize, fun b c o p => ∑ i ∈ Finset.range isize, M.get (((c * osize + o) * isize + i) / M.cols) (((c * osize + o) * isize + i) % M.cols) * t.get b c i p⟩
  else .error .runtime

open Classical in
/-- `forward`, tensor.py L115-139. -/
noncomputable def forward (l : TensorProduct S (Rep G Id) A) (x : GTensor B P S (Rep G Id) C) : Except Err (GTensor B P S (Rep G Id) C) :=
  if x.type ≠ l.inType then .error .assertion
  else do
    let f ← x.tensor.toFields l.inType.len l.rin.size
    let t ← square f l.hid.size
    let M ← l.current
    let y ← project M l.inType.len l.rout.size l.hid.size t
    GTensor.mk' Rep.size y.flat l.outType x.coords

/-- `evaluate_output_shape`, tensor.py L141-145. -/
noncomputable def evaluateOutputShape {R : Type} (sz : R → ℕ) (l : TensorProduct S R A) (shape : List ℕ) : List ℕ :=
  open Classical in if l.inType ≠ l.outType then shape.take 1 ++ [l.outType.size sz] ++ shape.drop 2 else shape

end TensorProduct

end Escnn
