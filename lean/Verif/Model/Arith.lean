import Verif.Model.GTensor

/-!
# Model of the equality of field types and of the arithmetic of geometric tensors

In-place operations act on a memory of tensor storages: an object refers to a storage by its address.
-/

namespace Escnn

open NpMat

/-- `Representation.__eq__`, representation.py L369-379, for representations of one group (`np.allclose` is equality). -/
def Rep.PyEq {G Id : Type} (r r' : Rep G Id) : Prop :=
  r.name = r'.name ∧ r.cob ≈ r'.cob ∧ r.irreps = r'.irreps ∧ r.nonlin = r'.nonlin

/-- `FieldType.__eq__`, field_type.py L576-580: equal base spaces and lists of representations, compared with `eqR`. -/
def FType.PyEq {S R : Type} (eqR : R → R → Prop) (t t' : FType S R) : Prop := t.gspace = t'.gspace ∧ List.Forall₂ eqR t.reprs t'.reprs

namespace GTensor

variable {B P S R C : Type}

/-- `is_compatible`, geometric_tensor.py L652-666. -/
def Compatible (eqR : R → R → Prop) (x y : GTensor B P S R C) : Prop := x.type.PyEq eqR y.type ∧ x.coords = y.coords

/-- Entrywise combination of two tensors with as many channels (`RuntimeError` otherwise). -/
noncomputable def zipT (f : ℝ → ℝ → ℝ) (x y : FTensor B P) : Except Err (FTensor B P) :=
  if x.chans = y.chans then .ok ⟨x.chans, fun b c p => f (x.get b c p) (y.get b c p)⟩ else .error .runtime

open Classical in
/-- The common code of `__add__` and `__sub__`, geometric_tensor.py L668-702. -/
noncomputable def zipWith (f : ℝ → ℝ → ℝ) (eqR : R → R → Prop) (sz : R → ℕ) (x y : GTensor B P S R C) : Except Err (GTensor B P S R C) :=
  if Compatible eqR x y then do
    let d ← zipT f x.tensor y.tensor
    mk' sz d x.type x.coords
  else .error .assertion

/-- `__add__`, geometric_tensor.py L680-682. -/
noncomputable def add (eqR : R → R → Prop) (sz : R → ℕ) (x y : GTensor B P S R C) := zipWith (· + ·) eqR sz x y

/-- `__sub__`, geometric_tensor.py L698-700. -/
noncomputable def sub (eqR : R → R → Prop) (sz : R → ℕ) (x y : GTensor B P S R C) := zipWith (· - ·) eqR sz x y

/-- The right operands of `*`: a `float`, a tensor with one element, or anything else (an `int`, for instance). -/
inductive Scalar where
  | float (r : ℝ)
  | tensor (r : ℝ)
  | other

/-- `__mul__` and `__rmul__`, geometric_tensor.py L742-762; `NotImplemented` makes Python raise `TypeError`. -/
noncomputable def mulS (sz : R → ℕ) (x : GTensor B P S R C) : Scalar → Except Err (GTensor B P S R C)
  | .float r => mk' sz ⟨x.tensor.chans, fun b c p => x.tensor.get b c p * r⟩ x.type x.coords
  | .tensor r => mk' sz ⟨x.tensor.chans, fun b c p => x.tensor.get b c p * r⟩ x.type x.coords
  | .other => .error .type

/-- A geometric tensor object: the address of its storage, its type and coordinates. -/
structure Obj (S R C : Type) where
  ref : ℕ
  type : FType S R
  coords : C

/-- The tensor an object denotes in a memory. -/
def Obj.val (m : ℕ → FTensor B P) (o : Obj S R C) : GTensor B P S R C := ⟨m o.ref, o.type, o.coords⟩

open Classical in
/-- `__iadd__` and `__isub__`, geometric_tensor.py L704-740: the new memory (the returned object is `self`). -/
noncomputable def izipWith (f : ℝ → ℝ → ℝ) (eqR : R → R → Prop) (m : ℕ → FTensor B P) (x y : Obj S R C) : Except Err (ℕ → FTensor B P) :=
  if Compatible eqR (x.val m) (y.val m) then do
    let d ← zipT f (m x.ref) (m y.ref)
    .ok (Function.update m x.ref d)
  else .error .assertion

/-- `__imul__`, geometric_tensor.py L764-784. -/
noncomputable def imulS (m : ℕ → FTensor B P) (x : Obj S R C) : Scalar → Except Err (ℕ → FTensor B P)
  | .float r => .ok (Function.update m x.ref ⟨(m x.ref).chans, fun b c p => (m x.ref).get b c p * r⟩)
  | .tensor r => .ok (Function.update m x.ref ⟨(m x.ref).chans, fun b c p => (m x.ref).get b c p * r⟩)
  | .other => .error .type

/-- `transform_fibers`, geometric_tensor.py L413-445. -/
noncomputable def transformFibers {G Id : Type} (x : GTensor B P S (Rep G Id) C) (g : G) : Except Err (GTensor B P S (Rep G Id) C) := do
  let d ← x.type.transformFibers x.tensor g
  mk' Rep.size d x.type x.coords

end GTensor

end Escnn
