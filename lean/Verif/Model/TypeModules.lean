import Verif.Model.Grouped

/-!
# Model of `RestrictionModule` and `DisentangleModule`
-/

namespace Escnn

variable {B P S S' R R' C G Id : Type}

/-- `RestrictionModule`, restriction_module.py L44-51. -/
structure RestrictionM (S R S' R' : Type) where
  inType : FType S R
  outType : FType S' R'

/-- `RestrictionModule.__init__`, restriction_module.py L44-51; see `FType.restrict` for the arguments. -/
def RestrictionM.init (name : R → String) (res : R → Except Err R') (sub : S') (uniq : List R) (t : FType S R) : Except Err (RestrictionM S R S' R') := do
  let out ← t.restrict name res sub uniq
  .ok ⟨t, out⟩

open Classical in
/-- `RestrictionModule.forward`, restriction_module.py L53-58. -/
noncomputable def RestrictionM.forward (eqR : R → R → Prop) (sz' : R' → ℕ) (m : RestrictionM S R S' R') (x : GTensor B P S R C) : Except Err (GTensor B P S' R' C) :=
  if x.type.PyEq eqR m.inType then GTensor.mk' sz' x.tensor m.outType x.coords else .error .assertion

/-- `DisentangleModule`, disentangle_module.py L38-78.  `names` are the names of the representations of the input type, from which
`_order` and `_nfields` are computed; `dict` holds, for every name, the size, the change of basis and the disentangled
representations. -/
structure DisentangleM (S G Id : Type) where
  inType : FType S (Rep G Id)
  outType : FType S (Rep G Id)
  names : List String
  dict : List (String × ℕ × NpMat ℝ × List (Rep G Id))
  table : List (String × Bool × List ℕ)

/-- `DisentangleModule.__init__`, disentangle_module.py L38-78.  `dis` is the function `disentangle`; `uniq` lists the set
`_unique_representations` in iteration order. -/
def DisentangleM.init (dis : Rep G Id → Except Err (NpMat ℝ × List (Rep G Id))) (uniq : List (Rep G Id)) (t : FType S (Rep G Id)) : Except Err (DisentangleM S G Id) := do
  let dict ← mapE (fun r => do
    let d ← dis r
    .ok (r.name, r.size, d.1, d.2)) uniq
  let outs ← mapE (fun r : Rep G Id => tabGet dict r.name) t.reprs
  let out ← FType.mk' t.gspace (outs.flatMap fun o => o.2.2)
  let table ← fieldTable Rep.size t (t.reprs.map Rep.name)
  .ok ⟨t, out, t.reprs.map Rep.name, dict, table⟩

/-- `torch.einsum("oi,bci...->bco...", (cob, fields))`, which raises `RuntimeError` if the sizes differ. -/
def FieldsT.matMul (M : NpMat ℝ) (f : FieldsT B P) : Except Err (FieldsT B P) :=
  if M.cols = f.size then .ok ⟨f.n, M.rows, fun b c o p => ∑ i ∈ Finset.range M.cols, M.get o i * f.get b c i p⟩ else .error .runtime

/-- The computation for one name, disentangle_module.py L96-112. -/
def DisentangleM.step (m : DisentangleM S G Id) (name : String) (d : FTensor B P) : Except Err (FTensor B P) := do
  let e ← tabGet m.dict name
  let f ← d.toFields (m.names.count name) e.1
  let f ← f.matMul e.2.1
  .ok f.flat

open Classical in
/-- `DisentangleModule.forward`, disentangle_module.py L80-119; `junk` is the content of `torch.empty_like`. -/
noncomputable def DisentangleM.forward (junk : B → ℕ → P → ℝ) (m : DisentangleM S G Id) (x : GTensor B P S (Rep G Id) C) : Except Err (GTensor B P S (Rep G Id) C) :=
  if x.type.PyEq Rep.PyEq m.inType then do
    let out ← groupedLoop m.step m.table m.table x.tensor ⟨x.tensor.chans, junk⟩ (keysInOrder m.names)
    GTensor.mk' Rep.size out m.outType x.coords
  else .error .assertion

end Escnn
