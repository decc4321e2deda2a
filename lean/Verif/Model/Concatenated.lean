import Verif.Model.Pointwise

/-!
# Model of escnn/nn/modules/nonlinearities/concatenated.py
-/

namespace Escnn

variable {B P S G Id C : Type}

open Classical in
/-- `e[i]`, concatenated.py L192-203: the position of the entry of row `i` which is not zero, or `-1`; a row with two such entries is an error. -/
noncomputable def rowEntry (s : ℕ) (r : NpMat ℝ) (i : ℕ) : Except Err ℤ :=
  match (List.range s).filter (fun j => decide (r.get i j ≠ 0)) with
  | [] => .ok (-1)
  | [j] => .ok j
  | _ => .error .value

/-- The `2 × 2` block for the entry `t`, L215-220: `np.eye(2)`, `np.flipud(np.eye(2))` or zeros. -/
noncomputable def signBlock (t : ℝ) (p q : ℕ) : ℝ :=
  if t = 1 then if p = q then 1 else 0
  else if t = -1 then if p + q = 1 then 1 else 0
  else 0

open Classical in
/-- `rep[element]` for the matrix `r = representation(element)`, concatenated.py L186-227; `math.isclose` is equality. -/
noncomputable def doubledMat (s : ℕ) (r : NpMat ℝ) : Except Err (NpMat ℝ) := do
  let e ← mapE (rowEntry s r) (List.range s)
  if ¬ e.Nodup then .error .value
  else if ∃ i < s, ∃ j < s, r.get i j ≠ 1 ∧ r.get i j ≠ -1 ∧ r.get i j ≠ 0 then .error .value
  else .ok ⟨2 * s, 2 * s, fun a c => signBlock (r.get (a / 2) (c / 2)) (a % 2) (c % 2)⟩

open Classical in
/-- The dictionary `rep`, L181-229, as a function; the keys are the elements of the group and other arguments are not looked up. -/
noncomputable def doubledFun (s : ℕ) (f : G → NpMat ℝ) (g : G) : NpMat ℝ :=
  match doubledMat s (f g) with
  | .ok M => M
  | .error _ => NpMat.eye 0

/-- `ConcatenatedNonLinearity._transform_representation`, concatenated.py L149-236.  `elements` is `group.elements` and `none` for a continuous group, `known` are the representations in
`group.representations`, and `decomp` is `decompose_representation_finitegroup` (called by `build_from_discrete_group_representation`, representation.py L460-511), which returns the change of basis, its
inverse and the irreps; the representation keeps the given matrices (representation.py L200-207). -/
noncomputable def concatRep (elements : Option (List G)) (known : List (Rep G Id)) (decomp : (G → NpMat ℝ) → NpMat ℝ × NpMat ℝ × List Id) (r : Rep G Id) : Except Err (Rep G Id) :=
  match elements with
  | none => .error .assertion
  | some els =>
    match known.find? (fun k => k.name = "concatenated_" ++ r.name) with
    | some k => .ok k
    | none => do
      let _ ← mapE (fun g => doubledMat r.size (r.mat g)) els
      let d := decomp (doubledFun r.size r.mat)
      .ok ⟨"concatenated_" ++ r.name, d.2.2, d.1, d.2.1, doubledFun r.size r.mat, insert "pointwise" r.nonlin⟩

/-- `ConcatenatedNonLinearity`, concatenated.py L20-63. -/
structure ConcatNL (S R : Type) where
  inType : FType S R
  outType : FType S R
  function : ℝ → ℝ

namespace ConcatNL

/-- The function of a name, concatenated.py L56-63. -/
noncomputable def functionOf (function : String) : Except Err (ℝ → ℝ) :=
  if function = "c_relu" then .ok torchRelu
  else if function = "c_sigmoid" then .ok torchSigmoid
  else if function = "c_tanh" then .ok Real.tanh
  else .error .value

/-- The check of the flags, concatenated.py L43-45. -/
def checkFlags (t : FType S (Rep G Id)) : Except Err Unit := if ∀ r ∈ t.reprs, "concatenated" ∈ r.nonlin then .ok () else .error .assertion

/-- `ConcatenatedNonLinearity.__init__` and `_transform_fiber_representation`, concatenated.py L41-63, L121-146; the dictionary `transformed` of the unique representations is replaced by the function
`concatRep` it tabulates. -/
noncomputable def init (elements : Option (List G)) (known : List (Rep G Id)) (decomp : (G → NpMat ℝ) → NpMat ℝ × NpMat ℝ × List Id) (t : FType S (Rep G Id)) (function : String) :
    Except Err (ConcatNL S (Rep G Id)) := do
  checkFlags t
  let out ← mapE (concatRep elements known decomp) t.reprs
  let f ← functionOf function
  .ok ⟨t, ⟨t.gspace, out⟩, f⟩

open Classical in
/-- `forward`, concatenated.py L65-83: the even channels are `f(x)` and the odd ones `f(-x)`. -/
noncomputable def forward (m : ConcatNL S (Rep G Id)) (x : GTensor B P S (Rep G Id) C) : Except Err (GTensor B P S (Rep G Id) C) :=
  if x.type = m.inType then
    GTensor.mk' Rep.size ⟨2 * x.tensor.chans, fun b c p => if c % 2 = 0 then m.function (x.tensor.get b (c / 2) p) else m.function (-1 * x.tensor.get b (c / 2) p)⟩ m.outType x.coords
  else .error .assertion

end ConcatNL

end Escnn
