import Verif.Model.InvariantMaps

/-!
# Model of escnn/nn/modules/nonlinearities: induced_norm.py, induced_gated1.py
-/

namespace Escnn

variable {B P S R G Id C : Type}

/-- The order of the pairs `(size, subfield_size)`. -/
def sizePairLe (a b : ℕ × ℕ) : Bool := decide (a.1 < b.1 ∨ a.1 = b.1 ∧ a.2 ≤ b.2)

/-- `InducedNormNonLinearity`, induced_norm.py L23-122. -/
structure InducedNormNL (S R : Type) where
  inType : FType S R
  function : ℝ → ℝ
  labels : List (ℕ × ℕ)
  table : List ((ℕ × ℕ) × Bool × List ℕ)
  logBias : Option (ℕ → ℝ)
  order : List (ℕ × ℕ)
  eps : ℝ

namespace InducedNormNL

/-- The function of a name, induced_norm.py L57-64. -/
noncomputable def functionOf (function : String) : Except Err (ℝ → ℝ) :=
  if function = "n_relu" then .ok torchRelu
  else if function = "n_sigmoid" then .ok torchSigmoid
  else if function = "squash" then .ok fun t => t / (1 + t)
  else .error .value

/-- `InducedNormNonLinearity.__init__`, induced_norm.py L23-122. -/
noncomputable def init (t : FType S (Rep G Id)) (function : String) (bias : Bool) : Except Err (InducedNormNL S (Rep G Id)) := do
  let subs ← mapE (subSize "induced_norm") t.reprs
  let f ← functionOf function
  let labels := (t.reprs.map Rep.size).zip subs
  let table ← runTable Rep.size t labels
  .ok ⟨t, f, labels, table, if bias then some fun _ => 0 else none, (keysInOrder labels).mergeSort sizePairLe, 1 / 10 ^ 10⟩

/-- `m = new_norms / max(norms, eps)`, `m[norms <= eps] = 0`, induced_norm.py L177-197, with the bias number `i`. -/
noncomputable def multiplier (m : InducedNormNL S R) (i : ℕ) (norm : ℝ) : ℝ :=
  let new := match m.logBias with
    | some lb => m.function (norm - Real.exp (lb i))
    | none => m.function norm
  if norm ≤ m.eps then 0 else new / max norm m.eps

/-- The multipliers of the fields of a label, induced_norm.py L174-205: one for each subfield, all the subfields of a field with the same bias. -/
noncomputable def step (m : InducedNormNL S R) (l : ℕ × ℕ) (d : FTensor B P) : Except Err (FTensor B P) := do
  let f ← d.toFields (d.chans / l.2) l.2
  .ok (⟨f.n, f.size, fun b n _ p => m.multiplier (nextOf m.labels m.order l + n / (l.1 / l.2)) (fieldNormOf l.2 fun o => f.get b n o p)⟩ : FieldsT B P).flat

open Classical in
/-- `forward`, induced_norm.py L124-211; `junk` is the content of `torch.empty_like`. -/
noncomputable def forward (junk : B → ℕ → P → ℝ) (m : InducedNormNL S (Rep G Id)) (x : GTensor B P S (Rep G Id) C) : Except Err (GTensor B P S (Rep G Id) C) :=
  if x.type = m.inType then do
    let mult ← groupedLoop m.step m.table m.table x.tensor ⟨x.tensor.chans, junk⟩ m.order
    GTensor.mk' Rep.size ⟨x.tensor.chans, fun b c p => x.tensor.get b c p * mult.get b c p⟩ m.inType x.coords
  else .error .assertion

end InducedNormNL

/-- `InducedGatedNonLinearity1`, induced_gated1.py L26-187. -/
structure InducedGated (S R : Type) where
  inType : FType S R
  outType : FType S R
  drop : Bool
  Q : ℕ
  labels : List (Option (ℕ × ℕ))
  tin : List (Option (ℕ × ℕ) × Bool × List ℕ)
  tout : List (Option (ℕ × ℕ) × Bool × List ℕ)
  order : List (ℕ × ℕ)
  bias : ℕ → ℝ

namespace InducedGated

/-- The checks of L76-87 for one field. -/
def checkField (e : String × Rep G Id) : Except Err Unit :=
  if e.1 = "gate" then if "induced_gate" ∈ e.2.nonlin then .ok () else .error .assertion
  else if e.1 = "gated" then if ∃ nl ∈ e.2.nonlin, pyStartsWith nl "induced_gated" = true then .ok () else .error .value
  else .error .value

/-- `quotient_size`, L96-102: the size of all the gates. -/
def quotientSize (l : List (String × Rep G Id)) : Except Err (Option ℕ) :=
  match l.filter (fun e => e.1 = "gate") with
  | [] => .ok none
  | e :: es => if ∀ e' ∈ es, e'.2.size = e.2.size then .ok (some e.2.size) else .error .assertion

/-- The entries of `subfield_sizes`, L104-115, for one field: the name of the representation and the size of its subfields. -/
noncomputable def subField (Q : Option ℕ) (e : String × Rep G Id) : Except Err (List (String × ℕ)) :=
  if e.1 = "gated" then do
    let s ← subSize "induced_gated" e.2
    if some (e.2.size / s) = Q then .ok [(e.2.name, s)] else .error .assertion
  else .ok []

/-- `type`, L133-136: the size of the subfields is looked up by the name of the representation. -/
def label (subs : List (String × ℕ)) (e : String × Rep G Id) : Except Err (Option (ℕ × ℕ)) :=
  if e.1 = "gate" then .ok none else do
    let s ← dictGet subs e.2.name
    .ok (some (e.2.size, s))

/-- `InducedGatedNonLinearity1.__init__`, induced_gated1.py L26-187; `bias` is the content of the parameter. -/
noncomputable def init (bias : ℕ → ℝ) (t : FType S (Rep G Id)) (gates : Option (List String)) (drop : Bool) : Except Err (InducedGated S (Rep G Id)) := do
  let gates ← defaultGates t.len gates
  if gates.length ≠ t.len then .error .assertion
  else do
    let _ ← mapE checkField (gates.zip t.reprs)
    if gates.count "gate" ≠ gates.count "gated" then .error .assertion
    else do
      let Q ← quotientSize (gates.zip t.reprs)
      let subs ← mapE (subField Q) (gates.zip t.reprs)
      let out ← gatedOut t gates drop
      let labels ← mapE (label subs.flatten) (gates.zip t.reprs)
      let tabs ← gatedTables Rep.size t.reprs labels drop
      if none ∈ labels then
        .ok ⟨t, out, drop, Q.getD 0, labels, tabs.1, tabs.2, (keysInOrder (labels.filterMap id)).mergeSort sizePairLe, bias⟩
      else .error .key

/-- Without `drop_gates`, L229-234: the gates, of shape `(batch, number of gates, Q, ...)`, are assigned to `number of gates * Q` channels of the output.  The last dimensions are
aligned with the positions, so the assignment raises `RuntimeError` (unless the sizes happen to be broadcastable, which is not modelled). -/
def gatesOut' (drop : Bool) (out : FTensor B P) : Except Err (FTensor B P) := if drop then .ok out else .error .runtime

open Classical in
/-- `forward`, induced_gated1.py L189-270; `junk` is the content of `torch.empty`. -/
noncomputable def forward (junk : B → ℕ → P → ℝ) (m : InducedGated S (Rep G Id)) (x : GTensor B P S (Rep G Id) C) : Except Err (GTensor B P S (Rep G Id) C) :=
  if x.type = m.inType then do
    let ig ← tabGet m.tin none
    let g0 ← readIdx x.tensor ig.1 ig.2
    let gates := gateValues m.Q m.bias g0
    let out ← gatesOut' m.drop (⟨m.outType.size Rep.size, junk⟩ : FTensor B P)
    let res ← groupedLoop (gatedStep m.Q Prod.snd m.labels m.order gates) m.tin m.tout x.tensor out (m.order.map some)
    GTensor.mk' Rep.size res m.outType x.coords
  else .error .assertion

end InducedGated

end Escnn
