import Verif.Model.Grouped
import Verif.Model.Pointwise
import Verif.Model.NormNonlin

/-!
# Model of escnn/nn/modules/nonlinearities/gated1.py, gated2.py and gated3.py

The fields used as gates have the label `none`; the other fields have the label `some l`, where `l` is the size of the representation.
-/

namespace Escnn

variable {B P S R L G Id C : Type}

open Classical in
/-- `Representation.is_trivial`, representation.py L277-286 and L234; `triv` is the id of the trivial irrep of the group. -/
noncomputable def Rep.isTrivial [DecidableEq Id] (triv : Id) (r : Rep G Id) : Bool := decide (r.irreps = [triv] ∧ r.cob ≈ NpMat.eye r.cob.rows)

variable [DecidableEq L]

/-- The default `gates`, gated1.py L65-69. -/
def defaultGates (n : ℕ) : Option (List String) → Except Err (List String)
  | some gates => .ok gates
  | none => if n % 2 = 0 then .ok (List.replicate (n / 2) "gate" ++ List.replicate (n / 2) "gated") else .error .assertion

/-- `type`, gated1.py L119-124. -/
def gateLabels (lab : R → L) (gates : List String) (rs : List R) : List (Option L) := List.zipWith (fun g r => if g = "gate" then none else some (lab r)) gates rs

/-- `out_type`, gated1.py L106-111. -/
def gatedOut (t : FType S R) (gates : List String) (drop : Bool) : Except Err (FType S R) :=
  if drop then t.indexSelect (((List.range gates.length).filter fun i => gates[i]? = some "gated").map fun i : ℕ => (i : ℤ)) else .ok t

/-- The tables `input_indices_{type}` and `output_indices_{type}`, gated1.py L113-164; both use the flags `_contiguous` computed on the input. -/
def gatedTables (sz : R → ℕ) (rs : List R) (labels : List (Option L)) (drop : Bool) : Except Err (List (Option L × Bool × List ℕ) × List (Option L × Bool × List ℕ)) := do
  let D := contigLoop none [] labels
  let kept := (labels.zip rs).filter fun e => e.1.isSome || !drop
  let tin ← flagTable sz rs labels D
  let tout ← flagTable sz (kept.map Prod.snd) (kept.map Prod.fst) (D.filter fun e => e.1.isSome || !drop)
  .ok (tin, tout)

/-- `_nfields[l]`, gated1.py L124. -/
def nfieldsOf {M : Type} [DecidableEq M] (labels : List M) (l : M) : ℕ := labels.count l

/-- The value of `next_gate` for the label `l`, gated1.py L220, L250: the number of fields with the labels before `l` in `_order`. -/
def nextOf {M : Type} [DecidableEq M] (labels order : List M) (l : M) : ℕ := ((order.takeWhile (· ≠ l)).map fun l' => nfieldsOf labels l').sum

/-- The multiplication of the fields of one label with their gates, gated1.py L226-247: `view(b, -1, sub) * g` where `g` has one row for each row of the view.  In gated1.py the row is a
field (`Q = 1`, `sub = size`); in induced_gated1.py (L243-264) each field has `Q` rows. -/
def gatedStep (Q : ℕ) (sub : L → ℕ) (labels : List (Option L)) (order : List L) (gates : FTensor B P) : Option L → FTensor B P → Except Err (FTensor B P)
  | none, _ => .error .attribute
  | some l, d => do
    let f ← d.toFields (nfieldsOf labels (some l) * Q) (sub l)
    .ok (⟨f.n, f.size, fun b i o p => f.get b i o p * gates.get b (nextOf labels (order.map some) (some l) * Q + i) p⟩ : FieldsT B P).flat

/-- The gates, gated1.py L194-208. -/
noncomputable def gateValues (Q : ℕ) (bias : ℕ → ℝ) (g : FTensor B P) : FTensor B P := ⟨g.chans, fun b c p => torchSigmoid (g.get b c p - bias (c / Q))⟩

/-- The gates are copied to the output unless they are dropped, gated1.py L213-218. -/
def gatesOut (drop : Bool) (out : FTensor B P) (ig : Bool × List ℕ) (gates : FTensor B P) : Except Err (FTensor B P) :=
  if drop then .ok out else writeIdx out ig.1 ig.2 gates

/-- `GatedNonLinearity1`, gated1.py L29-174. -/
structure GatedNL (S R : Type) where
  inType : FType S R
  outType : FType S R
  drop : Bool
  labels : List (Option ℕ)
  tin : List (Option ℕ × Bool × List ℕ)
  tout : List (Option ℕ × Bool × List ℕ)
  order : List ℕ
  bias : ℕ → ℝ

namespace GatedNL

/-- The checks of L88-97 for one field. -/
noncomputable def checkField [DecidableEq Id] (triv : Id) (e : String × Rep G Id) : Except Err Unit :=
  if e.1 = "gate" then if e.2.isTrivial triv then .ok () else .error .assertion
  else if e.1 = "gated" then if "gated" ∈ e.2.nonlin then .ok () else .error .assertion
  else .error .value

/-- `GatedNonLinearity1.__init__`, gated1.py L29-174; `bias` is the content of the parameter. -/
noncomputable def init [DecidableEq Id] (triv : Id) (bias : ℕ → ℝ) (t : FType S (Rep G Id)) (gates : Option (List String)) (drop : Bool) : Except Err (GatedNL S (Rep G Id)) := do
  let gates ← defaultGates t.len gates
  if gates.length ≠ t.len then .error .assertion
  else do
    let _ ← mapE (checkField triv) (gates.zip t.reprs)
    if gates.count "gate" ≠ gates.count "gated" then .error .assertion
    else do
      let out ← gatedOut t gates drop
      let labels := gateLabels Rep.size gates t.reprs
      let tabs ← gatedTables Rep.size t.reprs labels drop
      if none ∈ labels then
        .ok ⟨t, out, drop, labels, tabs.1, tabs.2, (keysInOrder (labels.filterMap id)).mergeSort (fun a b => decide (a ≤ b)), bias⟩
      else .error .key

open Classical in
/-- `forward`, gated1.py L176-253; `junk` is the content of `torch.empty`. -/
noncomputable def forward (junk : B → ℕ → P → ℝ) (m : GatedNL S (Rep G Id)) (x : GTensor B P S (Rep G Id) C) : Except Err (GTensor B P S (Rep G Id) C) :=
  if x.type = m.inType then do
    let ig ← tabGet m.tin none
    let g0 ← readIdx x.tensor ig.1 ig.2
    let gates := gateValues 1 m.bias g0
    let out ← gatesOut m.drop ⟨m.outType.size Rep.size, junk⟩ ig gates
    let res ← groupedLoop (gatedStep 1 id m.labels m.order gates) m.tin m.tout x.tensor out (m.order.map some)
    GTensor.mk' Rep.size res m.outType x.coords
  else .error .assertion

end GatedNL

/-- `GatedNonLinearity2`, gated2.py L26-132: the gates are another input. -/
structure GatedNL2 (S R : Type) where
  gateType : FType S R
  inType : FType S R
  table : List (ℕ × Bool × List ℕ)
  order : List ℕ
  bias : ℕ → ℝ

namespace GatedNL2

/-- `GatedNonLinearity2.__init__`, gated2.py L26-132. -/
noncomputable def init [DecidableEq Id] [DecidableEq S] (triv : Id) (bias : ℕ → ℝ) (tg t : FType S (Rep G Id)) : Except Err (GatedNL2 S (Rep G Id)) :=
  if tg.gspace ≠ t.gspace then .error .assertion
  else if ¬ (∀ r ∈ tg.reprs, r.isTrivial triv = true) then .error .assertion
  else if ¬ (∀ r ∈ t.reprs, "gated" ∈ r.nonlin) then .error .assertion
  else if tg.len ≠ t.len then .error .assertion
  else do
    let table ← runTable Rep.size t (t.reprs.map Rep.size)
    .ok ⟨tg, t, table, (keysInOrder (t.reprs.map Rep.size)).mergeSort (fun a b => decide (a ≤ b)), bias⟩

/-- The multiplication with the gates, gated2.py L178-204. -/
def step (m : GatedNL2 S (Rep G Id)) (gates : FTensor B P) (s : ℕ) (d : FTensor B P) : Except Err (FTensor B P) := do
  let f ← d.toFields ((m.inType.reprs.map Rep.size).count s) s
  .ok (⟨f.n, f.size, fun b i o p => f.get b i o p * gates.get b (nextOf (m.inType.reprs.map Rep.size) m.order s + i) p⟩ : FieldsT B P).flat

open Classical in
/-- `forward`, gated2.py L134-207; the batch and the positions of both inputs have the same types `B` and `P`.  `has_same_coords` is the equality of the coordinates. -/
noncomputable def forward (junk : B → ℕ → P → ℝ) (m : GatedNL2 S (Rep G Id)) (g x : GTensor B P S (Rep G Id) C) : Except Err (GTensor B P S (Rep G Id) C) :=
  if g.type = m.gateType ∧ x.type = m.inType ∧ g.coords = x.coords then do
    let gates := gateValues 1 m.bias g.tensor
    let res ← groupedLoop (m.step gates) m.table m.table x.tensor ⟨m.inType.size Rep.size, junk⟩ m.order
    GTensor.mk' Rep.size res m.inType x.coords
  else .error .assertion

end GatedNL2

end Escnn
