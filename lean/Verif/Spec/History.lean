import Verif.Model.Arith
import Mathlib.Data.Fintype.Card

/-!
# Modules with running statistics and their histories (specification)

A batch normalization reads and writes running statistics at each call.  `St` is the type of the statistics; `Par` collects what the user may change between two calls: the mode (training or evaluation) and the
current values of the learnable parameters.
-/

namespace Escnn

variable {Par St S G Id C : Type}

/-- A module with state: for each batch (samples `B`, positions `P`) it returns the new state and the output. -/
def StatModule (Par St S R C : Type) : Type 1 :=
  ∀ (B P : Type) [Fintype B] [Fintype P], Par → (B → ℕ → P → ℝ) → St → GTensor B P S R C → Except Err (St × GTensor B P S R C)

/-- One call: the parameters, the content of the uninitialised memory, and the input. -/
structure Call (Par S R C : Type) : Type 1 where
  B : Type
  P : Type
  fB : Fintype B
  fP : Fintype P
  par : Par
  junk : B → ℕ → P → ℝ
  x : GTensor B P S R C

/-- The state after a sequence of calls. -/
def StatModule.run {R : Type} (f : StatModule Par St S R C) : St → List (Call Par S R C) → Except Err St
  | st, [] => .ok st
  | st, c :: L => do
    let r ← @f c.B c.P c.fB c.fP c.par c.junk st c.x
    f.run r.1 L

/-- A batch of type `t` with at least `least` vectors, and the batch transformed by an element `g`: the fibres are transformed with the representation, and the positions are permuted by `σ` (the transformed
batch may have another set of positions, as a rectangle rotated by a quarter). -/
structure MovedBatch (Par C : Type) (El : G → Prop) (t : FType S (Rep G Id)) (least : ℕ) : Type 1 where
  B : Type
  P : Type
  P' : Type
  fB : Fintype B
  fP : Fintype P
  fP' : Fintype P'
  par : Par
  junk : B → ℕ → P → ℝ
  junk' : B → ℕ → P' → ℝ
  x : FTensor B P
  coords : C
  coords' : C
  chans : x.chans = t.size Rep.size
  many : least ≤ Fintype.card B * Fintype.card P
  g : G
  hg : El g
  gx : FTensor B P
  hgx : t.transformFibers x g = .ok gx
  σ : P' ≃ P

namespace MovedBatch

variable {El : G → Prop} {t : FType S (Rep G Id)} {least : ℕ}

/-- The call with the batch. -/
def before (m : MovedBatch Par C El t least) : Call Par S (Rep G Id) C := ⟨m.B, m.P, m.fB, m.fP, m.par, m.junk, ⟨m.x, t, m.coords⟩⟩

/-- The call with the transformed batch. -/
def after (m : MovedBatch Par C El t least) : Call Par S (Rep G Id) C :=
  ⟨m.B, m.P', m.fB, m.fP', m.par, m.junk', ⟨⟨m.gx.chans, fun b c p => m.gx.get b c (m.σ p)⟩, t, m.coords'⟩⟩

end MovedBatch

/-- In the state `st`, a batch and the transformed batch lead to the same new state, and the output for the transformed batch is the transformed output. -/
def StepEquivariant (El : G → Prop) (t : FType S (Rep G Id)) (least : ℕ) (f : StatModule Par St S (Rep G Id) C) (st : St) : Prop :=
  ∀ m : MovedBatch Par C El t least, ∃ st' y y' gy, @f m.B m.P m.fB m.fP m.par m.junk st m.before.x = .ok (st', y) ∧ @f m.B m.P' m.fB m.fP' m.par m.junk' st m.after.x = .ok (st', y') ∧
    y.type = t ∧ y'.type = t ∧ y.coords = m.coords ∧ y'.coords = m.coords' ∧ y.tensor.chans = t.size Rep.size ∧ t.transformFibers y.tensor m.g = .ok gy ∧
    y'.tensor ≈ ⟨gy.chans, fun b c p => gy.get b c (m.σ p)⟩

/-- After each history of calls the state is the same if each batch is transformed by an element of its own, and the module is equivariant in this state. -/
def HistoryEquivariant (El : G → Prop) (t : FType S (Rep G Id)) (least : ℕ) (f : StatModule Par St S (Rep G Id) C) (st0 : St) : Prop :=
  ∀ H : List (MovedBatch Par C El t least), ∃ st, f.run st0 (H.map MovedBatch.before) = .ok st ∧ f.run st0 (H.map MovedBatch.after) = .ok st ∧ StepEquivariant El t least f st

end Escnn
