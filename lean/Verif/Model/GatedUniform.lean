import Verif.Model.Gated
import Verif.Model.Kernels

/-!
# Model of escnn/nn/modules/nonlinearities/gated3.py
-/

namespace Escnn

variable {B P S G Id C : Type}

/-- `expansion[p:p+size, i] = 1.`, gated3.py L95. -/
noncomputable def setOnes (M : NpMat ℝ) (p size i : ℕ) : NpMat ℝ := ⟨M.rows, M.cols, fun a c => if p ≤ a ∧ a < p + size ∧ c = i then 1 else M.get a c⟩

/-- The loop of gated3.py L92-96. -/
noncomputable def expandLoop (size : Id → ℕ) : ℕ → ℕ → List Id → NpMat ℝ → NpMat ℝ
  | _, _, [], M => M
  | p, i, j :: L, M => expandLoop size (p + size j) (i + 1) L (setOnes M p (size j) i)

/-- `GatedNonLinearityUniform`, gated3.py L24-100; `bias c i` is the entry of the parameter for gate `i` of field `c`. -/
structure GatedUniform (S R : Type) where
  inType : FType S R
  outType : FType S R
  rhoIn : R
  rhoOut : R
  nGates : ℕ
  gate : ℝ → ℝ
  expansion : NpMat ℝ
  bias : ℕ → ℕ → ℝ

namespace GatedUniform

open Classical in
/-- `GatedNonLinearityUniform.__init__`, gated3.py L24-100.  `T` is the table of the irreps of the group, `taken` the names of its registered representations, `irr i` the representation `G.irrep(*i)`
and `triv` the id of the trivial irrep.  `in_type.uniform` (field_type.py L101-106) compares the representations with `==`, here with equality. -/
noncomputable def init (T : IrrepTable G Id) (taken : List String) (irr : Id → Rep G Id) (triv : Id) (gate : ℝ → ℝ) (bias : ℕ → ℕ → ℝ) (t : FType S (Rep G Id)) : Except Err (GatedUniform S (Rep G Id)) :=
  match t.reprs with
  | [] => .error .index
  | rho :: rest =>
    if ¬ (∀ r ∈ rest, r = rho) then .error .assertion
    else if rho.irreps.length % 2 ≠ 0 then .error .assertion
    else if ¬ (rho.cob ≈ NpMat.eye rho.size) then .error .assertion
    else if ¬ (∀ i ∈ rho.irreps.take (rho.irreps.length / 2), i = triv) then .error .assertion
    else
      match directsum T taken ((rho.irreps.drop (rho.irreps.length / 2)).map irr) none none with
      | .error e => .error e
      | .ok out =>
        .ok ⟨t, ⟨t.gspace, List.replicate t.len out⟩, rho, out, rho.irreps.length / 2, gate,
          expandLoop T.size 0 0 (rho.irreps.drop (rho.irreps.length / 2)) (NpMat.zeros out.size (rho.irreps.length / 2)), bias⟩

open Classical in
/-- `forward`, gated3.py L102-140. -/
noncomputable def forward (m : GatedUniform S (Rep G Id)) (x : GTensor B P S (Rep G Id) C) : Except Err (GTensor B P S (Rep G Id) C) :=
  if x.type = m.inType then do
    let f ← x.tensor.toFields m.inType.len m.rhoIn.size
    if m.expansion.rows = m.rhoIn.size - m.nGates then
      GTensor.mk' Rep.size (⟨m.inType.len, m.expansion.rows, fun b c o p =>
        (∑ i ∈ Finset.range m.nGates, m.expansion.get o i * m.gate (f.get b c i p - m.bias c i)) * f.get b c (m.nGates + o) p⟩ : FieldsT B P).flat m.outType x.coords
    else .error .assertion
  else .error .assertion

end GatedUniform

end Escnn
