import Verif.Model.InvariantMaps
import Verif.Model.Kernels
import Verif.Model.Tables
import Mathlib.Data.List.MinMax

/-!
# Model of escnn/nn/modules/nonlinearities/vectorfield.py
-/

namespace Escnn

open Real

variable {B P S C : Type}

/-- `group.representations['irrep_1']` of a cyclic group, cyclicgroup.py L377-381, L400-452. -/
noncomputable def Cyclic.irrep1 (N : ℕ) : Rep ℤ ℕ := irrepRep (Cyclic.table N) "irrep_1" (if N = 2 then {"norm", "gated", "concatenated"} else {"norm", "gated"}) 1

/-- `VectorFieldNonLinearity`, vectorfield.py L20-54. -/
structure VectorField (S : Type) where
  inType : FType S (Rep ℤ ℕ)
  outType : FType S (Rep ℤ ℕ)
  rotations : ℕ

/-- `out[:, a::2, ...] = d` for `a = 0, 1` (contract): the slice has `(channels - a + 1) // 2` channels, and a tensor with one channel is broadcast. -/
def setEverySecond (out : FTensor B P) (a : ℕ) (d : FTensor B P) : Except Err (FTensor B P) :=
  if d.chans = (out.chans - a + 1) / 2 then .ok ⟨out.chans, fun b c p => if a ≤ c ∧ (c - a) % 2 = 0 then d.get b ((c - a) / 2) p else out.get b c p⟩
  else if d.chans = 1 then .ok ⟨out.chans, fun b c p => if a ≤ c ∧ (c - a) % 2 = 0 then d.get b 0 p else out.get b c p⟩
  else .error .runtime

/-- The index returned by `torch.max(…, dim)` for `n` entries (contract): the first one of the maximal value. -/
noncomputable def argmaxOf (n : ℕ) (v : ℕ → ℝ) : ℕ := ((List.range n).argmax v).getD 0

namespace VectorField

open Classical in
/-- `__init__`, vectorfield.py L34-54.  `group` is the order of the fibre group if it is a cyclic group. -/
noncomputable def init (group : Option ℕ) (t : FType S (Rep ℤ ℕ)) : Except Err (VectorField S) :=
  match group with
  | none => .error .assertion
  | some N =>
    if ¬ 1 < N then .error .assertion
    else if ¬ ∀ r ∈ t.reprs, "vectorfield" ∈ r.nonlin ∧ r.name = "regular" ∧ r.size = N then .error .assertion
    else .ok ⟨t, ⟨t.gspace, List.replicate t.reprs.length (Cyclic.irrep1 N)⟩, N⟩

open Classical in
/-- `forward`, vectorfield.py L56-96; `junk` is the content of `torch.empty`. -/
noncomputable def forward (junk : B → ℕ → P → ℝ) (m : VectorField S) (x : GTensor B P S (Rep ℤ ℕ) C) : Except Err (GTensor B P S (Rep ℤ ℕ) C) :=
  if x.type ≠ m.inType then .error .assertion
  else do
    let fm ← x.tensor.toFields (x.tensor.chans / m.rotations) m.rotations
    let base : ℝ := 2 * π / m.rotations
    let act : B → ℕ → P → ℝ := fun b n p => max (maxOf m.rotations fun o => fm.get b n o p) 0
    let angle : B → ℕ → P → ℝ := fun b n p => (argmaxOf m.rotations fun o => fm.get b n o p) * base
    let out ← setEverySecond ⟨m.outType.size Rep.size, junk⟩ 0 ⟨fm.n, fun b n p => cos (angle b n p) * act b n p⟩
    let out ← setEverySecond out 1 ⟨fm.n, fun b n p => sin (angle b n p) * act b n p⟩
    GTensor.mk' Rep.size out m.outType x.coords

end VectorField

end Escnn
