import Verif.Model.InvariantMaps

/-!
# Model of `_induced_nonlinearities`, escnn/group/group.py L904-932
-/

namespace Escnn

variable {G Id : Type}

open Classical in
/-- The name of the flag of the subfields, L915-920 and L923-928: one of the flags of the representation with this prefix, if there is any (the first one met when iterating over the set), or `{pre}_{size}`. -/
noncomputable def inducedFlag (pre : String) (psi : Rep G Id) : String :=
  if h : ∃ nl, nl ∈ psi.nonlin ∧ pyStartsWith nl pre = true then h.choose else pre ++ "_" ++ Nat.repr psi.size

open Classical in
/-- `_induced_nonlinearities`, group.py L904-932: the nonlinearities supported by a representation induced from `psi`. -/
noncomputable def inducedNonlin (psi : Rep G Id) : Finset String :=
  (if "pointwise" ∈ psi.nonlin then {"pointwise"} else ∅) ∪ (if "concatenated" ∈ psi.nonlin then {"concatenated"} else ∅) ∪
  (if "gated" ∈ psi.nonlin then {"gated", inducedFlag "induced_gated" psi} else ∅) ∪ (if "norm" ∈ psi.nonlin then {"norm", inducedFlag "induced_norm" psi} else ∅) ∪
  (if "gate" ∈ psi.nonlin ∨ "induced_gate" ∈ psi.nonlin then {"induced_gate"} else ∅)

end Escnn
