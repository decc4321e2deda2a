import Verif.Model.Octa

/-!
# The restriction of the irreps of the octahedral group to its subgroups, escnn/group/groups/octa.py
-/

namespace Escnn

open Quaternion NpMat

namespace Octa

noncomputable section

/-- `irr(g)` for an element which is stored as a quaternion (representation.py L331-349; the irreps depend on the rotation only, octa.py L401-459). -/
def irrepAt (W : ℕ → UQuat → NpMat ℝ) (ord : List Elem → List Elem) (l : ℤ) (g : UQuat) : NpMat ℝ := (table W ord).mat l (ofRot g)

open Classical in
/-- `_restrict_irrep`, octa.py L285-319. `num` is the numerical routine `restrict_irrep(irr, sg_id)` (L313), which gets the id without the adjoint element; the irreps of the whole group and of the cyclic
groups are both numbered. -/
def restrictIrrep (aq : UQuat → UQuat) (W : ℕ → UQuat → NpMat ℝ) (ord : List Elem → List Elem) (num : Id → ℤ → Except Err (NpMat ℝ × List ℤ)) (id : Id) (adj : UQuat) (l : ℤ) :
    Except Err (NpMat ℝ × List ℤ) := do
  let _ ← irrep W ord l
  let _ ← (subgroup aq id adj).map fun _ => ()
  let r ← if id = .str "octa" then .ok (eye ((table W ord).size l), [l])
    else if id = .pair false 1 then .ok (eye ((table W ord).size l), List.replicate ((table W ord).size l) 1)
    else num id l
  .ok (mul (transpose (irrepAt W ord l adj)) r.1, r.2)

end

end Octa

end Escnn
