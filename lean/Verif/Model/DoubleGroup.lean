import Verif.Model.DirectProduct

/-!
# The diagonal subgroup of the product of a group with itself, escnn/group/doublegroup.py L98-160
-/

namespace Escnn

/-- `restriction(G)`, doublegroup.py L138-148; `eq` is `GroupElement.__eq__`. -/
def dgRestrict {A : Type} (eq : A → A → Bool) (e : A × A) : Except Err (Option A) := .ok (if eq e.1 e.2 then some e.1 else none)

/-- `inclusion(G)`, doublegroup.py L151-160. -/
def dgInclude {A : Type} (mkG : A × A → Except Err (A × A)) (e : A) : Except Err (A × A) := mkG (e, e)

/-- `DoubleGroup._combine_subgroups`, doublegroup.py L104-105. -/
def dgCombineSubgroups {I : Type} (_ _ : I) : Except Err I := .error .notImplemented

/-- `DoubleGroup._subgroup`, doublegroup.py L98-116, of a string or a pair; `super` is the method of the direct product, which asserts that the id is a pair (directproduct.py L449). -/
def dgSubgroup {A I S : Type} (diagonal : (A → Except Err (A × A)) × (A × A → Except Err (Option A)) → S) (mkG : A × A → Except Err (A × A)) (eq : A → A → Bool) (super : I → Except Err S) :
    String ⊕ I → Except Err S
  | .inl id => if id = "diagonal" then .ok (diagonal (dgInclude mkG, dgRestrict eq)) else .error .assertion
  | .inr id => super id

end Escnn
