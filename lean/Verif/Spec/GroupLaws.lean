import Verif.Model.DirectProduct

/-!
# The group laws, for groups given by the methods of the library
-/

namespace Escnn

/-- `e` is (the value of) an element of `G`. -/
def PyGroup.Valid {E : Type} (G : PyGroup E) (e : E) : Prop := G.isElement G.param e = .ok true

/-- No operation on elements raises, results are elements, the group axioms hold, and `elements` (when not `None`) lists every
element exactly once. -/
structure GroupLaws {E : Type} (G : PyGroup E) : Prop where
  change : ∀ a, G.Valid a → G.changeParam G.param a = .ok a
  one : ∃ e, G.identity = .ok e ∧ G.Valid e ∧ ∀ a, G.Valid a → G.matmul e a = .ok a ∧ G.matmul a e = .ok a
  mul : ∀ a b, G.Valid a → G.Valid b → ∃ c, G.matmul a b = .ok c ∧ G.Valid c
  assoc : ∀ a b c ab bc, G.Valid a → G.Valid b → G.Valid c → G.matmul a b = .ok ab → G.matmul b c = .ok bc →
    G.matmul ab c = G.matmul a bc
  inv : ∀ a, G.Valid a → ∃ i, G.invert a = .ok i ∧ G.Valid i ∧ G.matmul a i = G.identity ∧ G.matmul i a = G.identity
  elements_ok : ∃ o, G.elements = .ok o
  elements_spec : ∀ L, G.elements = .ok (some L) → L.Nodup ∧ ∀ a, a ∈ L ↔ G.Valid a

end Escnn
