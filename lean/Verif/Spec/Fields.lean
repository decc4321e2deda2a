import Verif.Model.GTensor

/-!
# Specifications about fields of geometric tensors
-/

namespace Escnn

variable {B P S R C : Type}

/-- The first channel of field `k`: the sum of the sizes of the fields before it. -/
def chanOffset (sz : R → ℕ) (L : List R) (k : ℕ) : ℕ := ((L.take k).map sz).sum

/-- `y` consists of the fields of `x` with the indices `I`, in this order: field `k` of `y` has the representation of field `I[k]` of
`x`, and its channels hold the values of the channels of that field. -/
structure IsSelection (sz : R → ℕ) (x : GTensor B P S R C) (I : List ℕ) (y : GTensor B P S R C) : Prop where
  gspace : y.type.gspace = x.type.gspace
  coords : y.coords = x.coords
  len : y.type.reprs.length = I.length
  mem : ∀ i ∈ I, i < x.type.reprs.length
  repr : ∀ k i : ℕ, I[k]? = some i → y.type.reprs[k]? = x.type.reprs[i]?
  chans : y.tensor.chans = (y.type.reprs.map sz).sum
  data : ∀ (k i : ℕ) (r : R), I[k]? = some i → x.type.reprs[i]? = some r → ∀ b o p, o < sz r →
    y.tensor.get b (chanOffset sz y.type.reprs k + o) p = x.tensor.get b (chanOffset sz x.type.reprs i + o) p

end Escnn
