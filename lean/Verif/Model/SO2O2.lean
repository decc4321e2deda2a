import Verif.Model.Irreps
import Mathlib.Algebra.Order.ToIntervalMod
import Mathlib.Algebra.Order.Round

/-!
# Model of the group structure of `so2group.py` and `o2group.py`

Angles are exact reals in the `'radians'` parametrisation.
-/

namespace Escnn

open Real

noncomputable section

/-- Python's `x % (2*pi)` on floats (sign of the divisor): the representative in `[0, 2π)`. -/
def mod2pi (x : ℝ) : ℝ := toIcoMod two_pi_pos 0 x

/-- Python's `x % S` for a positive float `S` (and `x` itself for the unused case `S ≤ 0`). -/
def fmod (x S : ℝ) : ℝ := if h : 0 < S then toIcoMod h 0 x else x

/-- `math.isclose(a, b, rel_tol, abs_tol)`. -/
def isclose (a b rtol atol : ℝ) : Prop := |a - b| ≤ max (rtol * max |a| |b|) atol

/-- `cycle_isclose(a, b, S, rtol=1e-9, atol=1e-11)`, group/utils.py L55-70. -/
def cycleIsclose (a b S : ℝ) : Prop :=
  let d := fmod (a - b) S
  (isclose d 0 (1 / 10 ^ 9) (1 / 10 ^ 11) ∧ 0 ≤ d) ∨ (isclose d S (1 / 10 ^ 9) (1 / 10 ^ 11) ∧ d ≤ S)

namespace SO2

/-- `SO2._inverse`, so2group.py L105-118. -/
def inverse (e : ℝ) : ℝ := mod2pi (-mod2pi e)

/-- `SO2._combine`, so2group.py L120-140 (`_change_param` reduces both operands, L198). -/
def combine (e₁ e₂ : ℝ) : ℝ := mod2pi (mod2pi (mod2pi e₁ + mod2pi e₂))

/-- `SO2._identity`. -/
def identity : ℝ := 0

/-- Stored elements: `GroupElement.__init__` (group.py L987) stores `element % (2π)`. -/
def IsElement (e : ℝ) : Prop := 0 ≤ e ∧ e < 2 * π

/-- `SO2._equal`, so2group.py L142-165. -/
def Equal (e₁ e₂ : ℝ) : Prop := cycleIsclose (mod2pi e₁) (mod2pi e₂) (2 * π)

/-- `_build_parent_map(G, order)`, so2group.py L566-571: `G.element(e * 2 * pi / order)`. -/
def parentMap (M : ℕ) (e : ℤ) : ℝ := mod2pi (e * 2 * π / M)

open Classical in
/-- `_build_child_map(sg)`, so2group.py L574-584.  Python's `round` is modelled by Mathlib's `round` (they differ only at
exact ties `n + 1/2`). -/
def childMap (M : ℕ) (e : ℝ) : Except Err (Option ℤ) :=
  if ¬ cycleIsclose e 0 (2 * π / M) then .ok none
  else (Cyclic.element M (round (e * M / (2 * π)))).map some

end SO2

namespace O2

/-- The sign `(-1 if f else 1)` of o2group.py L153, L176. -/
def sgn (f : ℤ) : ℝ := sgnR f

/-- `_change_param(e, 'radians', 'radians')`, o2group.py L244: reduce the angle. -/
def reduce (e : Elem) : Elem := (e.1, mod2pi e.2)

/-- `O2._inverse`, o2group.py L138-154. -/
def inverse (e : Elem) : Elem := reduce ((reduce e).1, -(reduce e).2 * sgn (reduce e).1)

/-- `O2._combine`, o2group.py L156-177. -/
def combine (e₁ e₂ : Elem) : Elem :=
  reduce (((reduce e₁).1 + (reduce e₂).1) % 2, (reduce e₁).2 + sgn (reduce e₁).1 * (reduce e₂).2)

/-- `O2._identity`. -/
def identity : Elem := (0, 0)

/-- Stored elements: `flip ∈ {0,1}` (o2group.py L216) and the angle reduced (L244). -/
def IsElement (e : Elem) : Prop := (e.1 = 0 ∨ e.1 = 1) ∧ 0 ≤ e.2 ∧ e.2 < 2 * π

/-- `o2.element(e)`: `_is_element` (L213-218) then reduction (group.py L953-990). -/
def element (e : Elem) : Except Err Elem :=
  if e.1 = 0 ∨ e.1 = 1 then .ok (reduce e) else .error .value

/-- Subgroup ids `(axis | None, order)`; the order is `-1` or positive. -/
abbrev SubgroupId := Option ℝ × ℤ

/-- The assertions of `O2._subgroup`, o2group.py L357-366. -/
def SubgroupIdOk (id : SubgroupId) : Prop :=
  (∀ a, id.1 = some a → 0 ≤ a ∧ a ≤ 2 * π) ∧ (id.2 = -1 ∨ 0 < id.2)

/-- `so2_to_o2` on SO(2) or C_M elements given in radians, o2group.py L792-800. -/
def so2ToO2 (θ : ℝ) : Except Err Elem := element (0, θ)

/-- `o2_to_so2(so2_group)`, o2group.py L774-789 (for the group SO(2): `element` never raises). -/
def o2ToSo2 (e : Elem) : Option ℝ := if e.1 = 0 then some (mod2pi e.2) else none

open Classical in
/-- `o2_to_so2(cyclic_group(M))`, o2group.py L774-789: `so2.element(rotation, 'radians')` converts with
`_change_param` (cyclicgroup.py L209-213), whose `ValueError` becomes `None`. -/
def o2ToCn (M : ℕ) (e : Elem) : Option ℤ :=
  if e.1 = 0 then
    if cycleIsclose e.2 0 (2 * π / M) then some (round (M * e.2 / (2 * π)) % M) else none
  else none

/-- `flip_to_o2`, o2group.py L824-836. -/
def flipToO2 (axis : ℝ) (f : ℤ) : Except Err Elem := if f = 0 then .ok identity else element (1, axis)

open Classical in
/-- `o2_to_flip`, o2group.py L806-821. -/
def o2ToFlip (axis : ℝ) (e : Elem) : Except Err (Option ℤ) :=
  if e.1 = 0 ∧ cycleIsclose e.2 0 (2 * π) then .ok (some Cyclic.identity)
  else if e.1 = 1 ∧ cycleIsclose e.2 axis (2 * π) then (Cyclic.element 2 1).map some
  else .ok none

/-- `dn_to_o2`, o2group.py L858-867. -/
def dnToO2 (M : ℕ) (axis : ℝ) (e : Dihedral.Elem) : Except Err Elem :=
  element (e.1, e.2 * 2 * π / M + e.1 * axis)

open Classical in
/-- `o2_to_dn`, o2group.py L842-855. -/
def o2ToDn (M : ℕ) (axis : ℝ) (e : Elem) : Except Err (Option Dihedral.Elem) :=
  if cycleIsclose (e.2 - e.1 * axis) 0 (2 * π / M) then
    (Dihedral.element M (e.1, round ((e.2 - e.1 * axis) * M / (2 * π)))).map some
  else .ok none

/-- `build_adjoint_map(G, adj)`, groups/utils.py L11-19: `adj @ e @ ~adj`. -/
def adjointMap (adj e : Elem) : Elem := combine (combine adj e) (inverse adj)

/-- Inclusion for `(axis, -1)`, o2group.py L368-371. -/
def selfParent (axis : ℝ) (e : Elem) : Elem := adjointMap (reduce (0, axis / 2)) e

/-- Restriction for `(axis, -1)`, o2group.py L371. -/
def selfChild (axis : ℝ) (e : Elem) : Elem := adjointMap (reduce (0, -axis / 2)) e

/-- Ids of subgroups of the possible subgroups of `O(2)`: an `int` for C_M and SO(2), a pair for D_M and for `O(2)`
itself. -/
inductive SubId where
  | cyc (m : ℤ)
  | dih (axis : Option ℤ) (m : ℕ)
  | o2 (axis : Option ℝ) (m : ℤ)

/-- `O2._combine_subgroups`, o2group.py L411-425.  The first three lines validate both ids; the branches then are those of
L417-425, `inclusion` being `dnToO2` or `selfParent` (the only groups whose ids are pairs with an axis).  Ids of a kind that
does not fit the first subgroup raise. -/
def combineSubgroups : SubgroupId → SubId → Except Err SubgroupId
  | (none, _), .cyc m => .ok (none, m)
  | (some a, o), id₂ =>
    if o = 1 then
      match id₂ with
      | .cyc m => .ok (if m = 2 then some a else none, 1)
      | _ => .error .assertion
    else
      match id₂ with
      | .dih none m => .ok (none, (m : ℤ))
      | .o2 none m => .ok (none, m)
      | .dih (some k) m => do
        let e ← Dihedral.element o.toNat (0, k)
        let g ← dnToO2 o.toNat a e
        .ok (some (a + g.2), (m : ℤ))
      | .o2 (some b) m => do
        let e ← element (0, b)
        .ok (some (a + (selfParent a e).2), m)
      | .cyc _ => .error .assertion
  | _, _ => .error .assertion

end O2

end

end Escnn
