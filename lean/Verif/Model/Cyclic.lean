import Verif.Model.Py
import Mathlib.Data.List.Range

/-!
# Model of `escnn/group/groups/cyclicgroup.py` (group structure)

Elements are Python integers in the default `'int'` parametrisation.
-/

namespace Escnn.Cyclic

/-- `CyclicGroup._is_element`, cyclicgroup.py L174-180, parametrisation `'int'`. -/
def isElement (N : ℕ) (e : ℤ) : Bool := decide (0 ≤ e) && decide (e < N)

/-- `G.element(e)`: cyclicgroup.py L64 via `GroupElement.__init__` (group.py L953-985), which raises
`ValueError` when `_is_element` fails. -/
def element (N : ℕ) (e : ℤ) : Except Err ℤ := if isElement N e then .ok e else .error .value

/-- `CyclicGroup._inverse`, cyclicgroup.py L107-121 (parametrisation `'int'`). -/
def inverse (N : ℕ) (e : ℤ) : ℤ := (-e) % N

/-- `CyclicGroup._combine`, cyclicgroup.py L123-150 (parametrisation `'int'`). -/
def combine (N : ℕ) (e₁ e₂ : ℤ) : ℤ := (e₁ + e₂) % N

/-- `CyclicGroup._equal`, cyclicgroup.py L152-172. -/
def equal (e₁ e₂ : ℤ) : Bool := e₁ == e₂

/-- `CyclicGroup._identity`, cyclicgroup.py L67. -/
def identity : ℤ := 0

/-- `CyclicGroup._elements`, cyclicgroup.py L64. -/
def elements (N : ℕ) : List ℤ := (List.range N).map (fun i : ℕ => (i : ℤ))

/-- `CyclicGroup.generators`, cyclicgroup.py L71-77 (`order() > 1`). -/
def generators (N : ℕ) : List ℤ := if 1 < (elements N).length then [1] else []

/-- `CyclicGroup._subgroup` argument checks, cyclicgroup.py L277-283: the id is an `int` dividing the order.
(`id = 0` makes Python's `%` raise `ZeroDivisionError`; negative ids fail in `cyclic_group(order)` L55.) -/
def subgroupIdOk (N M : ℕ) : Bool := decide (0 < M) && decide (N % M = 0)

/-- `_build_parent_map`, cyclicgroup.py L582-586: `G.element(e * G.order() // order)`. -/
def parentMap (N M : ℕ) (e : ℤ) : Except Err ℤ := element N (e * N / M)

/-- `_build_child_map`, cyclicgroup.py L589-601. -/
def childMap (N M : ℕ) (i : ℤ) : Except Err (Option ℤ) :=
  let ratio : ℤ := (N : ℤ) / M
  if i % ratio ≠ 0 then .ok none
  else (element M (i / ratio)).map some

/-- `CyclicGroup._combine_subgroups`, cyclicgroup.py L313-319: after validating both ids, returns the second.
The `assert` of `_subgroup` (L281) is run for `id₁` by `self.subgroup`. -/
def combineSubgroups (N M₁ M₂ : ℕ) : Except Err ℕ :=
  if subgroupIdOk N M₁ then .ok M₂ else .error .assertion

/-- `CyclicGroup.grid('regular', n)`, cyclicgroup.py L306-309. -/
def gridRegular (N n : ℕ) : Except Err (List ℤ) :=
  if n = 0 then .error .value  -- Python: ZeroDivisionError
  else if N % n = 0 then ((List.range n).mapM fun i : ℕ => element N ((i : ℤ) * (N / n : ℕ)))
  else .error .assertion

end Escnn.Cyclic
