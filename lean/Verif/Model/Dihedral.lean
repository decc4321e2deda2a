import Verif.Model.Py
import Verif.Model.Cyclic
import Mathlib.Data.List.Range

/-!
# Model of `escnn/group/groups/dihedralgroup.py` (group structure and subgroup maps)

Elements are pairs `(flip, rotation)` of Python integers, in the default `'int'` parametrisation.
-/

namespace Escnn.Dihedral

/-- A raw element: `(flip, rotation)`. -/
abbrev Elem := ℤ × ℤ

/-- `DihedralGroup._is_element`, dihedralgroup.py L175-181. -/
def isElement (N : ℕ) (e : Elem) : Bool :=
  (decide (e.1 = 0) || decide (e.1 = 1)) && (decide (0 ≤ e.2) && decide (e.2 < N))

/-- `G.element(e)`: raises `ValueError` when `_is_element` fails (group.py L953-985). -/
def element (N : ℕ) (e : Elem) : Except Err Elem := if isElement N e then .ok e else .error .value

/-- `(-1 if f else 1)` in L144, L172. -/
def sgn (f : ℤ) : ℤ := if f ≠ 0 then -1 else 1

/-- `DihedralGroup._inverse`, dihedralgroup.py L129-145. -/
def inverse (N : ℕ) (e : Elem) : Elem := (e.1, (-e.2 * sgn e.1) % N)

/-- `DihedralGroup._combine`, dihedralgroup.py L147-173. -/
def combine (N : ℕ) (e₁ e₂ : Elem) : Elem := ((e₁.1 + e₂.1) % 2, (e₁.2 + sgn e₁.1 * e₂.2) % N)

/-- `DihedralGroup._equal`, dihedralgroup.py L183-207. -/
def equal (e₁ e₂ : Elem) : Bool := e₁.1 == e₂.1 && e₁.2 == e₂.2

/-- dihedralgroup.py L93. -/
def identity : Elem := (0, 0)

/-- `DihedralGroup._elements`, dihedralgroup.py L91: rotations, then reflections. -/
def elements (N : ℕ) : List Elem :=
  (List.range N).map (fun i : ℕ => (0, (i : ℤ))) ++ (List.range N).map (fun i : ℕ => (1, (i : ℤ)))

/-- `DihedralGroup.generators`, dihedralgroup.py L98-103. -/
def generators (N : ℕ) : List Elem := if 1 < N then [(0, 1), (1, 0)] else [(1, 0)]

/-- A subgroup id `(axis, order)`, `axis = None` for rotation subgroups. -/
abbrev SubgroupId := Option ℤ × ℕ

/-- Checks of `DihedralGroup._subgroup`, dihedralgroup.py L308-320.  Note that the bound on `axis` is
`rotation_order`, the `// order` being commented out in the source. -/
def subgroupIdOk (N : ℕ) (id : SubgroupId) : Bool :=
  decide (1 ≤ id.2) && decide (N % id.2 = 0) &&
    (match id.1 with
     | none => true
     | some a => decide (0 ≤ a) && decide (a < N))

/-- `cn_to_dn`, dihedralgroup.py L725-736. -/
def cnToDn (N M : ℕ) (e : ℤ) : Except Err Elem := element N (0, e * ((N / M : ℕ) : ℤ))

/-- `dn_to_cn`, dihedralgroup.py L708-722. -/
def dnToCn (N M : ℕ) (e : Elem) : Except Err (Option ℤ) :=
  let ratio : ℤ := ((N / M : ℕ) : ℤ)
  if e.1 = 0 ∧ e.2 % ratio = 0 then (Cyclic.element M (e.2 / ratio)).map some else .ok none

/-- `flip_to_dn`, dihedralgroup.py L760-772. -/
def flipToDn (N : ℕ) (axis : ℤ) (f : ℤ) : Except Err Elem :=
  if f = 0 then .ok identity else element N (1, axis)

/-- `dn_to_flip`, dihedralgroup.py L742-757. -/
def dnToFlip (axis : ℤ) (e : Elem) : Except Err (Option ℤ) :=
  if e.1 = 0 ∧ e.2 = 0 then .ok (some Cyclic.identity)
  else if e.1 = 1 ∧ e.2 = axis then (Cyclic.element 2 1).map some
  else .ok none

/-- `dm_to_dn`, dihedralgroup.py L795-806. -/
def dmToDn (N M : ℕ) (axis : ℤ) (e : Elem) : Except Err Elem :=
  element N (e.1, e.2 * ((N / M : ℕ) : ℤ) + e.1 * axis)

/-- `dn_to_dm`, dihedralgroup.py L778-792. -/
def dnToDm (N M : ℕ) (axis : ℤ) (e : Elem) : Except Err (Option Elem) :=
  let ratio : ℤ := ((N / M : ℕ) : ℤ)
  if (e.2 - e.1 * axis) % ratio ≠ 0 then .ok none
  else (element M (e.1, (e.2 - e.1 * axis) / ratio)).map some

/-- The class of a subgroup selected by `_subgroup`, dihedralgroup.py L324-348. -/
inductive SubKind where
  /-- `id[0] is not None and id[1] == 1`: the two-element group generated by a reflection (L324-332) -/
  | flip (axis : ℤ)
  /-- `id[0] is None`: rotations (L334-340) -/
  | rot (M : ℕ)
  /-- otherwise: a dihedral subgroup (L342-348) -/
  | dih (axis : ℤ) (M : ℕ)
  deriving DecidableEq

/-- Branch selection of `DihedralGroup._subgroup`, dihedralgroup.py L308-350 (asserts first). -/
def subgroup (N : ℕ) (id : SubgroupId) : Except Err SubKind :=
  if subgroupIdOk N id then
    match id with
    | (some axis, M) => if M = 1 then .ok (.flip axis) else .ok (.dih axis M)
    | (none, M) => .ok (.rot M)
  else .error .assertion

/-- Elements of the subgroup, as a tagged union: cyclic elements are integers, dihedral ones pairs. -/
abbrev SubElem := ℤ ⊕ Elem

/-- Membership of a subgroup element in the group selected by `_subgroup`. -/
def SubKind.isElement : SubKind → SubElem → Bool
  | .flip _, .inl e => Cyclic.isElement 2 e
  | .rot M, .inl e => Cyclic.isElement M e
  | .dih _ M, .inr e => Dihedral.isElement M e
  | _, _ => false

/-- Composition in the group selected by `_subgroup`. -/
def SubKind.combine : SubKind → SubElem → SubElem → SubElem
  | .flip _, .inl a, .inl b => .inl (Cyclic.combine 2 a b)
  | .rot M, .inl a, .inl b => .inl (Cyclic.combine M a b)
  | .dih _ M, .inr a, .inr b => .inr (Dihedral.combine M a b)
  | _, a, _ => a

/-- The `parent_mapping` returned by `_subgroup` (L331, L339, L347). -/
def SubKind.parentMap (N : ℕ) : SubKind → SubElem → Except Err Elem
  | .flip axis, .inl e => flipToDn N axis e
  | .rot M, .inl e => cnToDn N M e
  | .dih axis M, .inr e => dmToDn N M axis e
  | _, _ => .error .assertion

/-- The `child_mapping` returned by `_subgroup` (L332, L340, L348). -/
def SubKind.childMap (N : ℕ) : SubKind → Elem → Except Err (Option SubElem)
  | .flip axis, e => (dnToFlip axis e).map (Option.map .inl)
  | .rot M, e => (dnToCn N M e).map (Option.map .inl)
  | .dih axis M, e => (dnToDm N M axis e).map (Option.map .inr)

/-- `DihedralGroup._combine_subgroups`, dihedralgroup.py L368-382.  The second id is an `int` for cyclic
subgroups (`.inl`) and a pair for dihedral ones (`.inr`). `inclusion(sg1.element((0, axis₂)))` is `dmToDn`. -/
def combineSubgroups (N : ℕ) (id₁ : SubgroupId) (id₂ : ℕ ⊕ SubgroupId) : Except Err SubgroupId :=
  if subgroupIdOk N id₁ then
    match id₁, id₂ with
    | (none, _), .inl M₂ => .ok (none, M₂)
    | (some axis₁, M₁), id₂ =>
      if M₁ = 1 then
        match id₂ with
        | .inl M₂ => .ok (if M₂ = 2 then some axis₁ else none, 1)
        | .inr _ => .error .type
      else
        match id₂ with
        | .inr (none, M₂) => .ok (none, M₂)
        | .inr (some axis₂, M₂) => do
            let e ← element M₁ (0, axis₂)
            let g ← dmToDn N M₁ axis₁ e
            .ok (some (axis₁ + g.2), M₂)
        | .inl _ => .error .type
    | (none, _), .inr _ => .error .type
  else .error .assertion

end Escnn.Dihedral
