import Verif.Model.Py
import Verif.Model.Cyclic
import Verif.Model.Dihedral
import Verif.Model.SO2O2
import Mathlib.Data.List.Range

/-!
# Model of `escnn/group/directproduct.py` (group structure) and of `GroupElement` (group.py L953-1064)

A group is modelled through the methods the rest of the library calls on it.  Every method takes the name of the
parametrisation of its arguments, as in the source, because `DirectProductGroup` computes the parametrisations of its factors
by splitting that name with a regular expression.
-/

namespace Escnn

/-- Names of parametrisations, as lists of characters. -/
abbrev Param := List Char

/-- The part of the interface of `Group` (group.py L20-313) used by `GroupElement` and `DirectProductGroup`.
Simplification: `_combine` is only ever called with `param = param1 = param2`, `_inverse`, `_is_element` with the group's own
parametrisation (group.py L983-1029), so one name is passed; `changeParam p e` is `_change_param(e, p, p)`.  `E` is the type of raw values of elements. -/
structure PyGroup (E : Type) where
  /-- `PARAM` -/
  param : Param
  /-- `_is_element` -/
  isElement : Param → E → Except Err Bool
  /-- `_change_param(e, p, p)` -/
  changeParam : Param → E → Except Err E
  /-- `_combine` -/
  combine : Param → E → E → Except Err E
  /-- `_inverse` -/
  inverse : Param → E → Except Err E
  /-- `identity.value` -/
  identity : Except Err E
  /-- values of `elements` (`None` for continuous groups) -/
  elements : Except Err (Option (List E))

namespace PyGroup

/-- A group whose methods accept only its own parametrisation name: `_change_param` starts with
`assert p_from in self.PARAMETRIZATIONS` (e.g. cyclicgroup.py L191-192, dihedralgroup.py L219-220, so2group.py L181-182,
o2group.py L217-218).  Simplification: the other names in `PARAMETRIZATIONS` are not modelled here (see C21). -/
def leaf {E : Type} (param : Param) (isEl : E → Bool) (comb : E → E → E) (inv : E → E) (one : E) (els : Option (List E)) : PyGroup E where
  param := param
  isElement p e := do pyAssert (decide (p = param)); pure (isEl e)
  changeParam p e := do pyAssert (decide (p = param)); pure e
  combine p e e' := do pyAssert (decide (p = param)); pure (comb e e')
  inverse p e := do pyAssert (decide (p = param)); pure (inv e)
  identity := pure one
  elements := pure els

/-- `GroupElement.__init__` with `param=None` or `param=group.PARAM`, group.py L983-999 (value of the new element). -/
def element {E : Type} (G : PyGroup E) (e : E) : Except Err E := do
  if (← G.isElement G.param e) then G.changeParam G.param e else .error .value

/-- `GroupElement.__matmul__` for two elements of `G`, group.py L1006-1017. -/
def matmul {E : Type} (G : PyGroup E) (a b : E) : Except Err E := do G.element (← G.combine G.param a b)

/-- `GroupElement.__invert__`, group.py L1019-1024. -/
def invert {E : Type} (G : PyGroup E) (a : E) : Except Err E := do G.element (← G.inverse G.param a)

end PyGroup

/-- Does the list start with `" | "`? -/
def startsSep : List Char → Bool
  | ' ' :: '|' :: ' ' :: _ => true
  | _ => false

/-- `(.+)\]` matched greedily at the beginning of `r`: the longest non-empty prefix followed by `']'`. -/
def matchTail (r : List Char) : Option (List Char) :=
  (List.range r.length).reverse.findSome? fun j => if 0 < j ∧ r[j]? = some ']' then some (r.take j) else none

/-- `re.compile(r"\[(.+)\ \|\ (.+)\]").match(param).groups()`, directproduct.py L21-30; Python's greedy quantifiers try the
longest first group first.  `.groups()` of a failed match raises `AttributeError`.  Parametrisation names contain no newline. -/
def splitParam (s : Param) : Except Err (Param × Param) :=
  match s with
  | '[' :: t =>
    match (List.range (t.length + 1)).reverse.findSome? (fun i =>
        if 0 < i ∧ startsSep (t.drop i) = true then (matchTail (t.drop (i + 3))).map (fun q => (t.take i, q)) else none) with
    | some r => .ok r
    | none => .error .attribute
  | _ => .error .attribute

/-- `PARAM`, directproduct.py L105-107. -/
def pairParam (p q : Param) : Param := '[' :: (p ++ [' ', '|', ' '] ++ q ++ [']'])

/-- `pair_elements`, directproduct.py L200-207, on raw values.  The third entry of the tuple (`self.PARAM`) is dropped by
`_change_param` (L326-333), which returns a pair. -/
def pairElements {E₁ E₂ : Type} (G₁ : PyGroup E₁) (G₂ : PyGroup E₂) (mkP : E₁ × E₂ → Except Err (E₁ × E₂)) (a : E₁) (b : E₂) : Except Err (E₁ × E₂) := do
  let a ← G₁.changeParam G₁.param a
  let b ← G₂.changeParam G₂.param b
  mkP (a, b)

/-- `DirectProductGroup._is_element`, directproduct.py L270-293. -/
def dpIsElement {E₁ E₂ : Type} (G₁ : PyGroup E₁) (G₂ : PyGroup E₂) (p : Param) (e : E₁ × E₂) : Except Err Bool := do
  let q ← splitParam p
  if (← G₁.isElement q.1 e.1) then G₂.isElement q.2 e.2 else pure false

/-- `DirectProductGroup._change_param`, directproduct.py L326-333. -/
def dpChangeParam {E₁ E₂ : Type} (G₁ : PyGroup E₁) (G₂ : PyGroup E₂) (p : Param) (e : E₁ × E₂) : Except Err (E₁ × E₂) := do
  let q ← splitParam p
  let a ← G₁.changeParam q.1 e.1
  let b ← G₂.changeParam q.2 e.2
  pure (a, b)

/-- `GroupElement.__init__` for the product group. -/
def dpMk {E₁ E₂ : Type} (G₁ : PyGroup E₁) (G₂ : PyGroup E₂) (e : E₁ × E₂) : Except Err (E₁ × E₂) := do
  if (← dpIsElement G₁ G₂ (pairParam G₁.param G₂.param) e) then dpChangeParam G₁ G₂ (pairParam G₁.param G₂.param) e else .error .value

/-- `DirectProductGroup.elements`, directproduct.py L123-136. -/
def dpElements {E₁ E₂ : Type} (G₁ : PyGroup E₁) (G₂ : PyGroup E₂) : Except Err (Option (List (E₁ × E₂))) := do
  let e₁ ← G₁.elements
  let e₂ ← G₂.elements
  match e₁, e₂ with
  | some l₁, some l₂ => do
    let L ← (l₁.flatMap fun a => l₂.map fun b => (a, b)).mapM (fun x => pairElements G₁ G₂ (dpMk G₁ G₂) x.1 x.2)
    pure (some L)
  | _, _ => pure none

/-- `DirectProductGroup`, directproduct.py L33-333. -/
def directProduct {E₁ E₂ : Type} (G₁ : PyGroup E₁) (G₂ : PyGroup E₂) : PyGroup (E₁ × E₂) where
  param := pairParam G₁.param G₂.param
  isElement := dpIsElement G₁ G₂
  changeParam := dpChangeParam G₁ G₂
  combine p e e' := do
    let q ← splitParam p
    let a ← G₁.combine q.1 e.1 e'.1
    let b ← G₂.combine q.2 e.2 e'.2
    pure (a, b)
  inverse p e := do
    let q ← splitParam p
    let a ← G₁.inverse q.1 e.1
    let b ← G₂.inverse q.2 e.2
    pure (a, b)
  identity := do
    let a ← G₁.identity
    let b ← G₂.identity
    pairElements G₁ G₂ (dpMk G₁ G₂) a b
  elements := dpElements G₁ G₂

/-- `inclusion1`, directproduct.py L194-195. -/
def inclusion1 {E₁ E₂ : Type} (G₁ : PyGroup E₁) (G₂ : PyGroup E₂) (a : E₁) : Except Err (E₁ × E₂) := do
  let b ← G₂.identity
  pairElements G₁ G₂ (dpMk G₁ G₂) a b

/-- `inclusion2`, directproduct.py L197-198. -/
def inclusion2 {E₁ E₂ : Type} (G₁ : PyGroup E₁) (G₂ : PyGroup E₂) (b : E₂) : Except Err (E₁ × E₂) := do
  let a ← G₁.identity
  pairElements G₁ G₂ (dpMk G₁ G₂) a b

/-- `split_element`, directproduct.py L209-215. -/
def splitElement {E₁ E₂ : Type} (G₁ : PyGroup E₁) (G₂ : PyGroup E₂) (e : E₁ × E₂) : Except Err (E₁ × E₂) := do
  let g ← dpChangeParam G₁ G₂ (pairParam G₁.param G₂.param) e
  let a ← G₁.element g.1
  let b ← G₂.element g.2
  pure (a, b)

/-! ### The groups of the library -/

/-- `cyclic_group(N)`; `PARAM = 'int'`. -/
def Cyclic.pyGroup (N : ℕ) : PyGroup ℤ :=
  .leaf ['i', 'n', 't'] (Cyclic.isElement N) (Cyclic.combine N) (Cyclic.inverse N) Cyclic.identity (some (Cyclic.elements N))

/-- `dihedral_group(N)`; `PARAM = 'int'`. -/
def Dihedral.pyGroup (N : ℕ) : PyGroup Dihedral.Elem :=
  .leaf ['i', 'n', 't'] (Dihedral.isElement N) (Dihedral.combine N) (Dihedral.inverse N) Dihedral.identity (some (Dihedral.elements N))

open Classical in
/-- `so2_group()`; `PARAM = 'radians'`. -/
noncomputable def SO2.pyGroup : PyGroup ℝ :=
  .leaf ['r', 'a', 'd', 'i', 'a', 'n', 's'] (fun e => decide (SO2.IsElement e)) SO2.combine SO2.inverse SO2.identity none

open Classical in
/-- `o2_group()`; `PARAM = 'radians'`. -/
noncomputable def O2.pyGroup : PyGroup O2.Elem :=
  .leaf ['r', 'a', 'd', 'i', 'a', 'n', 's'] (fun e => decide (O2.IsElement e)) O2.combine O2.inverse O2.identity none

/-! ### Subgroups of products of cyclic groups -/

/-- The child map returned by `cyclic_group(N).subgroup(M)`, applied to an element of `C_{N'}`: starts with
`assert e.group == G` (cyclicgroup.py L589-592). -/
def Cyclic.childMapOf (N N' M : ℕ) (i : ℤ) : Except Err (Option ℤ) := if N = N' then Cyclic.childMap N M i else .error .assertion

/-- `restrict(G, H, restrict1, restrict2)`, directproduct.py L711-732 (`H.element` raising `ValueError` gives `None`). -/
def dpRestrict {A B C D : Type} (mkH : C × D → Except Err (C × D)) (r₁ : A → Except Err (Option C)) (r₂ : B → Except Err (Option D))
    (e : A × B) : Except Err (Option (C × D)) := do
  let a ← r₁ e.1
  let b ← r₂ e.2
  match a, b with
  | some x, some y =>
    match mkH (x, y) with
    | .ok h => .ok (some h)
    | .error .value => .ok none
    | .error err => .error err
  | _, _ => .ok none

/-- The child map returned by `DirectProductGroup._subgroup` for `C_{N₁} × C_{N₂}` and id `(M₁, M₂)` with `M₁, M₂ ≠ 1`,
directproduct.py L491-492: `restrict(self, H, child2, child2)`, i.e. `child2` is used for both components. -/
def Cyclic.dpChild (N₁ N₂ M₁ M₂ : ℕ) (e : ℤ × ℤ) : Except Err (Option (ℤ × ℤ)) :=
  dpRestrict (dpMk (Cyclic.pyGroup M₁) (Cyclic.pyGroup M₂)) (Cyclic.childMapOf N₂ N₁ M₂) (Cyclic.childMapOf N₂ N₂ M₂) e

/-- `inclusion(G, H, parent1, parent2)`, directproduct.py L735-750, for `C_{N₁} × C_{N₂}`. -/
def Cyclic.dpParent (N₁ N₂ M₁ M₂ : ℕ) (e : ℤ × ℤ) : Except Err (ℤ × ℤ) := do
  let a ← Cyclic.parentMap N₁ M₁ e.1
  let b ← Cyclic.parentMap N₂ M₂ e.2
  dpMk (Cyclic.pyGroup N₁) (Cyclic.pyGroup N₂) (a, b)

end Escnn
