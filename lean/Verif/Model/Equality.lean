import Verif.Model.DirectProduct

/-!
# Model of the equality and hashing of group elements

`GroupElement.__eq__` and `__hash__` (group.py L1001-1004, L1026-1027) and the methods `_equal` and `_hash_element` of the groups.
-/

namespace Escnn

noncomputable section

open Real

/-- Python's `hash` on the objects hashed here: an `int`, a pair of `int`s, a tuple of floats.  Any functions. -/
structure PyHash where
  int : ℤ → ℤ
  pair : ℤ × ℤ → ℤ
  floats : List ℝ → ℤ

/-- The methods `_equal` and `_hash_element` of a group; `equal p` is called with `param1 = param2 = p`. -/
structure PyEqGroup (E : Type) where
  param : Param
  equal : Param → E → E → Except Err Bool
  hash : Param → E → Except Err ℤ

/-- A group whose methods accept its own parametrisation name (`_change_param` asserts `p_from in self.PARAMETRIZATIONS`), as in `PyGroup.leaf`. -/
def PyEqGroup.leaf {E : Type} (param : Param) (eq : E → E → Bool) (hash : E → ℤ) : PyEqGroup E where
  param := param
  equal p e e' := do pyAssert (decide (p = param)); pure (eq e e')
  hash p e := do pyAssert (decide (p = param)); pure (hash e)

/-- `np.around(x, d)`.  Ties are rounded up here and to even there. -/
def npAround (x : ℝ) (d : ℕ) : ℝ := round (x * 10 ^ d) / 10 ^ d

/-- `CyclicGroup`, cyclicgroup.py L152-184. -/
def Cyclic.pyEq (H : PyHash) : PyEqGroup ℤ := .leaf ['i', 'n', 't'] Cyclic.equal H.int

/-- `DihedralGroup`, dihedralgroup.py L183-212: the hash is that of `(element[0], element[1] % rotation_order)`. -/
def Dihedral.pyEq (H : PyHash) (N : ℕ) : PyEqGroup Dihedral.Elem := .leaf ['i', 'n', 't'] Dihedral.equal fun e => H.pair (e.1, e.2 % N)

open Classical in
/-- `SO2`, so2group.py L142-169. -/
def SO2.pyEq (H : PyHash) : PyEqGroup ℝ :=
  .leaf ['r', 'a', 'd', 'i', 'a', 'n', 's'] (fun a b => decide (SO2.Equal a b)) fun e => H.floats [npAround (cos (mod2pi e)) 5, npAround (sin (mod2pi e)) 5]

/-- `np.allclose(a, b, rtol, atol)` for arrays of the same length. -/
def npAllclose {n : ℕ} (a b : Fin n → ℝ) (rtol atol : ℝ) : Prop := ∀ i, |a i - b i| ≤ atol + rtol * |b i|

/-- `_equal(e1, e2)` on unit quaternions, so3_utils.py L155-182 (parametrisation `'Q'`; the quaternions are `(x, y, z, w)`). -/
def quatEqual (a b : Fin 4 → ℝ) : Prop := npAllclose a b (1 / 10 ^ 5) (1 / 10 ^ 7) ∨ npAllclose (fun i => -a i) b (1 / 10 ^ 5) (1 / 10 ^ 7)

/-- `_change_param(q, 'Q', 'MAT').reshape(-1)`: the rotation matrix of a unit quaternion (contract of `scipy`'s `Rotation`). -/
def quatMat (q : Fin 4 → ℝ) : List ℝ :=
  let x := q 0; let y := q 1; let z := q 2; let w := q 3
  [x ^ 2 - y ^ 2 - z ^ 2 + w ^ 2, 2 * (x * y - z * w), 2 * (x * z + y * w),
    2 * (x * y + z * w), -x ^ 2 + y ^ 2 - z ^ 2 + w ^ 2, 2 * (y * z - x * w),
    2 * (x * z - y * w), 2 * (y * z + x * w), -x ^ 2 - y ^ 2 + z ^ 2 + w ^ 2]

open Classical in
/-- `Octahedral` and `Icosahedral`, octa.py L116-127, ico.py L115-126: `_equal` and `_hash` (so3_utils.py L185-187). -/
def Quat.pyEq (H : PyHash) : PyEqGroup (Fin 4 → ℝ) := .leaf ['Q'] (fun a b => decide (quatEqual a b)) fun q => H.floats ((quatMat q).map fun x => npAround x 4)

/-- `DirectProductGroup._equal` and `_hash_element`, directproduct.py L295-353 (`and` does not evaluate the second factor if the first is `False`). -/
def directProductEq {E₁ E₂ : Type} (G₁ : PyEqGroup E₁) (G₂ : PyEqGroup E₂) : PyEqGroup (E₁ × E₂) where
  param := pairParam G₁.param G₂.param
  equal p e e' := do
    let q ← splitParam p
    if (← G₁.equal q.1 e.1 e'.1) then G₂.equal q.2 e.2 e'.2 else pure false
  hash p e := do
    let q ← splitParam p
    let a ← G₁.hash q.1 e.1
    let b ← G₂.hash q.2 e.2
    pure (a + b)

/-- `GroupElement.__eq__`, group.py L1001-1004, for the elements of a family of groups. -/
def elementEq {Gp : Type} [DecidableEq Gp] {E : Gp → Type} (grp : ∀ g, PyEqGroup (E g)) (a b : Σ g, E g) : Except Err Bool :=
  if h : b.1 = a.1 then (grp a.1).equal (grp a.1).param a.2 (h ▸ b.2) else .ok false

/-- `GroupElement.__hash__`, group.py L1026-1027. -/
def elementHash {Gp : Type} {E : Gp → Type} (grp : ∀ g, PyEqGroup (E g)) (a : Σ g, E g) : Except Err ℤ := (grp a.1).hash (grp a.1).param a.2

end

end Escnn
