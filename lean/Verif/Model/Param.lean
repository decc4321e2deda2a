import Verif.Model.SO2O2
import Mathlib.Analysis.SpecialFunctions.Complex.Arg

/-!
# Parametrisations of group elements

`_change_param` of C_N, D_N, SO(2), O(2) and the constructor of `GroupElement`.  Floats are exact reals, `np.isclose` and
`np.allclose` are equality.
-/

namespace Escnn

open Real NpMat

/-- The names in `PARAMETRIZATIONS`, cyclicgroup.py L22-26, dihedralgroup.py L19-23, so2group.py L21-24, o2group.py L26-29
(the last two do not have `'int'`). -/
inductive PName
  | int | radians | mat
  deriving DecidableEq

/-- Values of the rotation part of an element in one of the parametrisations. -/
inductive Raw
  | int (z : ℤ)
  | rad (x : ℝ)
  | mat (A : NpMat ℝ)

noncomputable section

/-- `np.arctan2(s, c)` (exact; `arctan2(0, 0) = 0`, no negative zeros). -/
def arctan2 (s c : ℝ) : ℝ := Complex.arg ⟨c, s⟩

/-- The four assertions on a matrix, cyclicgroup.py L195-198, dihedralgroup.py L228-231, so2group.py L184-187,
o2group.py L228-232. -/
def IsRotMat (A : NpMat ℝ) : Prop :=
  A.rows = 2 ∧ A.cols = 2 ∧ A.get 0 0 * A.get 1 1 - A.get 0 1 * A.get 1 0 = 1 ∧ mul A (transpose A) ≈ eye 2

/-- `np.array([[cos, -sin], [sin, cos]])`, cyclicgroup.py L224-229, dihedralgroup.py L258-264, so2group.py L200-206,
o2group.py L251-257. -/
def rotMat (x : ℝ) : NpMat ℝ := of2 (cos x) (-sin x) (sin x) (cos x)

namespace Cyclic

open Classical in
/-- The conversion to `'int'`, cyclicgroup.py L194-215; the same code converts the rotation of dihedral elements,
dihedralgroup.py L227-249.  In the matrix branch `sin = (element[1, 0] - element[1, 0]) / 2` (cyclicgroup.py L201,
dihedralgroup.py L234). -/
def toInt (N : ℕ) (p : PName) (e : Raw) : Except Err ℤ :=
  match p, e with
  | .int, .int z => .ok z
  | .radians, .rad x => if cycleIsclose x 0 (2 * π / N) then .ok (round (N * x / (2 * π)) % N) else .error .value
  | .mat, .mat A =>
    if IsRotMat A then
      let x := arctan2 ((A.get 1 0 - A.get 1 0) / 2) ((A.get 0 0 + A.get 1 1) / 2)
      if cycleIsclose x 0 (2 * π / N) then .ok (round (N * x / (2 * π)) % N) else .error .value
    else .error .assertion
  | _, _ => .error .assertion

/-- The conversion from `'int'`, cyclicgroup.py L217-231, dihedralgroup.py L251-266. -/
def ofInt (N : ℕ) (p : PName) (z : ℤ) : Raw :=
  match p with
  | .int => .int z
  | .radians => .rad (z * (2 * π) / N)
  | .mat => .mat (rotMat (z * (2 * π) / N))

/-- `CyclicGroup._change_param`, cyclicgroup.py L190-231. -/
def changeParam (N : ℕ) (pfrom pto : PName) (e : Raw) : Except Err Raw := (toInt N pfrom e).map (ofInt N pto)

/-- `cyclic_group(N).element(e, param)`, group.py L986-1003 with `_is_element`, cyclicgroup.py L174-180. -/
def elementOf (N : ℕ) (p : PName) (e : Raw) : Except Err ℤ := do
  let z ← toInt N p e
  if isElement N z then toInt N p e else .error .value

end Cyclic

namespace Dihedral

/-- The conversion to `'int'`, dihedralgroup.py L218-249. -/
def toInt (N : ℕ) (p : PName) (e : ℤ × Raw) : Except Err Elem := do
  pyAssert (decide (e.1 = 0 ∨ e.1 = 1))
  let z ← Cyclic.toInt N p e.2
  .ok (e.1, z)

/-- `DihedralGroup._change_param`, dihedralgroup.py L218-266. -/
def changeParam (N : ℕ) (pfrom pto : PName) (e : ℤ × Raw) : Except Err (ℤ × Raw) := do
  let z ← toInt N pfrom e
  .ok (z.1, Cyclic.ofInt N pto z.2)

/-- `dihedral_group(N).element(e, param)`, group.py L986-1003 with `_is_element`, dihedralgroup.py L175-181. -/
def elementOf (N : ℕ) (p : PName) (e : ℤ × Raw) : Except Err Elem := do
  let z ← toInt N p e
  if isElement N z then toInt N p e else .error .value

end Dihedral

namespace SO2

open Classical in
/-- The conversion to `'radians'`, so2group.py L179-197; the same code converts the rotation of `O(2)` elements, o2group.py
L226-245. -/
def toRad (p : PName) (e : Raw) : Except Err ℝ :=
  match p, e with
  | .radians, .rad x => .ok (mod2pi x)
  | .mat, .mat A =>
    if IsRotMat A then .ok (mod2pi (arctan2 ((A.get 1 0 - A.get 0 1) / 2) ((A.get 0 0 + A.get 1 1) / 2)))
    else .error .assertion
  | _, _ => .error .assertion

/-- The conversion from `'radians'`, so2group.py L199-214, o2group.py L247-261. -/
def ofRad (p : PName) (x : ℝ) : Except Err Raw :=
  match p with
  | .int => .error .assertion
  | .radians => .ok (.rad x)
  | .mat => .ok (.mat (rotMat x))

/-- `SO2._change_param`, so2group.py L179-214. -/
def changeParam (pfrom pto : PName) (e : Raw) : Except Err Raw := do
  let x ← toRad pfrom e
  ofRad pto x

/-- `so2_group().element(e, param)`, group.py L986-1003 with `_is_element`, so2group.py L175-177 (always true). -/
def elementOf (p : PName) (e : Raw) : Except Err ℝ := toRad p e

end SO2

namespace O2

/-- The conversion to `'radians'`, o2group.py L220-245. -/
def toRad (p : PName) (e : ℤ × Raw) : Except Err Elem := do
  let x ← SO2.toRad p e.2
  .ok (e.1, x)

/-- `O2._change_param`, o2group.py L220-262. -/
def changeParam (pfrom pto : PName) (e : ℤ × Raw) : Except Err (ℤ × Raw) := do
  let x ← toRad pfrom e
  let r ← SO2.ofRad pto x.2
  .ok (x.1, r)

/-- `o2_group().element(e, param)`, group.py L986-1003 with `_is_element`, o2group.py L213-218. -/
def elementOf (p : PName) (e : ℤ × Raw) : Except Err Elem := do
  let x ← toRad p e
  if x.1 = 0 ∨ x.1 = 1 then toRad p e else .error .value

end O2

end

end Escnn
