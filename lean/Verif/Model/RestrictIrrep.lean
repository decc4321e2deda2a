import Verif.Model.SO2O2

/-!
# Model of `_restrict_irrep` for C_N, D_N, SO(2) and O(2)

The result is `(change_of_basis, irrep ids of the subgroup)`.  Python's `f > order/2` and `k == rotation_order/2` compare an
integer with an exact half-integer float: `2 * f > order`, `2 * k = rotation_order`.
-/

namespace Escnn

open Real NpMat

noncomputable section

namespace Cyclic

/-- `f = frequency % order; if f > order/2: f = order - f`, cyclicgroup.py L348-351 (and the same lines in the three other
groups). -/
def foldFreq (M f : ℕ) : ℕ := if 2 * (f % M) > M then M - f % M else f % M

/-- `change_of_basis` chosen with it, cyclicgroup.py L350-354: `diag(1,-1)` if folded, the identity of the size of the irrep
otherwise. -/
def foldBasis (M f size : ℕ) : NpMat ℝ := if 2 * (f % M) > M then chi 1 else eye size

/-- `CyclicGroup._restrict_irrep`, cyclicgroup.py L321-363; `np.array([[1, 0], [0, -1]])` (L351) is `chi(1)`. -/
def restrictIrrep (N k M : ℕ) : Except Err (NpMat ℝ × List ℕ) :=
  if k ≤ N / 2 then
    if subgroupIdOk N M then
      let f := foldFreq M k
      .ok (foldBasis M k (irrepSize N k), [f] ++ (if irrepSize M f < irrepSize N k then [f] else []))
    else .error .assertion
  else .error .assertion

end Cyclic

namespace SO2

/-- `SO2._restrict_irrep` to `C_M`, so2group.py L316-361. -/
def restrictIrrep (k M : ℕ) : Except Err (NpMat ℝ × List ℕ) :=
  if 0 < M then
    let f := Cyclic.foldFreq M k
    .ok (Cyclic.foldBasis M k (irrepSize k), [f] ++ (if Cyclic.irrepSize M f < irrepSize k then [f] else []))
  else .error .value

end SO2

namespace Dihedral

/-- `j = (j + axis) % 2` when `k == rotation_order/2`, dihedralgroup.py L418-419, L449-450. -/
def shiftFlip (N j k : ℕ) (axis : ℤ) : ℕ := if 2 * k = N then (((j : ℤ) + axis) % 2).toNat else j

/-- The angle `0.5 * axis * 2 * pi / rotation_order`, dihedralgroup.py L423, L468. -/
def halfAxis (N : ℕ) (axis : ℤ) : ℝ := axis * (2 * π) / N / 2

/-- `DihedralGroup._restrict_irrep` for a flip id `(axis, 1)`, dihedralgroup.py L415-424. -/
def restrictFlip (N j k : ℕ) (axis : ℤ) : NpMat ℝ × List ℕ :=
  if irrepSize N j k > 1 then (psi (halfAxis N axis) k, [0, shiftFlip N j k axis])
  else (eye (irrepSize N j k), [shiftFlip N j k axis])

/-- `DihedralGroup._restrict_irrep` for a rotation id `(None, M)`, dihedralgroup.py L426-442. -/
def restrictRot (N j k M : ℕ) : NpMat ℝ × List ℕ :=
  let f := Cyclic.foldFreq M k
  (Cyclic.foldBasis M k (irrepSize N j k), [f] ++ (if Cyclic.irrepSize M f < irrepSize N j k then [f] else []))

/-- `DihedralGroup._restrict_irrep` for a dihedral id `(axis, M)`, `M > 1`, dihedralgroup.py L444-468. -/
def restrictDih (N j k M : ℕ) (axis : ℤ) : NpMat ℝ × List (ℕ × ℕ) :=
  let j' := shiftFlip N j k axis
  let f := Cyclic.foldFreq M k
  let C := Cyclic.foldBasis M k (irrepSize N j k)
  (if irrepSize N j k = 2 then mul (psi (halfAxis N axis) k) C else C,
   if irrepSize M j' f < irrepSize N j k then [(0, f), (j', f)] else [(j', f)])

end Dihedral

namespace O2

/-- `O2._restrict_irrep` for `(axis, -1)`, o2group.py L457-464. -/
def restrictSelf (j k : ℕ) (axis : ℝ) : NpMat ℝ × List (ℕ × ℕ) :=
  (if irrepSize j k = 2 then mul (psi (axis / 2) k) (eye (irrepSize j k)) else eye (irrepSize j k), [(j, k)])

/-- `O2._restrict_irrep` for `(None, -1)`, o2group.py L466-469. -/
def restrictSO2 (j k : ℕ) : NpMat ℝ × List ℕ := (eye (irrepSize j k), [k])

/-- `O2._restrict_irrep` for `(axis, 1)`, o2group.py L471-478. -/
def restrictFlip (j k : ℕ) (axis : ℝ) : NpMat ℝ × List ℕ :=
  if irrepSize j k > 1 then (psi (axis / 2) k, [0, j]) else (eye (irrepSize j k), [j])

/-- `O2._restrict_irrep` for `(None, M)`, o2group.py L479-493. -/
def restrictRot (j k M : ℕ) : NpMat ℝ × List ℕ :=
  let f := Cyclic.foldFreq M k
  (Cyclic.foldBasis M k (irrepSize j k), (if Cyclic.irrepSize M f < irrepSize j k then [f] else []) ++ [f])

/-- `O2._restrict_irrep` for `(axis, M)`, `M > 1`, o2group.py L495-514. -/
def restrictDih (j k M : ℕ) (axis : ℝ) : NpMat ℝ × List (ℕ × ℕ) :=
  let f := Cyclic.foldFreq M k
  let C := Cyclic.foldBasis M k (irrepSize j k)
  (if irrepSize j k = 2 then mul (psi (axis / 2) k) C else C,
   (if Dihedral.irrepSize M j f < irrepSize j k then [(0, f)] else []) ++ [(j, f)])

end O2

end

end Escnn
