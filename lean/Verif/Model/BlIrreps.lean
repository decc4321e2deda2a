import Verif.Model.Irreps3

/-!
# The irreps of bounded frequency
-/

namespace Escnn

/-- `SO2.bl_irreps(L)`, so2group.py L404-411, and `SO3.bl_irreps(L)`, so3group.py L796-803. -/
def SO2.blIrreps (L : ℤ) : Except Err (List ℕ) := if 0 ≤ L then .ok (List.range (L + 1).toNat) else .error .assertion

/-- `CyclicGroup.bl_irreps(L)`, cyclicgroup.py L454-461. -/
def Cyclic.blIrreps (N : ℕ) (L : ℤ) : Except Err (List ℕ) := if 0 ≤ L ∧ L ≤ (N : ℤ) / 2 then .ok (List.range (L + 1).toNat) else .error .assertion

/-- `O2.bl_irreps(L)`, o2group.py L605-615. -/
def O2.blIrreps (L : ℤ) : Except Err (List (ℕ × ℕ)) := if 0 ≤ L then .ok ([(0, 0)] ++ (List.range (L + 1).toNat).map fun l => (1, l)) else .error .assertion

/-- `DihedralGroup.bl_irreps(L)`, dihedralgroup.py L518-541 (after the loop `k` is `L`). -/
def Dihedral.blIrreps (N : ℕ) (L : ℤ) : Except Err (List (ℕ × ℕ)) :=
  if 0 ≤ L ∧ L ≤ (N : ℤ) / 2 then .ok ([(0, 0)] ++ ((List.range (L + 1).toNat).map fun k => (1, k)) ++ if N % 2 = 0 ∧ L = (N : ℤ) / 2 then [(0, L.toNat)] else [])
  else .error .assertion

/-- `O3.bl_irreps(L)`, o3group.py L1114-1124. -/
def O3.blIrreps (L : ℤ) : Except Err (List (ℕ × ℕ)) := if 0 ≤ L then .ok ((List.range (L + 1).toNat).flatMap fun l => [(0, l), (1, l)]) else .error .assertion

/-- The irreps of `SO2.bl_regular_representation(L)`, so2group.py L384-402. -/
def SO2.blRegular (L : ℕ) : List ℕ := List.range (L + 1)

/-- The irreps of `O2.bl_regular_representation(L)`, o2group.py L543-564. -/
def O2.blRegular (L : ℕ) : List (ℕ × ℕ) :=
  (List.range (L + 1)).flatMap fun l => (if l = 0 then [(0, l)] else []) ++ List.replicate (if l = 0 then 1 else 2) (1, l)

end Escnn
