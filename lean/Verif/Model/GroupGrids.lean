import Verif.Model.SO2O2

/-!
# Model of the methods `grid`, `grid_so2` and `testing_elements` of planar groups and products

escnn/group/groups/so2group.py, o2group.py, cyclicgroup.py, dihedralgroup.py and escnn/group/directproduct.py.  The numbers which the
random generator returns are an argument.
-/

namespace Escnn

open Real

noncomputable section

/-- The argument `type` of `grid`; the samples in `[0, 1)` (with a flip for O(2)) are the results of the generator. -/
inductive GridType (X : Type) where
  | regular | rand (sample : List X) | other

namespace SO2

/-- `SO2.grid(N, type)`, so2group.py L221-243; `element` reduces the angle. -/
def grid (N : ℕ) : GridType ℝ → Except Err (List ℝ)
  | .regular => .ok ((List.range N).map fun i : ℕ => mod2pi ((i : ℝ) * 2 * π / N))
  | .rand s => .ok (s.map fun u => mod2pi (u * 2 * π))
  | .other => .error .value

/-- `SO2.testing_elements(n)`, so2group.py L245-249. -/
def testingElements (n : ℕ) : List ℝ := (List.range n).map fun i : ℕ => mod2pi ((i : ℝ) * 2 * π / n)

end SO2

namespace O2

/-- `O2.grid(N, type)`, o2group.py L266-294. -/
def grid (N : ℕ) : GridType (ℤ × ℝ) → Except Err (List Elem)
  | .regular => (((List.range N).map fun i : ℕ => ((0 : ℤ), (i : ℝ) * 2 * π / N)) ++ (List.range N).map fun i : ℕ => ((1 : ℤ), (i : ℝ) * 2 * π / N)).mapM element
  | .rand s => (s.map fun u => (u.1, u.2 * 2 * π)).mapM element
  | .other => .error .value

/-- `O2.grid_so2(N, type)`, o2group.py L296-316. -/
def gridSO2 (N : ℕ) : GridType ℝ → Except Err (List Elem)
  | .regular => ((List.range N).map fun i : ℕ => ((0 : ℤ), (i : ℝ) * 2 * π / N)).mapM element
  | .rand s => (s.map fun u => ((0 : ℤ), u * 2 * π)).mapM element
  | .other => .error .value

/-- `O2.testing_elements(n)`, o2group.py L318-325. -/
def testingElements (n : ℕ) : Except Err (List Elem) :=
  (((List.range n).map fun i : ℕ => ((0 : ℤ), (i : ℝ) * 2 * π / n)) ++ (List.range n).map fun i : ℕ => ((1 : ℤ), (i : ℝ) * 2 * π / n)).mapM element

end O2

/-- `DihedralGroup.grid('regular', n)`, dihedralgroup.py L361-364. -/
def Dihedral.gridRegular (N n : ℕ) : Except Err (List Dihedral.Elem) :=
  if n = 0 then .error .value  -- Python: ZeroDivisionError
  else if N % n = 0 then (((List.range n).map fun i : ℕ => ((0 : ℤ), (i : ℤ) * (N / n : ℕ))) ++ (List.range n).map fun i : ℕ => ((1 : ℤ), (i : ℤ) * (N / n : ℕ))).mapM (Dihedral.element N)
  else .error .assertion

/-- `DirectProductGroup.grid`, directproduct.py L401-441, from the results of the calls `self.G1.grid` and `self.G2.grid`; `zip` is
the branch `type == 'rand'`. -/
def dpGrid {E₁ E₂ : Type} (zip : Bool) (grid1 : Except Err (List E₁)) (grid2 : Except Err (List E₂)) : Except Err (List (E₁ × E₂)) := do
  let a ← grid1
  let b ← grid2
  if zip then .ok (a.zip b) else .ok (a.flatMap fun x => b.map fun y => (x, y))

end

end Escnn
