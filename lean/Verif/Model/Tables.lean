import Verif.Model.Rep
import Verif.Model.Irreps

/-!
# `group.irrep(...)` of C_N, D_N, SO(2), O(2) as irrep tables
-/

namespace Escnn

noncomputable section

/-- `cyclic_group(N).irrep(k)`, cyclicgroup.py L399-452. -/
def Cyclic.table (N : ℕ) : IrrepTable ℤ ℕ := ⟨fun k => decide (k ≤ N / 2), irrepSize N, irrepMat N⟩
/-- `dihedral_group(N).irrep(j, k)`, dihedralgroup.py L547-636. -/
def Dihedral.table (N : ℕ) : IrrepTable Elem (ℕ × ℕ) :=
  ⟨fun i => irrepOk N i.1 i.2, fun i => irrepSize N i.1 i.2, fun i => irrepMat N i.1 i.2⟩
/-- `so2_group().irrep(k)`, so2group.py L426-452. -/
def SO2.table : IrrepTable ℝ ℕ := ⟨fun _ => true, irrepSize, irrepMat⟩
/-- `o2_group().irrep(j, k)`, o2group.py L630-690. -/
def O2.table : IrrepTable Elem (ℕ × ℕ) := ⟨fun i => irrepOk i.1 i.2, fun i => irrepSize i.1 i.2, fun i => irrepMat i.1 i.2⟩

end

end Escnn
