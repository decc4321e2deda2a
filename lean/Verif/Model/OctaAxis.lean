import Verif.Model.Octa
import Verif.Model.Ico

/-!
# The test for rotation axes of the octahedron, escnn/group/groups/octa.py L472-552
-/

namespace Escnn

namespace Octa

noncomputable section

open Classical in
/-- `_is_axis_aligned(v, n)`, octa.py L472-552 (`allclose` is equality). -/
def axisAligned (v : Fin 3 → ℝ) (n : ℤ) : Except Err Bool :=
  let u : Fin 3 → ℝ := fun i => |v i / Ico.norm v|
  if n = 2 then .ok (decide (u = ![1, 0, 0] ∨ u = ![0, 1, 0] ∨ u = ![0, 0, 1] ∨ u = ![1 / √2, 0, 1 / √2] ∨ u = ![1 / √2, 1 / √2, 0] ∨ u = ![0, 1 / √2, 1 / √2]))
  else if n = 4 then .ok (decide (u = ![1, 0, 0] ∨ u = ![0, 1, 0] ∨ u = ![0, 0, 1]))
  else if n = 3 then .ok (decide (u = fun _ => 1 / √3))
  else .error .value

end

end Octa

end Escnn
