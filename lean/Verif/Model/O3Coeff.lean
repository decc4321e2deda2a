import Verif.Model.KernelsR3

/-!
# The Clebsch–Gordan coefficients of O(3), escnn/group/groups/o3group.py L1196-1205
-/

namespace Escnn

/-- `O3._clebsh_gordan_coeff(m, n, j)`, o3group.py L1196-1205; `cg` is `_clebsh_gordan_tensor_so3`. `np.zeros` is called with four positional arguments instead of a tuple, which raises `TypeError`. -/
def O3.cgCoeff (cg : ℕ → ℕ → ℕ → CGArray) (m n j : ℕ × ℕ) : Except Err CGArray :=
  if (m.1 + n.1) % 2 = j.1 then .ok (cg m.2 n.2 j.2) else .error .type

end Escnn
