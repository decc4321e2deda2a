import Verif.Model.Polar
import Verif.Model.SteerableBasis
import Verif.Model.RestrictIrrep
import Verif.Model.KernelIface

/-!
# Model of escnn/kernels/r2.py: kernel bases on the plane
-/

namespace Escnn

/-- The rotation of the plane by `θ`. -/
noncomputable def rotate (θ : ℝ) (p : ℝ × ℝ) : ℝ × ℝ := (Real.cos θ * p.1 - Real.sin θ * p.2, Real.sin θ * p.1 + Real.cos θ * p.2)

/-- `G.irrep(*j).restrict(sg_id)` used by `RestrictedWignerEckartBasis` (wignereckart_solver.py L318-330): `restrict_representation`, group.py L657-719.
The branch for an exception is never reached (C13) and returns the empty representation. -/
noncomputable def restrictedIrrep {H J' : Type} (S : IrrepTable H J') (groupName : String) (trivial : J') (ri : ℕ × ℕ → Except Err (NpMat ℝ × List J')) (j : ℕ × ℕ) : Rep H J' :=
  match restrictRep O2.table S [] groupName trivial ri (irrepRep O2.table "irrep" ∅ j) with
  | .ok r => r
  | .error _ => ⟨"", [], NpMat.zeros 0 0, NpMat.zeros 0 0, fun _ => NpMat.zeros 0 0, ∅⟩

open Classical in
/-- `kernels_O2_subgroup_act_R2`, r2.py L132-165, without adjoint: a `GaussianRadialProfile`, a `CircularShellsBasis` and a `SteerableKernelBasis` with the
restricted solver.  `K` is the subgroup with its irreps, `res` the restriction of the irreps of O(2).  The kernel at a point is `sample` of the result. -/
noncomputable def kernelsO2Subgroup {H J' : Type} [DecidableEq J'] (K : KGroup H J') (res : ℕ × ℕ → Rep H J') (rin rout : Rep H J') (radii sigma : List ℝ) (L : ℕ) (axis : ℝ)
    (filter : Option (ℕ × ℕ → ℕ → Bool)) (junk : ℕ → ℝ) : Except Err (SKB (ℕ × ℕ) J' (Option StAttr) × FBasis (ℕ × ℕ) (ℝ × ℝ) (Option StAttr)) := do
  if ¬ (radii.length = sigma.length ∧ (∀ r ∈ radii, 0 ≤ r) ∧ (∀ s ∈ sigma, 0 < s)) then .error .assertion
  else if radii = [] then .error .emptyBasis
  else
    let b ← Shells.init ShellKind.circ O2.table.size L radii.length filter
    let F := circularBasis junk b radii sigma axis
    let s ← SKB.init K.T.size (0, 0) F (RWE.init K F O2.table.size res) rin rout
    .ok (s, F)

/-- `kernels_SO2_act_R2`, r2.py L26-70: the subgroup `(None, -1)`, the default axis `π/2`. -/
noncomputable def kernelsSO2 (rin rout : Rep ℝ ℕ) (radii sigma : List ℝ) (L : ℕ) (filter : Option (ℕ × ℕ → ℕ → Bool)) (junk : ℕ → ℝ) :=
  kernelsO2Subgroup SO2.kgroup (restrictedIrrep SO2.table "O(2)" 0 fun i => .ok (O2.restrictSO2 i.1 i.2)) rin rout radii sigma L (Real.pi / 2) filter junk

/-- `kernels_CN_act_R2`, r2.py L205-262, with `kernels_SO2_subgroup_act_R2` (L168-200), for `max_offset=None`: the subgroup `(None, N)`. -/
noncomputable def kernelsCN (N : ℕ) (rin rout : Rep ℤ ℕ) (radii sigma : List ℝ) (L : ℕ) (filter : Option (ℕ × ℕ → ℕ → Bool)) (junk : ℕ → ℝ) :=
  kernelsO2Subgroup (Cyclic.kgroup N) (restrictedIrrep (Cyclic.table N) "O(2)" 0 fun i => .ok (O2.restrictRot i.1 i.2 N)) rin rout radii sigma L (Real.pi / 2) filter junk

/-- `kernels_DN_act_R2`, r2.py L265-327, for `max_offset=None`: the subgroup `(0., N)`; the Clebsch-Gordan coefficients of the dihedral group are those of `K`. -/
noncomputable def kernelsDN (N : ℕ) (K : KGroup Dihedral.Elem (ℕ × ℕ)) (rin rout : Rep Dihedral.Elem (ℕ × ℕ)) (radii sigma : List ℝ) (axis : ℝ) (L : ℕ)
    (filter : Option (ℕ × ℕ → ℕ → Bool)) (junk : ℕ → ℝ) :=
  kernelsO2Subgroup K (restrictedIrrep (Dihedral.table N) "O(2)" (0, 0) fun i => .ok (O2.restrictDih i.1 i.2 N 0)) rin rout radii sigma L axis filter junk

/-- `kernels_O2_subgroup_act_R2` as `GSpace2D._basis_generator`, gspaces/r2.py L138-139, calls it for a dihedral group: the subgroup `(a, N)`, where `a` is twice the axis of `flipRot2dOnR2`, and the
circular harmonics with `axis=0`. -/
noncomputable def kernelsFlipRot (N : ℕ) (a : ℝ) (K : KGroup Dihedral.Elem (ℕ × ℕ)) (rin rout : Rep Dihedral.Elem (ℕ × ℕ)) (radii sigma : List ℝ) (L : ℕ)
    (filter : Option (ℕ × ℕ → ℕ → Bool)) (junk : ℕ → ℝ) :=
  kernelsO2Subgroup K (restrictedIrrep (Dihedral.table N) "O(2)" (0, 0) fun i => .ok (O2.restrictDih i.1 i.2 N a)) rin rout radii sigma L 0 filter junk

/-- The generator of sampled kernel bases on the plane: `build_kernel_basis`, gspace.py L369-458 (without the cache, see C22), and the sampling at the points of the grid, basisexpansion_singleblock.py L55-66. -/
noncomputable def planeGen {H J' : Type} [DecidableEq J'] (kern : Rep H J' → Rep H J' → Except Err (SKB (ℕ × ℕ) J' (Option StAttr) × FBasis (ℕ × ℕ) (ℝ × ℝ) (Option StAttr))) (pts : List (Fin 2 → ℝ))
    (rin rout : Rep H J') : Except Err (KBasis (SAttr (ℕ × ℕ) J' (Option StAttr))) := do
  let sF ← kern rin rout
  sF.1.kbasis O2.table.size sF.2 (pts.map fun v => (v 0, v 1))

end Escnn
