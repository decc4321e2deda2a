import Verif.Model.Polar
import Verif.Model.SteerableBasis
import Verif.Model.Irreps3
import Verif.Model.TensorRep

/-!
# Model of the kernel bases on the space: kernels/harmonic_polynomial_r3.py, `SphericalShellsBasis.sample`, kernels/r3.py and `GSpace3D._basis_generator`

`W` are the Wigner D matrices (`Verif.Spec.Wigner`) and `cg` the Clebsch-Gordan coefficients of O(3) (`Verif.Spec.CG`).  `M` is any bound of the frequencies which occur.
-/

namespace Escnn

open NpMat Real

noncomputable section

/-- The irreps of SO(3), so3group.py L829-868: every frequency (up to `M`). -/
def SO3.table (W : ℕ → UQuat → NpMat ℝ) (M : ℕ) : IrrepTable UQuat ℕ := ⟨fun l => decide (l ≤ M), irrepSize, irrepMat W⟩

/-- The irreps of O(3), o3group.py L1128-1184: `j` in `{0, 1}` and every frequency (up to `M`). -/
def O3.table (W : ℕ → UQuat → NpMat ℝ) (M : ℕ) : IrrepTable Elem (ℕ × ℕ) :=
  ⟨fun i => decide (i.1 ≤ 1 ∧ i.2 ≤ M), fun i => irrepSize i.2, fun i => irrepMat W i.1 i.2⟩

/-- What the solvers use of SO(3): all the irreps are of real type (so3group.py L854-868). -/
def SO3.kgroup (W : ℕ → UQuat → NpMat ℝ) (M : ℕ) (cg : ℕ → ℕ → ℕ → CGArray) : KGroup UQuat ℕ := ⟨table W M, fun _ => .R, tensorIrreps, cg⟩

/-- What the solvers use of O(3): all the irreps are of real type (o3group.py L1153-1184). -/
def O3.kgroup (W : ℕ → UQuat → NpMat ℝ) (M : ℕ) (cg : ℕ × ℕ → ℕ × ℕ → ℕ × ℕ → CGArray) : KGroup Elem (ℕ × ℕ) := ⟨table W M, fun _ => .R, tensorIrreps, cg⟩

/-! ### harmonic_polynomial_r3.py -/

/-- `A[-d:, :]` for `0 < d` and `d` at most the number of rows, harmonic_polynomial_r3.py L47. -/
def lastRows (A : NpMat ℝ) (d : ℕ) : NpMat ℝ := ⟨d, A.cols, fun i j => A.get (A.rows - d + i) j⟩

open Classical in
/-- The buffer `cob_l`, harmonic_polynomial_r3.py L41-57. -/
def harmonicCob (W : ℕ → UQuat → NpMat ℝ) (M : ℕ) (cg : ℕ × ℕ → ℕ × ℕ → ℕ × ℕ → CGArray) (l : ℕ) : Except Err (NpMat ℝ) :=
  if l = 1 then .ok (transpose SO3.standardCob)
  else do
    let rho ← TensorRep.tensor (O3.table W M) O3.tensorIrreps cg [] (irrepRep (O3.table W M) "irrep" ∅ ((l - 1) % 2, l - 1)) (irrepRep (O3.table W M) "irrep" ∅ (1, 1))
    let cob := lastRows rho.cobInv (2 * l + 1)
    if ¬ NpMat.mul cob (transpose cob) ≈ eye (2 * l + 1) then .error .assertion
    else .ok ⟨cob.rows, cob.cols, fun i j => √((2 * l - 1) / l) * cob.get i j⟩

/-- The buffers `cob_1, …, cob_L`, harmonic_polynomial_r3.py L15-57. -/
def harmonicCobs (W : ℕ → UQuat → NpMat ℝ) (M : ℕ) (cg : ℕ × ℕ → ℕ × ℕ → ℕ × ℕ → CGArray) (L : ℕ) : Except Err (List (NpMat ℝ)) :=
  (List.range' 1 L).mapM (harmonicCob W M cg)

/-- The loop of `forward`, harmonic_polynomial_r3.py L75-82, for one point; a feature is its length and its entries.  `last` is `features[-1]`, `f₁` is `feature_1`. -/
def harmonicLoop (f₁ : ℕ × (ℕ → ℝ)) : ℕ → ℕ × (ℕ → ℝ) → List (NpMat ℝ) → Except Err (List (ℕ × (ℕ → ℝ)))
  | _, _, [] => .ok []
  | l, last, cob :: cobs =>
    if last.1 * f₁.1 ≠ 3 * (2 * l - 1) then .error .assertion
    else if cob.cols ≠ last.1 * f₁.1 then .error .runtime
    else if cob.rows ≠ 2 * l + 1 then .error .assertion
    else do
      let f : ℕ × (ℕ → ℝ) := (cob.rows, fun j => ∑ i ∈ Finset.range cob.cols, last.2 (i / f₁.1) * f₁.2 (i % f₁.1) * cob.get j i)
      let fs ← harmonicLoop f₁ (l + 1) f cobs
      .ok (f :: fs)

/-- `torch.cat(features, dim=-1)`, harmonic_polynomial_r3.py L84, entry `e`. -/
def catFeatures : List (ℕ × (ℕ → ℝ)) → ℕ → ℝ
  | [], _ => 0
  | f :: fs, e => if e < f.1 then f.2 e else catFeatures fs (e - f.1)

/-- `forward`, harmonic_polynomial_r3.py L59-86, for one point. -/
def harmonics (cobs : List (NpMat ℝ)) (p : Fin 3 → ℝ) : Except Err (ℕ → ℝ) :=
  match cobs with
  | [] => .ok (catFeatures [(1, fun _ => 1)])
  | cob₁ :: cobs => do
    let f₁ : ℕ × (ℕ → ℝ) := (cob₁.rows, fun j => ∑ i ∈ Finset.range 3, p (Fin.ofNat 3 i) * cob₁.get j i)
    let fs ← harmonicLoop f₁ 2 f₁ cobs
    .ok (catFeatures ((1, fun _ => 1) :: f₁ :: fs))

/-! ### polar_basis.py: SphericalShellsBasis -/

/-- `torch.norm(points, dim=1)`, polar_basis.py L297. -/
def radius3 (p : Fin 3 → ℝ) : ℝ := √(p 0 ^ 2 + p 1 ^ 2 + p 2 ^ 2)

/-- `sphere`, polar_basis.py L299-307; `torch.nn.functional.normalize` divides by `max(norm, 1e-12)`. -/
def sphereOf (p : Fin 3 → ℝ) : Fin 3 → ℝ := if 1e-9 < radius3 p then fun i => p i / max (radius3 p) 1e-12 else p

open Classical in
/-- `spherical` in `SphericalShellsBasis.sample`, polar_basis.py L297-332, with the assertions about a point near the origin. -/
def sphericalAt (cobs : List (NpMat ℝ)) (p : Fin 3 → ℝ) : Except Err (ℕ → ℝ) := do
  let y ← harmonics cobs (sphereOf p)
  if 1e-9 < radius3 p then .ok y
  else if ¬ |y 0 - 1| < 1e-7 then .error .assertion
  else if ¬ ∀ a, 1 ≤ a → a < (cobs.length + 1) ^ 2 → |y a| < 1e-7 then .error .assertion
  else .ok y

/-- `SphericalShellsBasis.sample`, polar_basis.py L273-352, for one point. -/
def sphericalSample (junk : ℕ → ℝ) (b : Shells) (cobs : List (NpMat ℝ)) (radii sigma : List ℝ) (p : Fin 3 → ℝ) : Except Err (ℕ → ℝ) := do
  let y ← sphericalAt cobs p
  .ok (b.sample junk (gaussian radii sigma (radius3 p)) y)

/-- The whole `SphericalShellsBasis` as the solvers see it.  The branch for an exception is never reached (C81) and returns zero. -/
def sphericalBasis (junk : ℕ → ℝ) (b : Shells) (cobs : List (NpMat ℝ)) (radii sigma : List ℝ) : FBasis (ℕ × ℕ) (Fin 3 → ℝ) (Option StAttr) :=
  ⟨b.js, fun p e => match sphericalSample junk b cobs radii sigma p with | .ok v => v e | .error _ => 0, b.steerableAttrsJ,
    fun j => .ok ((b.steerableAttrsJIter j).map some)⟩

open Classical in
/-- `SphericalShellsBasis(L, GaussianRadialProfile(radii, sigma), filter=filter)`, polar_basis.py L50-65 L156-271. -/
def sphericalInit (W : ℕ → UQuat → NpMat ℝ) (M : ℕ) (cg : ℕ × ℕ → ℕ × ℕ → ℕ × ℕ → CGArray) (radii sigma : List ℝ) (L : ℕ) (filter : Option (ℕ × ℕ → ℕ → Bool)) (junk : ℕ → ℝ) :
    Except Err (FBasis (ℕ × ℕ) (Fin 3 → ℝ) (Option StAttr)) :=
  if ¬ (radii.length = sigma.length ∧ (∀ r ∈ radii, 0 ≤ r) ∧ (∀ s ∈ sigma, 0 < s)) then .error .assertion
  else if radii = [] then .error .emptyBasis
  else do
    let b ← Shells.init ShellKind.sph (O3.table W M).size L radii.length filter
    let cobs ← harmonicCobs W M cg L
    .ok (sphericalBasis junk b cobs radii sigma)

/-! ### kernels/r3.py -/

/-- `G.irrep(*j).restrict(sg_id)` in `RestrictedWignerEckartBasis` (wignereckart_solver.py L318-330): `restrict_representation`, group.py L657-719.
The branch for an exception is never reached (C13) and returns the empty representation. -/
def restrictedIrrep3 {H J' : Type} (W : ℕ → UQuat → NpMat ℝ) (M : ℕ) (S : IrrepTable H J') (groupName : String) (trivial : J') (ri : ℕ × ℕ → Except Err (NpMat ℝ × List J')) (j : ℕ × ℕ) : Rep H J' :=
  match restrictRep (O3.table W M) S [] groupName trivial ri (irrepRep (O3.table W M) "irrep" ∅ j) with
  | .ok r => r
  | .error _ => ⟨"", [], zeros 0 0, zeros 0 0, fun _ => zeros 0 0, ∅⟩

/-- `maximum_frequency` when it is `None`, r3.py L83-86 L138-141; `max` of an empty sequence raises `ValueError`. -/
def maxFreq {J : Type} (freq : J → ℕ) (rin rout : List J) : Option ℕ → Except Err ℕ
  | some L => .ok L
  | none => if rin = [] ∨ rout = [] then .error .value else .ok ((rin.map freq).foldr max 0 + (rout.map freq).foldr max 0)

/-- `kernels_O3_act_R3`, r3.py L102-153, without adjoint. -/
def kernelsO3 (W : ℕ → UQuat → NpMat ℝ) (M : ℕ) (cg : ℕ × ℕ → ℕ × ℕ → ℕ × ℕ → CGArray) (rin rout : Rep O3.Elem (ℕ × ℕ)) (radii sigma : List ℝ) (L : Option ℕ)
    (filter : Option (ℕ × ℕ → ℕ → Bool)) (junk : ℕ → ℝ) : Except Err (SKB (ℕ × ℕ) (ℕ × ℕ) (Option StAttr) × FBasis (ℕ × ℕ) (Fin 3 → ℝ) (Option StAttr)) := do
  let L ← maxFreq Prod.snd rin.irreps rout.irreps L
  let F ← sphericalInit W M cg radii sigma L filter junk
  let s ← SKB.init (O3.table W M).size (0, 0) F (WE.init (O3.kgroup W M cg) F) rin rout
  .ok (s, F)

/-- `kernels_O3_subgroup_act_R3`, r3.py L158-186, without adjoint: `K` is the subgroup with its irreps, `res` the restriction of the irreps of O(3). -/
def kernelsO3Subgroup {H J' : Type} [DecidableEq J'] (W : ℕ → UQuat → NpMat ℝ) (M : ℕ) (cg : ℕ × ℕ → ℕ × ℕ → ℕ × ℕ → CGArray) (K : KGroup H J') (res : ℕ × ℕ → Rep H J') (rin rout : Rep H J')
    (radii sigma : List ℝ) (L : ℕ) (filter : Option (ℕ × ℕ → ℕ → Bool)) (junk : ℕ → ℝ) :
    Except Err (SKB (ℕ × ℕ) J' (Option StAttr) × FBasis (ℕ × ℕ) (Fin 3 → ℝ) (Option StAttr)) := do
  let F ← sphericalInit W M cg radii sigma L filter junk
  let s ← SKB.init K.T.size (0, 0) F (RWE.init K F (O3.table W M).size res) rin rout
  .ok (s, F)

/-- `kernels_SO3_act_R3`, r3.py L49-100, without adjoint: the solver for the subgroup `'so3'` of O(3). -/
def kernelsSO3 (W : ℕ → UQuat → NpMat ℝ) (M : ℕ) (cg : ℕ × ℕ → ℕ × ℕ → ℕ × ℕ → CGArray) (cg' : ℕ → ℕ → ℕ → CGArray) (rin rout : Rep UQuat ℕ) (radii sigma : List ℝ) (L : Option ℕ)
    (filter : Option (ℕ × ℕ → ℕ → Bool)) (junk : ℕ → ℝ) : Except Err (SKB (ℕ × ℕ) ℕ (Option StAttr) × FBasis (ℕ × ℕ) (Fin 3 → ℝ) (Option StAttr)) := do
  let L ← maxFreq (fun l => l) rin.irreps rout.irreps L
  kernelsO3Subgroup W M cg (SO3.kgroup W M cg') (restrictedIrrep3 W M (SO3.table W M) "O(3)" 0 fun i => .ok (O3.restrictSO3 W i.1 i.2 O3.identity)) rin rout radii sigma L filter junk

/-! ### `GSpace3D._basis_generator` -/

/-- An entry of the tuple which identifies a subgroup of O(3). -/
inductive SgEntry
  | bool (b : Bool)
  | int (n : ℤ)
  | float (a : ℝ)
  | str (s : String)
  | elem (e : O3.Elem)

/-- The tuple of an id of SO(3) in that of O(3). -/
def SO3.Id.entries : SO3.Id → List SgEntry
  | .str s => [.str s]
  | .pair flip n => [.bool flip, .int n]
  | .axis a n => [.float a, .int n]

/-- The tuple of an id of O(3). -/
def O3.Id.entries : O3.Id → List SgEntry
  | .so3 => [.str "so3"]
  | .o3 => [.str "o3"]
  | .sub inv x => .bool inv :: x.entries
  | .cone n => [.str "cone", .int n]
  | .coneAxis a n => [.str "cone", .float a, .int n]
  | .fulltetra => [.str "fulltetra"]

/-- `self._sg_id`, gspaces/r3.py L64 L70: `_process_subgroup_id` puts the adjoint element, the identity when none was given, at the end (o3group.py L441-442 L502). -/
def GSpace3.sgId (aq : UQuat → UQuat) (id : O3.Id) (adj : O3.Elem) : List SgEntry :=
  (O3.processId aq id adj).1.entries ++ [.elem (O3.processId aq id adj).2]

/-- The functions of kernels/r3.py which `_basis_generator` calls; the last two with the tuple of the subgroup. -/
inductive R3Call
  | o3
  | so3
  | so3Subgroup (id : List SgEntry) (adj : Option UQuat)
  | o3Subgroup (id : List SgEntry)

open Classical in
/-- `_basis_generator`, gspaces/r3.py L133-158: which function is called. -/
def GSpace3.dispatch (sgId : List SgEntry) : R3Call :=
  if sgId = [.bool true, .str "so3"] then .o3
  else if sgId = [.bool false, .str "so3"] then .so3
  else match sgId with
  | .bool false :: rest =>
    match rest.getLast? with
    | some (.elem adj) => .so3Subgroup rest.dropLast (some adj.2)
    | _ => .so3Subgroup rest none
  | sgId => .o3Subgroup sgId

/-- `O3._generator` and `SO3._generator`, o3group.py L1209-1217, so3group.py L889-897, with the assertion of the constructors (o3group.py L106): the maximal frequency of the instance afterwards;
`cached` is that of the instance before.  Comparing an integer with `None` raises `TypeError`. -/
def groupInstance (cached freq : Option ℕ) : Except Err ℕ :=
  match cached, freq with
  | none, none => .error .assertion
  | none, some f => .ok f
  | some _, none => .error .type
  | some c, some f => .ok (if c < f then f else c)

/-- The instances of the groups which `_basis_generator` asks for before it builds the basis, gspaces/r3.py L133-158, kernels/r3.py L167 L198, factory.py L147-159. -/
def GSpace3.instances (sgId : List SgEntry) (cachedO3 cachedSO3 freq : Option ℕ) : Except Err Unit :=
  match GSpace3.dispatch sgId with
  | .o3 => .ok ()
  | .so3 => .ok ()
  | .so3Subgroup _ adj => do
    let so3 ← match adj with
      | some _ => (groupInstance cachedSO3 (some 2)).map some
      | none => .ok cachedSO3
    let _ ← groupInstance so3 freq
    let _ ← groupInstance cachedO3 freq
    .ok ()
  | .o3Subgroup _ => do
    let _ ← groupInstance cachedO3 freq
    .ok ()

end

end Escnn
