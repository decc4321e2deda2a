import Verif.Props.C81_KernelsR3
import Verif.Props.C65_O2
import Verif.Lemmas.CG11

/-!
# C81 for the single subgroups of O(3)
-/

namespace Escnn

open NpMat Real Quaternion

variable {W : ℕ → UQuat → NpMat ℝ} {M L : ℕ} {cg : ℕ × ℕ → ℕ × ℕ → ℕ × ℕ → CGArray}

theorem SubData.parent_eq {G H : Type} {El : H → Prop} {mul : H → H → H} {P P' : H → Except Err G} {C C' : G → Except Err (Option H)} {x : Except Err (SubData G)}
    (h : x = .ok ⟨H, El, mul, P, C⟩) (h' : x = .ok ⟨H, El, mul, P', C'⟩) : P' = P := by
  rw [h] at h'
  have := Except.ok.inj h'
  simp only [SubData.mk.injEq, heq_eq_eq, true_and] at this
  exact this.1.symm

/-- What is needed of the Wigner matrices and of the coefficients of O(3) to build the basis up to the frequency `L`. -/
structure HarmonicData (W : ℕ → UQuat → NpMat ℝ) (M L : ℕ) (cg : ℕ × ℕ → ℕ × ℕ → ℕ × ℕ → CGArray) : Prop where
  wigner : ∀ l, l ≠ 0 → l ≤ M → Wigner l (W l)
  le : L ≤ M
  law : ∀ k, k + 2 ≤ L → HarmonicLaw W M cg k

/-- A list of radii and of widths which `GaussianRadialProfile` accepts. -/
structure ShellData (radii sigma : List ℝ) : Prop where
  len : radii.length = sigma.length
  radii : ∀ r ∈ radii, 0 ≤ r
  sigma : ∀ s ∈ sigma, 0 < s

/-- What C81 says of the result `r`: every kernel is steerable under the matrices `act`; there is no kernel only if, for every pair of irreps, no irrep of the tensor product occurs in the restriction `res` of an irrep of
the basis. -/
def SteerableR3 {H J' : Type} (El : H → Prop) (act : H → Mat3) (size : ℕ × ℕ → ℕ) (K : KGroup H J') (res : ℕ × ℕ → Rep H J') (L : ℕ) (radii : List ℝ) (filter : Option (ℕ × ℕ → ℕ → Bool)) (rin rout : Rep H J')
    (r : Except Err (SKB (ℕ × ℕ) J' (Option StAttr) × FBasis (ℕ × ℕ) (Fin 3 → ℝ) (Option StAttr))) : Prop :=
  (r = .error .emptyBasis ∧
    (filter = none → radii ≠ [] → ∀ m ∈ rin.irreps, ∀ n ∈ rout.irreps, ∀ l ≤ L, ∀ p ∈ K.tensor m n, p.1 ∈ (res (l % 2, l)).irreps → (K.cg n m p.1).mult = 0)) ∨
  ∃ s F, r = .ok (s, F) ∧ s.rows = rout.size ∧ s.cols = rin.size ∧ 0 < s.dim ∧
    ∀ e < s.dim, SteerableKernel El (fun h p => Matrix.mulVec (act h) p) rin.mat rout.mat fun x => SKB.sample size F s x e

/-- The maps of the subgroups below do not use the groups of the Platonic solids. -/
def noSolid : RotGroup := ⟨Unit, fun _ => True, fun _ _ => (), fun _ => 1, fun _ => .ok ()⟩

/-! ### SO(3) -/

theorem SO3.identity_unit : normSq SO3.identity = 1 := O3.identity_el.2

theorem SO3.rotOf_identity : rotOf SO3.identity = 1 := by
  have := O3.identity_act
  simpa [act3, O3.identity] using this

theorem SO3.table_size (l : ℕ) : (SO3.table W M).size l = 2 * l + 1 := by
  show SO3.irrepSize l = _
  unfold SO3.irrepSize
  split_ifs with h <;> omega

theorem SO3.table_valid (hW : ∀ l, l ≠ 0 → l ≤ M → Wigner l (W l)) : (SO3.table W M).Valid (fun q => normSq q = 1) (SO3.combine fun q => q) SO3.identity := by
  intro l hl
  have hl' : l ≤ M := of_decide_eq_true hl
  obtain ⟨hs, hR⟩ := SO3.C79_so3_rep (l := l) fun h => hW l h hl'
  have hsz : (SO3.table W M).size l = 2 * l + 1 := hs
  rw [hsz]
  exact ⟨hR.rows, hR.cols, hR.one _ SO3.identity_unit SO3.rotOf_identity, fun g h hg hh => hR.hom g h _ hg hh (SO3.combine_unit O3.id_asQuat hg hh) (SO3.combine_spec O3.id_asQuat g h), hR.ortho⟩

theorem SO3.tensorIrreps_comm (m n : ℕ) : SO3.tensorIrreps m n = SO3.tensorIrreps n m := by
  unfold SO3.tensorIrreps
  have h : ((m : ℤ) - n).natAbs = ((n : ℤ) - m).natAbs := by omega
  simp only [h, add_comm m n]

/-- **C81** for the whole group SO(3), in any position: `kernels_O3_subgroup_act_R3` with `(False, 'so3', adj)` and `kernels_SO3_subgroup_act_R3` with `'so3'`. -/
theorem C81_so3_subgroup (h : HarmonicData W M L cg) {adj : O3.Elem} (hadj : O3El adj) {cg' : ℕ → ℕ → ℕ → CGArray} (rin rout : Rep UQuat ℕ) {radii sigma : List ℝ} (hsh : ShellData radii sigma)
    (filter : Option (ℕ × ℕ → ℕ → Bool)) (junk : ℕ → ℝ) (hin : rin.WF (SO3.table W M) fun q => normSq q = 1) (hout : rout.WF (SO3.table W M) fun q => normSq q = 1)
    (hcg : ∀ m ∈ rin.irreps, ∀ n ∈ rout.irreps, CGLaw (fun q => normSq q = 1) (SO3.table W M).ok (SO3.table W M).size (SO3.table W M).mat SO3.tensorIrreps cg' n m) :
    SteerableR3 (fun q : UQuat => normSq q = 1) (fun q => (act3 adj).transpose * rotOf q * act3 adj) (O3.table W M).size (SO3.kgroup W M cg')
      (restrictedIrrep3 W M (SO3.table W M) "O(3)" 0 fun i => .ok (O3.restrictSO3 W i.1 i.2 adj)) L radii filter rin rout
      (kernelsO3Subgroup W M cg (SO3.kgroup W M cg') (restrictedIrrep3 W M (SO3.table W M) "O(3)" 0 fun i => .ok (O3.restrictSO3 W i.1 i.2 adj)) rin rout radii sigma L filter junk) := by
  obtain ⟨P, C, h1, h2, -⟩ := O3.C76_so3 O3.id_asQuat noSolid noSolid hadj
  have hT := SO3.table_valid h.wigner
  refine C81_subgroup h.wigner h.le h.law (SO3.kgroup W M cg') 0 _ h2 SO3.identity_unit (fun i hi => ?_) rin rout radii sigma filter junk hT (C18_real_type _ hT fun i _ => by
      show 0 < (SO3.table W M).size i; rw [SO3.table_size]; omega) hin hout (fun m hm n hn p hp => ?_) hsh.len hsh.radii hsh.sigma
  · have hi' : i.1 ≤ 1 ∧ i.2 ≤ M := of_decide_eq_true hi
    obtain ⟨P', C', e1, e2⟩ := O3.C79_o3_so3 (j := i.1) O3.id_asQuat noSolid noSolid hadj fun h0 => h.wigner i.2 h0 hi'.2
    rw [SubData.parent_eq h1 e1] at e2
    exact ⟨_, _, rfl, fun f hf => by rw [List.mem_singleton.1 hf]; exact decide_eq_true hi'.2, by rw [O3.table_size]; exact e2⟩
  · have hl := hcg m hm n hn
    have hp' : p ∈ SO3.tensorIrreps n m := by rw [← SO3.tensorIrreps_comm]; exact hp
    exact ⟨hl.ok p hp', hl.intertwines p hp'⟩

/-- **C81** `kernels_SO3_act_R3`: the kernels are steerable under the rotations of the space. -/
theorem C81_so3 (hW : ∀ l, l ≠ 0 → l ≤ M → Wigner l (W l)) {cg' : ℕ → ℕ → ℕ → CGArray} (rin rout : Rep UQuat ℕ) {radii sigma : List ℝ} (hsh : ShellData radii sigma) (L : Option ℕ)
    (hL : ∀ L', maxFreq (fun l => l) rin.irreps rout.irreps L = .ok L' → L' ≤ M ∧ ∀ k, k + 2 ≤ L' → HarmonicLaw W M cg k)
    (filter : Option (ℕ × ℕ → ℕ → Bool)) (junk : ℕ → ℝ) (hin : rin.WF (SO3.table W M) fun q => normSq q = 1) (hout : rout.WF (SO3.table W M) fun q => normSq q = 1)
    (hcg : ∀ m ∈ rin.irreps, ∀ n ∈ rout.irreps, CGLaw (fun q => normSq q = 1) (SO3.table W M).ok (SO3.table W M).size (SO3.table W M).mat SO3.tensorIrreps cg' n m) :
    ∃ L', maxFreq (fun l => l) rin.irreps rout.irreps L = .ok L' ∧
      SteerableR3 (fun q : UQuat => normSq q = 1) rotOf (O3.table W M).size (SO3.kgroup W M cg') (restrictedIrrep3 W M (SO3.table W M) "O(3)" 0 fun i => .ok (O3.restrictSO3 W i.1 i.2 O3.identity)) L' radii filter
        rin rout (kernelsSO3 W M cg cg' rin rout radii sigma L filter junk) := by
  obtain ⟨L', hL', -⟩ := maxFreq_ok hin hout (fun l => l) L
  have h := C81_so3_subgroup ⟨hW, (hL L' hL').1, (hL L' hL').2⟩ O3.identity_el rin rout hsh filter junk hin hout hcg
  simp only [O3.identity_act, Matrix.transpose_one, one_mul, mul_one] at h
  have e : kernelsSO3 W M cg cg' rin rout radii sigma L filter junk = _ := bind_eq hL' rfl
  rw [e]
  exact ⟨L', hL', h⟩

/-! ### the other subgroups -/

/-- **C81** `(False, False, -1, adj)`: the rotations around an axis. -/
theorem C81_so2 (h : HarmonicData W M L cg) {adj : O3.Elem} (hadj : O3El adj) (rin rout : Rep ℝ ℕ) {radii sigma : List ℝ} (hsh : ShellData radii sigma)
    (filter : Option (ℕ × ℕ → ℕ → Bool)) (junk : ℕ → ℝ) (hin : rin.WF SO2.table SO2.IsElement) (hout : rout.WF SO2.table SO2.IsElement) :
    SteerableR3 SO2.IsElement (fun θ => (act3 adj).transpose * rotZ θ * act3 adj) (O3.table W M).size SO2.kgroup
      (restrictedIrrep3 W M SO2.table "O(3)" 0 fun i => O3.restrictSO2 W i.1 i.2 adj) L radii filter rin rout
      (kernelsO3Subgroup W M cg SO2.kgroup (restrictedIrrep3 W M SO2.table "O(3)" 0 fun i => O3.restrictSO2 W i.1 i.2 adj) rin rout radii sigma L filter junk) := by
  obtain ⟨P, C, h1, h2, -⟩ := O3.C76_so2 O3.id_asQuat noSolid noSolid hadj
  refine C81_subgroup h.wigner h.le h.law SO2.kgroup 0 _ h2 ⟨le_rfl, by positivity⟩ (fun i hi => ?_) rin rout radii sigma filter junk SO2.table_valid SO2.C18_so2 hin hout
    (fun m _ n _ p hp => ⟨rfl, (SO2.kgroup_cg m n p hp).2⟩) hsh.len hsh.radii hsh.sigma
  have hi' : i.1 ≤ 1 ∧ i.2 ≤ M := of_decide_eq_true hi
  obtain ⟨P', C', Q, Ls, e1, e2, e3⟩ := O3.C79_o3_so2 (j := i.1) O3.id_asQuat noSolid noSolid hadj fun h0 => h.wigner i.2 h0 hi'.2
  rw [SubData.parent_eq h1 e1] at e3
  exact ⟨Q, Ls, e2, fun _ _ => rfl, by rw [O3.table_size]; exact e3⟩

/-- **C81** `(False, False, N, adj)`: the rotations by `2π k / N` around an axis. -/
theorem C81_cyclic (h : HarmonicData W M L cg) {adj : O3.Elem} (hadj : O3El adj) (N : ℕ) (hN : 0 < N) (rin rout : Rep ℤ ℕ) {radii sigma : List ℝ} (hsh : ShellData radii sigma)
    (filter : Option (ℕ × ℕ → ℕ → Bool)) (junk : ℕ → ℝ) (hin : rin.WF (Cyclic.table N) fun g => Cyclic.isElement N g = true)
    (hout : rout.WF (Cyclic.table N) fun g => Cyclic.isElement N g = true) :
    SteerableR3 (fun g => Cyclic.isElement N g = true) (fun k => (act3 adj).transpose * rotZ (k * (2 * π / N)) * act3 adj) (O3.table W M).size (Cyclic.kgroup N)
      (restrictedIrrep3 W M (Cyclic.table N) "O(3)" 0 fun i => O3.restrictCyc W i.1 i.2 N adj) L radii filter rin rout
      (kernelsO3Subgroup W M cg (Cyclic.kgroup N) (restrictedIrrep3 W M (Cyclic.table N) "O(3)" 0 fun i => O3.restrictCyc W i.1 i.2 N adj) rin rout radii sigma L filter junk) := by
  have hle : ∀ {r : Rep ℤ ℕ}, r.WF (Cyclic.table N) (fun g => Cyclic.isElement N g = true) → ∀ m ∈ r.irreps, m ≤ N / 2 := fun hr m hm => of_decide_eq_true (hr.ok m hm)
  obtain ⟨P, C, h1, h2, -⟩ := O3.C76_cyclic O3.id_asQuat noSolid noSolid hadj N hN
  refine C81_subgroup h.wigner h.le h.law (Cyclic.kgroup N) 0 _ h2 (one := 0) (by simp [Cyclic.isElement]; omega) (fun i hi => ?_) rin rout radii sigma filter junk (Cyclic.table_valid N hN)
    (Cyclic.C18_cyclic N hN).1 hin hout
    (fun m hm n hn p hp => ⟨(Cyclic.kgroup_cg N hN m n (hle hin m hm) (hle hout n hn) p hp).1, (Cyclic.kgroup_cg N hN m n (hle hin m hm) (hle hout n hn) p hp).2.2⟩) hsh.len hsh.radii hsh.sigma
  have hi' : i.1 ≤ 1 ∧ i.2 ≤ M := of_decide_eq_true hi
  obtain ⟨P', C', Q, Ls, e1, e2, e3, e4⟩ := O3.C79_o3_cyclic (j := i.1) O3.id_asQuat noSolid noSolid hadj (fun h0 => h.wigner i.2 h0 hi'.2) N hN
  rw [SubData.parent_eq h1 e1] at e4
  exact ⟨Q, Ls, e2, fun f hf => decide_eq_true (e3 f hf), by rw [O3.table_size]; exact e4⟩

/-- **C81** `(True, False, 1, adj)`: the inversion, `kernels_Inv_act_R3`. -/
theorem C81_inversion (h : HarmonicData W M L cg) {adj : O3.Elem} (hadj : O3El adj) (rin rout : Rep ℤ ℕ) {radii sigma : List ℝ} (hsh : ShellData radii sigma)
    (filter : Option (ℕ × ℕ → ℕ → Bool)) (junk : ℕ → ℝ) (hin : rin.WF (Cyclic.table 2) fun g => Cyclic.isElement 2 g = true)
    (hout : rout.WF (Cyclic.table 2) fun g => Cyclic.isElement 2 g = true) :
    SteerableR3 (fun g => Cyclic.isElement 2 g = true) (fun k => (-1 : ℝ) ^ k.toNat • (1 : Mat3)) (O3.table W M).size (Cyclic.kgroup 2)
      (restrictedIrrep3 W M (Cyclic.table 2) "O(3)" 0 fun i => .ok (O3.restrictInv W i.1 i.2 adj)) L radii filter rin rout
      (kernelsO3Subgroup W M cg (Cyclic.kgroup 2) (restrictedIrrep3 W M (Cyclic.table 2) "O(3)" 0 fun i => .ok (O3.restrictInv W i.1 i.2 adj)) rin rout radii sigma L filter junk) := by
  have hle : ∀ {r : Rep ℤ ℕ}, r.WF (Cyclic.table 2) (fun g => Cyclic.isElement 2 g = true) → ∀ m ∈ r.irreps, m ≤ 2 / 2 := fun hr m hm => of_decide_eq_true (hr.ok m hm)
  obtain ⟨P, C, h1, h2, -⟩ := O3.C76_inversion (aq := fun q => q) noSolid noSolid hadj
  have hact : (fun k : ℤ => (act3 adj).transpose * ((-1 : ℝ) ^ k.toNat • (1 : Mat3)) * act3 adj) = fun k => (-1 : ℝ) ^ k.toNat • (1 : Mat3) := by
    funext k
    rw [Matrix.mul_smul, mul_one, Matrix.smul_mul, (O3.orth hadj).2]
  rw [← hact]
  refine C81_subgroup h.wigner h.le h.law (Cyclic.kgroup 2) 0 _ h2 (one := 0) (by simp [Cyclic.isElement]) (fun i hi => ?_) rin rout radii sigma filter junk (Cyclic.table_valid 2 (by norm_num))
    (Cyclic.C18_cyclic 2 (by norm_num)).1 hin hout
    (fun m hm n hn p hp => ⟨(Cyclic.kgroup_cg 2 (by norm_num) m n (hle hin m hm) (hle hout n hn) p hp).1, (Cyclic.kgroup_cg 2 (by norm_num) m n (hle hin m hm) (hle hout n hn) p hp).2.2⟩)
    hsh.len hsh.radii hsh.sigma
  have hi' : i.1 ≤ 1 ∧ i.2 ≤ M := of_decide_eq_true hi
  obtain ⟨e0, P', C', e1, e2⟩ := O3.C79_o3_inversion (aq := fun q => q) (j := i.1) noSolid noSolid hadj (fun h0 => h.wigner i.2 h0 hi'.2) hi'.1
  rw [SubData.parent_eq h1 e1] at e2
  exact ⟨_, _, rfl, fun f hf => decide_eq_true (e0 f hf), by rw [O3.table_size]; exact e2⟩

/-- **C81** `(False, True, -1, adj)`: the rotations around an axis and the half turns around the axes orthogonal to it, for Clebsch-Gordan coefficients of O(2) which intertwine. -/
theorem C81_o2_dihedral (h : HarmonicData W M L cg) {adj : O3.Elem} (hadj : O3El adj) (K : KGroup O2.Elem (ℕ × ℕ)) (hK : K.T = O2.table) (rin rout : Rep O2.Elem (ℕ × ℕ)) {radii sigma : List ℝ}
    (hsh : ShellData radii sigma) (filter : Option (ℕ × ℕ → ℕ → Bool)) (junk : ℕ → ℝ) (hE : EndoValid K.T K.typ O2.IsElement) (hin : rin.WF K.T O2.IsElement) (hout : rout.WF K.T O2.IsElement)
    (hcg : ∀ m ∈ rin.irreps, ∀ n ∈ rout.irreps, ∀ p ∈ K.tensor m n, K.T.ok p.1 = true ∧ ∀ g, O2.IsElement g → Intertwines (K.T.mat n g) (K.T.mat m g) (K.T.mat p.1 g) (K.cg n m p.1)) :
    SteerableR3 O2.IsElement (fun e => (act3 adj).transpose * (rotZ e.2 * flipX ^ e.1.toNat) * act3 adj) (O3.table W M).size K
      (restrictedIrrep3 W M K.T "O(3)" (0, 0) fun i => O3.restrictO2 W i.1 i.2 adj) L radii filter rin rout
      (kernelsO3Subgroup W M cg K (restrictedIrrep3 W M K.T "O(3)" (0, 0) fun i => O3.restrictO2 W i.1 i.2 adj) rin rout radii sigma L filter junk) := by
  obtain ⟨P, C, h1, h2, -⟩ := O3.C76_o2 O3.id_asQuat noSolid noSolid hadj
  refine C81_subgroup h.wigner h.le h.law K (0, 0) _ h2 (one := O2.identity) ⟨.inl rfl, le_rfl, by simp [O2.identity, pi_pos]⟩ (fun i hi => ?_) rin rout radii sigma filter junk
    (by rw [hK]; exact O2.table_valid) hE hin hout hcg hsh.len hsh.radii hsh.sigma
  have hi' : i.1 ≤ 1 ∧ i.2 ≤ M := of_decide_eq_true hi
  obtain ⟨P', C', Q, Ls, e1, e2, e3, e4⟩ := O3.C79_o3_o2 (j := i.1) O3.id_asQuat noSolid noSolid hadj fun h0 => h.wigner i.2 h0 hi'.2
  rw [SubData.parent_eq h1 e1] at e4
  rw [hK]
  exact ⟨Q, Ls, e2, e3, by rw [O3.table_size]; exact e4⟩

/-- **C81** `(False, True, N, adj)`: the rotations by `2π k / N` and `N` half turns, for Clebsch-Gordan coefficients of D_N which intertwine. -/
theorem C81_dihedral (h : HarmonicData W M L cg) {adj : O3.Elem} (hadj : O3El adj) (N : ℕ) (hN : 1 < N) (K : KGroup Dihedral.Elem (ℕ × ℕ)) (hK : K.T = Dihedral.table N)
    (rin rout : Rep Dihedral.Elem (ℕ × ℕ)) {radii sigma : List ℝ} (hsh : ShellData radii sigma) (filter : Option (ℕ × ℕ → ℕ → Bool)) (junk : ℕ → ℝ)
    (hE : EndoValid K.T K.typ fun e => Dihedral.isElement N e = true) (hin : rin.WF K.T fun e => Dihedral.isElement N e = true) (hout : rout.WF K.T fun e => Dihedral.isElement N e = true)
    (hcg : ∀ m ∈ rin.irreps, ∀ n ∈ rout.irreps, ∀ p ∈ K.tensor m n, K.T.ok p.1 = true ∧
      ∀ g, Dihedral.isElement N g = true → Intertwines (K.T.mat n g) (K.T.mat m g) (K.T.mat p.1 g) (K.cg n m p.1)) :
    SteerableR3 (fun e => Dihedral.isElement N e = true) (fun e => (act3 adj).transpose * (rotZ (e.2 * (2 * π / N)) * flipX ^ e.1.toNat) * act3 adj) (O3.table W M).size K
      (restrictedIrrep3 W M K.T "O(3)" (0, 0) fun i => O3.restrictDih W i.1 i.2 N adj) L radii filter rin rout
      (kernelsO3Subgroup W M cg K (restrictedIrrep3 W M K.T "O(3)" (0, 0) fun i => O3.restrictDih W i.1 i.2 N adj) rin rout radii sigma L filter junk) := by
  obtain ⟨P, C, h1, h2, -⟩ := O3.C76_dihedral O3.id_asQuat noSolid noSolid hadj N hN
  refine C81_subgroup h.wigner h.le h.law K (0, 0) _ h2 (one := Dihedral.identity) (by simp [Dihedral.isElement, Dihedral.identity]; omega) (fun i hi => ?_) rin rout radii sigma filter junk
    (by rw [hK]; exact Dihedral.table_valid N (by omega)) hE hin hout hcg hsh.len hsh.radii hsh.sigma
  have hi' : i.1 ≤ 1 ∧ i.2 ≤ M := of_decide_eq_true hi
  obtain ⟨P', C', Q, Ls, e1, e2, e3, e4⟩ := O3.C79_o3_dihedral (j := i.1) O3.id_asQuat noSolid noSolid hadj (fun h0 => h.wigner i.2 h0 hi'.2) N hN
  rw [SubData.parent_eq h1 e1] at e4
  rw [hK]
  exact ⟨Q, Ls, e2, e3, by rw [O3.table_size]; exact e4⟩

/-- **C81** `('cone', -1, adj)`: the rotations around an axis and the reflections in the planes which contain it, for Clebsch-Gordan coefficients of O(2) which intertwine. -/
theorem C81_cone (h : HarmonicData W M L cg) {adj : O3.Elem} (hadj : O3El adj) (K : KGroup O2.Elem (ℕ × ℕ)) (hK : K.T = O2.table) (rin rout : Rep O2.Elem (ℕ × ℕ)) {radii sigma : List ℝ}
    (hsh : ShellData radii sigma) (filter : Option (ℕ × ℕ → ℕ → Bool)) (junk : ℕ → ℝ) (hE : EndoValid K.T K.typ O2.IsElement) (hin : rin.WF K.T O2.IsElement) (hout : rout.WF K.T O2.IsElement)
    (hcg : ∀ m ∈ rin.irreps, ∀ n ∈ rout.irreps, ∀ p ∈ K.tensor m n, K.T.ok p.1 = true ∧ ∀ g, O2.IsElement g → Intertwines (K.T.mat n g) (K.T.mat m g) (K.T.mat p.1 g) (K.cg n m p.1)) :
    SteerableR3 O2.IsElement (fun e => (act3 adj).transpose * (rotZ e.2 * mirrorY ^ e.1.toNat) * act3 adj) (O3.table W M).size K
      (restrictedIrrep3 W M K.T "O(3)" (0, 0) fun i => .ok (O3.restrictCone W i.1 i.2 adj)) L radii filter rin rout
      (kernelsO3Subgroup W M cg K (restrictedIrrep3 W M K.T "O(3)" (0, 0) fun i => .ok (O3.restrictCone W i.1 i.2 adj)) rin rout radii sigma L filter junk) := by
  obtain ⟨P, C, h1, h2, -⟩ := O3.C76_cone O3.id_asQuat noSolid noSolid hadj
  refine C81_subgroup h.wigner h.le h.law K (0, 0) _ h2 (one := O2.identity) ⟨.inl rfl, le_rfl, by simp [O2.identity, pi_pos]⟩ (fun i hi => ?_) rin rout radii sigma filter junk
    (by rw [hK]; exact O2.table_valid) hE hin hout hcg hsh.len hsh.radii hsh.sigma
  have hi' : i.1 ≤ 1 ∧ i.2 ≤ M := of_decide_eq_true hi
  obtain ⟨e0, P', C', e1, e2⟩ := O3.C79_o3_cone (j := i.1) O3.id_asQuat noSolid noSolid hadj fun h0 => h.wigner i.2 h0 hi'.2
  rw [SubData.parent_eq h1 e1] at e2
  rw [hK]
  exact ⟨_, _, rfl, e0, by rw [O3.table_size]; exact e2⟩

/-! ### `_basis_generator` -/

/-- Which function `_basis_generator` calls: for a group of rotations the function for subgroups of SO(3), with the rotation of the adjoint element, for any other group the function for subgroups of O(3). -/
theorem C81_dispatch (aq : UQuat → UQuat) (id : O3.Id) (adj : O3.Elem) {id' : O3.Id} {adj' : O3.Elem} (h : O3.processId aq id adj = (id', adj')) :
    GSpace3.dispatch (GSpace3.sgId aq id adj) = (match id' with
      | .sub false x => .so3Subgroup x.entries (some adj'.2)
      | id' => .o3Subgroup (id'.entries ++ [.elem adj'])) := by
  have e : GSpace3.sgId aq id adj = id'.entries ++ [.elem adj'] := by
    unfold GSpace3.sgId
    rw [h]
  rw [e]
  unfold GSpace3.dispatch
  have hlast : ∀ {x y : SgEntry}, (∀ e, y ≠ .elem e) → id'.entries ++ [SgEntry.elem adj'] ≠ [x, y] := by
    intro x y hy he
    have := congrArg List.getLast? he
    simp at this
    exact hy adj' this.symm
  rw [if_neg (hlast (by simp)), if_neg (hlast (by simp))]
  match id' with
  | .sub false x =>
    simp only [O3.Id.entries, List.cons_append]
    rw [List.getLast?_append_of_ne_nil _ (by simp)]
    simp
  | .sub true x => simp [O3.Id.entries]
  | .so3 => simp [O3.Id.entries]
  | .o3 => simp [O3.Id.entries]
  | .cone n => simp [O3.Id.entries]
  | .coneAxis a n => simp [O3.Id.entries]
  | .fulltetra => simp [O3.Id.entries]

/-- `_basis_generator` never calls `kernels_O3_act_R3` or `kernels_SO3_act_R3`, not even for `flipRot3dOnR3` and `rot3dOnR3`, and without a maximal frequency, which is optional there, it always fails: the
groups cannot be built without one. -/
theorem C81_maximum_frequency_violated (aq : UQuat → UQuat) (id : O3.Id) (adj : O3.Elem) (cachedSO3 : Option ℕ) (c : ℕ) :
    GSpace3.dispatch (GSpace3.sgId aq id adj) ≠ .o3 ∧ GSpace3.dispatch (GSpace3.sgId aq id adj) ≠ .so3 ∧
      GSpace3.instances (GSpace3.sgId aq id adj) (some c) cachedSO3 none = .error .type ∧
      ∀ f, GSpace3.instances (GSpace3.sgId aq id adj) (some c) cachedSO3 (some f) = .ok () := by
  obtain ⟨id', adj', h0⟩ : ∃ id' adj', O3.processId aq id adj = (id', adj') := ⟨_, _, rfl⟩
  have h := C81_dispatch aq id adj h0
  unfold GSpace3.instances
  rw [h]
  cases id' with
  | sub inv x =>
    cases inv
    · refine ⟨by simp, by simp, ?_, fun f => ?_⟩ <;> cases cachedSO3 <;> rfl
    · exact ⟨by simp, by simp, rfl, fun f => rfl⟩
  | _ => exact ⟨by simp, by simp, rfl, fun f => rfl⟩

/-! ### examples: the coefficients of two vectors -/

theorem harmonicData2 : HarmonicData wignerUpTo2 2 2 cgO3 :=
  ⟨fun _ h h' => wignerUpTo2_ok h h', le_rfl, fun k hk => by
    obtain rfl : k = 0 := by omega
    exact cgO3_law⟩

theorem shellData2 : ShellData [0, 1] [1, 1] := ⟨rfl, by simp, by simp⟩

/-- The harmonics up to degree two. -/
example : ∃ cobs, ∃ Y : (Fin 3 → ℝ) → ℕ → ℝ, harmonicCobs wignerUpTo2 2 cgO3 2 = .ok cobs ∧ ∀ p, harmonics cobs p = .ok (Y p) := by
  obtain ⟨cobs, Y, h1, h2, -⟩ := C81_harmonics harmonicData2.wigner harmonicData2.le harmonicData2.law
  exact ⟨cobs, Y, h1, h2⟩

/-- Kernels between vector fields under O(3): two for every radius. -/
example (junk : ℕ → ℝ) : ∃ s F, kernelsO3 wignerUpTo2 2 cgO3 (irrepRep (O3.table wignerUpTo2 2) "v" ∅ (1, 1)) (irrepRep (O3.table wignerUpTo2 2) "v" ∅ (1, 1)) [0, 1] [1, 1] none none junk = .ok (s, F) ∧ s.dim = 4 := by
  have hv := irrepRep_wf (O3.table_valid harmonicData2.wigner) (j := (1, 1)) rfl (by rw [O3.table_size]; omega) "v" ∅
  have hD : (((irrepRep (O3.table wignerUpTo2 2) "v" ∅ (1, 1)).irreps.map fun m => ((irrepRep (O3.table wignerUpTo2 2) "v" ∅ (1, 1)).irreps.map fun n =>
        [(0 : ℝ), 1].length * ((List.range' ((m.2 : ℤ) - n.2).natAbs (m.2 + n.2 + 1 - ((m.2 : ℤ) - n.2).natAbs)).filter fun k => (m.1 + n.1) % 2 = k % 2).length).sum).sum) = 4 := by
    simp [irrepRep]
    decide
  rcases C81_o3 (cg := cgO3) harmonicData2.wigner _ _ [0, 1] [1, 1] none none junk (fun L' h => by
      obtain rfl : 2 = L' := Except.ok.inj (h ▸ rfl : (Except.ok 2 : Except Err ℕ) = .ok L')
      exact ⟨le_rfl, harmonicData2.law⟩) hv hv (fun m hm n hn => by
      simp only [irrepRep, List.mem_singleton] at hm hn
      rw [hm, hn]; exact cgO3_law) rfl shellData2.radii shellData2.sigma with ⟨-, h⟩ | ⟨s, F, h1, -, -, h2, -⟩
  · rw [hD] at h
    exact absurd (h rfl rfl (by simp)) (by norm_num)
  · exact ⟨s, F, h1, (h2 rfl rfl).trans hD⟩

/-- Kernels between vector fields under SO(3). -/
example (junk : ℕ → ℝ) : ∃ L', maxFreq (fun l => l) [1] [1] none = .ok L' ∧
    SteerableR3 (fun q : UQuat => normSq q = 1) rotOf (O3.table wignerUpTo2 2).size (SO3.kgroup wignerUpTo2 2 cgSO3)
      (restrictedIrrep3 wignerUpTo2 2 (SO3.table wignerUpTo2 2) "O(3)" 0 fun i => .ok (O3.restrictSO3 wignerUpTo2 i.1 i.2 O3.identity)) L' [0, 1] none
      (irrepRep (SO3.table wignerUpTo2 2) "v" ∅ 1) (irrepRep (SO3.table wignerUpTo2 2) "v" ∅ 1)
      (kernelsSO3 wignerUpTo2 2 cgO3 cgSO3 (irrepRep (SO3.table wignerUpTo2 2) "v" ∅ 1) (irrepRep (SO3.table wignerUpTo2 2) "v" ∅ 1) [0, 1] [1, 1] none none junk) := by
  have hv := irrepRep_wf (SO3.table_valid harmonicData2.wigner) (j := 1) rfl (by rw [SO3.table_size]; omega) "v" ∅
  exact C81_so3 harmonicData2.wigner _ _ shellData2 none (fun L' h => by
      obtain rfl : 2 = L' := Except.ok.inj (h ▸ rfl : (Except.ok 2 : Except Err ℕ) = .ok L')
      exact ⟨le_rfl, harmonicData2.law⟩) none junk hv hv (fun m hm n hn => by
      simp only [irrepRep, List.mem_singleton] at hm hn
      rw [hm, hn]; exact cgSO3_law)

/-- Kernels between fields of frequency one under the rotations around any axis. -/
example (junk : ℕ → ℝ) {adj : O3.Elem} (hadj : O3El adj) :=
  C81_so2 harmonicData2 hadj (irrepRep SO2.table "v" ∅ 1) (irrepRep SO2.table "v" ∅ 1) shellData2 none junk
    (irrepRep_wf SO2.table_valid rfl (by decide) "v" ∅) (irrepRep_wf SO2.table_valid rfl (by decide) "v" ∅)

/-- Kernels between fields of frequency one under the rotations of the square in any plane. -/
example (junk : ℕ → ℝ) {adj : O3.Elem} (hadj : O3El adj) :=
  C81_cyclic harmonicData2 hadj 4 (by norm_num) (irrepRep (Cyclic.table 4) "v" ∅ 1) (irrepRep (Cyclic.table 4) "v" ∅ 1) shellData2 none junk
    (irrepRep_wf (Cyclic.table_valid 4 (by norm_num)) rfl (by decide) "v" ∅) (irrepRep_wf (Cyclic.table_valid 4 (by norm_num)) rfl (by decide) "v" ∅)

/-- Kernels which change their sign with the point. -/
example (junk : ℕ → ℝ) {adj : O3.Elem} (hadj : O3El adj) :=
  C81_inversion harmonicData2 hadj (irrepRep (Cyclic.table 2) "v" ∅ 0) (irrepRep (Cyclic.table 2) "v" ∅ 1) shellData2 none junk
    (irrepRep_wf (Cyclic.table_valid 2 (by norm_num)) rfl (by decide) "v" ∅) (irrepRep_wf (Cyclic.table_valid 2 (by norm_num)) rfl (by decide) "v" ∅)

/-- Kernels from scalars to vectors under the rotations around an axis and the half turns, or the reflections. -/
example (junk : ℕ → ℝ) {adj : O3.Elem} (hadj : O3El adj) :=
  C81_o2_dihedral harmonicData2 hadj demoO2 rfl (irrepRep O2.table "irrep_0,0" ∅ (0, 0)) (irrepRep O2.table "irrep_1,1" ∅ (1, 1)) shellData2 none junk O2.C18_o2
    (irrepRep_wf O2.table_valid rfl (by decide) _ _) (irrepRep_wf O2.table_valid rfl (by decide) _ _) fun m hm n hn p hp => ⟨((demoO2_cg m hm n hn).2 p hp).1, ((demoO2_cg m hm n hn).2 p hp).2.2⟩

example (junk : ℕ → ℝ) {adj : O3.Elem} (hadj : O3El adj) :=
  C81_cone harmonicData2 hadj demoO2 rfl (irrepRep O2.table "irrep_0,0" ∅ (0, 0)) (irrepRep O2.table "irrep_1,1" ∅ (1, 1)) shellData2 none junk O2.C18_o2
    (irrepRep_wf O2.table_valid rfl (by decide) _ _) (irrepRep_wf O2.table_valid rfl (by decide) _ _) fun m hm n hn p hp => ⟨((demoO2_cg m hm n hn).2 p hp).1, ((demoO2_cg m hm n hn).2 p hp).2.2⟩

/-- **C81** Different ids of subgroups are different tuples: the tuple which `GSpace3D` passes on determines the subgroup and the adjoint element. -/
theorem C81_entries_injective : (∀ x y : SO3.Id, x.entries = y.entries → x = y) ∧ (∀ x y : O3.Id, x.entries = y.entries → x = y) ∧
    ∀ (aq : UQuat → UQuat) (id id' : O3.Id) (adj adj' : O3.Elem), GSpace3.sgId aq id adj = GSpace3.sgId aq id' adj' → O3.processId aq id adj = O3.processId aq id' adj' := by
  have h1 : ∀ x y : SO3.Id, x.entries = y.entries → x = y := by
    intro x y h
    cases x <;> cases y <;> simp_all [SO3.Id.entries]
  have h2 : ∀ x y : O3.Id, x.entries = y.entries → x = y := by
    intro x y h
    cases x <;> cases y <;> simp_all [O3.Id.entries]
    exact h1 _ _ h.2
  refine ⟨h1, h2, fun aq id id' adj adj' h => ?_⟩
  obtain ⟨a, b⟩ := List.append_inj' h rfl
  exact Prod.ext (h2 _ _ a) (by simpa using b)

/-- The tuples of the tetrahedral group with and without inversions. -/
example : O3.Id.entries (.sub false (.str "tetra")) ≠ O3.Id.entries (.sub true (.str "tetra")) := fun h => by
  have := C81_entries_injective.2.1 _ _ h
  simp at this

end Escnn
