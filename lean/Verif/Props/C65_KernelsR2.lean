import Verif.Model.KernelsR2
import Verif.Props.C39_CircularHarmonics
import Verif.Props.C38_SteerableKernelBasis
import Verif.Props.C13_RestrictRep

/-!
# C65: the kernel bases on the plane are steerable, end to end
-/

namespace Escnn

open NpMat Real

variable {H J' : Type} [DecidableEq J'] {El : H → Prop} {op : H → H → H} {one : H}

theorem circ_id_ok (j : ℕ) : O2.table.ok (ShellKind.circ.id j) = true ∧ 0 < O2.table.size (ShellKind.circ.id j) := by
  by_cases h : 0 < j
  · simp [O2.table, ShellKind.circ, O2.irrepOk, O2.irrepSize, h]
    split_ifs <;> omega
  · simp [O2.table, ShellKind.circ, O2.irrepOk, O2.irrepSize, h]
    omega

/-- **C65** for a subgroup of O(2) given by its inclusion `parent`: if the restricted irreps restrict, every kernel of the basis is steerable under the action of the subgroup on the plane. -/
theorem C65_subgroup (K : KGroup H J') (res : ℕ × ℕ → Rep H J') (parent : H → Except Err O2.Elem) (rin rout : Rep H J') (radii sigma : List ℝ) (L : ℕ) (axis : ℝ)
    (filter : Option (ℕ × ℕ → ℕ → Bool)) (junk : ℕ → ℝ) (hT : K.T.Valid El op one) (hE : EndoValid K.T K.typ El) (hin : rin.WF K.T El) (hout : rout.WF K.T El)
    (hcg : ∀ m ∈ rin.irreps, ∀ n ∈ rout.irreps, ∀ p ∈ K.tensor m n, K.T.ok p.1 = true ∧
      ∀ g, El g → Intertwines (K.T.mat n g) (K.T.mat m g) (K.T.mat p.1 g) (K.cg n m p.1))
    (hpar : ∀ h, El h → ∃ g, parent h = .ok g ∧ O2.IsElement g)
    (hres : ∀ j, O2.table.ok j = true → 0 < O2.table.size j → (res j).WF K.T El ∧ (res j).size = O2.table.size j ∧ ∀ h g, El h → parent h = .ok g → (res j).mat h ≈ O2.table.mat j g)
    (hlen : radii.length = sigma.length) (hr : ∀ r ∈ radii, 0 ≤ r) (hs : ∀ s ∈ sigma, 0 < s) :
    kernelsO2Subgroup K res rin rout radii sigma L axis filter junk = .error .emptyBasis ∨
    ∃ s F R, kernelsO2Subgroup K res rin rout radii sigma L axis filter junk = .ok (s, F) ∧ s.rows = rout.size ∧ s.cols = rin.size ∧ 0 < s.dim ∧
      circularAction [] "StandardAction" axis = .ok R ∧
      ∀ (actH : H → ℝ × ℝ → ℝ × ℝ), (∀ h, El h → ∀ g, parent h = .ok g → actH h = fun p => moveBy (R.mat g) p) →
        ∀ e < s.dim, SteerableKernel El actH rin.mat rout.mat fun x => SKB.sample O2.table.size F s x e := by
  unfold kernelsO2Subgroup
  rw [if_neg (not_not.2 ⟨hlen, hr, hs⟩)]
  by_cases h0 : radii = []
  · rw [if_pos h0]; exact .inl rfl
  rw [if_neg h0]
  cases hb : Shells.init ShellKind.circ O2.table.size L radii.length filter with
  | error e =>
    left
    unfold Shells.init at hb
    simp only at hb
    split_ifs at hb
    simp only [bind, Except.bind]
    rw [← Except.error.inj hb]
  | ok b =>
    simp only [bind, Except.bind]
    obtain ⟨R, hR, hst⟩ := C39_steerable [] "StandardAction" (by simp) axis junk radii sigma L radii.length filter b hb
    have hjs := (Shells.init_spec ShellKind.circ_ok hb).2.2.2.1
    have hF : ((circularBasis junk b radii sigma axis).js.map Prod.fst).Nodup := by
      show (b.js.map Prod.fst).Nodup
      rw [hjs, List.map_map]
      refine List.Nodup.map_on (fun x _ y _ e => ?_) List.nodup_range
      have := congrArg Prod.snd (show ShellKind.circ.id x = ShellKind.circ.id y from e)
      exact this
    have hres' : ∀ e ∈ (circularBasis junk b radii sigma axis).js, (res e.1).WF K.T El ∧ (res e.1).size = O2.table.size e.1 ∧
        ∀ h g, El h → parent h = .ok g → (res e.1).mat h ≈ O2.table.mat e.1 g := by
      intro e he
      have he' : e ∈ b.js := he
      rw [hjs] at he'
      obtain ⟨j, -, rfl⟩ := List.mem_map.1 he'
      exact hres _ (circ_id_ok j).1 (circ_id_ok j).2
    have key := fun (actH : H → ℝ × ℝ → ℝ × ℝ) (hact : ∀ h, El h → ∀ g, parent h = .ok g → actH h = fun p => moveBy (R.mat g) p) =>
      SKB.C38_restricted K (circularBasis junk b radii sigma axis) res parent actH rin rout (0, 0) hT hE hin hout hcg hF hst
        (fun h hh => by
          obtain ⟨g, h1, h2⟩ := hpar h hh
          exact ⟨g, h1, h2, hact h hh g h1⟩) hres'
    -- any admissible action determines whether the basis exists
    obtain ⟨act0, hact0⟩ : ∃ actH : H → ℝ × ℝ → ℝ × ℝ, ∀ h, El h → ∀ g, parent h = .ok g → actH h = fun p => moveBy (R.mat g) p := by
      refine ⟨fun h => match parent h with | .ok g => fun p => moveBy (R.mat g) p | .error _ => id, fun h _ g hg => ?_⟩
      simp only [hg]
    rcases key act0 hact0 with h | ⟨s, h1, h2, h3, h4, h5⟩
    · rw [h.1]; exact .inl rfl
    · right
      rw [h1]
      refine ⟨s, _, R, rfl, h2, h3, ?_, hR, fun actH hact e he => ?_⟩
      · have h1' := h1
        unfold SKB.init at h1'
        cases hc : SKB.cellsIn K.T.size (RWE.init K (circularBasis junk b radii sigma axis) O2.table.size res) rout.irreps 0 0 rin.irreps with
        | error e => rw [hc] at h1'; simp [bind, Except.bind] at h1'
        | ok cells =>
          rw [hc] at h1'
          simp only [bind, Except.bind] at h1'
          split_ifs at h1' with hd
          rw [← Except.ok.inj h1']
          exact Nat.pos_of_ne_zero hd
      · rcases key actH hact with h | ⟨s', g1, -, -, -, g5⟩
        · rw [h.1] at h1; simp at h1
        · rw [h1] at g1
          obtain rfl := Except.ok.inj g1
          exact g5 e he

/-- The restriction of an irrep of O(2) to a subgroup, from C13. -/
theorem restrictedIrrep_ok {S : IrrepTable H J'} {groupName : String} {trivial : J'} {ri : ℕ × ℕ → Except Err (NpMat ℝ × List J')} {parent : H → Except Err O2.Elem}
    (h13 : ∀ r : Rep O2.Elem (ℕ × ℕ), r.WF O2.table O2.IsElement → groupName ++ ":" ++ r.name ∉ ([] : List String) →
      ∃ r', restrictRep O2.table S [] groupName trivial ri r = .ok r' ∧ r'.WF S El ∧ r'.size = r.size ∧ r.nonlin ⊆ r'.nonlin ∧ ∀ h g, El h → parent h = .ok g → r'.mat h ≈ r.mat g)
    (j : ℕ × ℕ) (hj : O2.table.ok j = true) (hp : 0 < O2.table.size j) :
    (restrictedIrrep S groupName trivial ri j).WF S El ∧ (restrictedIrrep S groupName trivial ri j).size = O2.table.size j ∧
      ∀ h g, El h → parent h = .ok g → (restrictedIrrep S groupName trivial ri j).mat h ≈ O2.table.mat j g := by
  obtain ⟨r', h1, h2, h3, -, h5⟩ := h13 _ (irrepRep_wf O2.table_valid hj hp "irrep" ∅) (by simp)
  have : restrictedIrrep S groupName trivial ri j = r' := by
    unfold restrictedIrrep
    rw [h1]
  rw [this]
  exact ⟨h2, h3, h5⟩

theorem moveBy_rotation (axis : ℝ) (R : Rep O2.Elem (ℕ × ℕ)) (hR : circularAction [] "StandardAction" axis = .ok R) (θ : ℝ) (hθ : O2.IsElement (0, θ)) :
    (fun p => moveBy (R.mat (0, θ)) p) = rotate θ := by
  obtain ⟨R', h1, -, -, h2, -⟩ := C39_action [] "StandardAction" (by simp) axis
  rw [hR] at h1
  obtain rfl := Except.ok.inj h1
  funext p
  obtain ⟨φ, hp⟩ := norm2_polar p
  rw [hp, h2 _ _ _ hθ, rotate]
  simp only [cos_add, sin_add]
  ext <;> simp only <;> ring

/-- **C65** for SO(2): `kernels_SO2_act_R2` either has no kernels or builds kernels with `κ(R(θ) x) ρin(θ) = ρout(θ) κ(x)` for every rotation of the plane. -/
theorem C65_so2 (rin rout : Rep ℝ ℕ) (radii sigma : List ℝ) (L : ℕ) (filter : Option (ℕ × ℕ → ℕ → Bool)) (junk : ℕ → ℝ)
    (hin : rin.WF SO2.table SO2.IsElement) (hout : rout.WF SO2.table SO2.IsElement) (hlen : radii.length = sigma.length) (hr : ∀ r ∈ radii, 0 ≤ r) (hs : ∀ s ∈ sigma, 0 < s) :
    kernelsSO2 rin rout radii sigma L filter junk = .error .emptyBasis ∨
    ∃ s F, kernelsSO2 rin rout radii sigma L filter junk = .ok (s, F) ∧ s.rows = rout.size ∧ s.cols = rin.size ∧ 0 < s.dim ∧
      ∀ e < s.dim, SteerableKernel SO2.IsElement rotate rin.mat rout.mat fun x => SKB.sample O2.table.size F s x e := by
  have hel : ∀ h, SO2.IsElement h → O2.so2ToO2 h = .ok (0, h) ∧ O2.IsElement (0, h) := fun h hh => by
    have hm : mod2pi h = h := mod2pi_eq_self hh.1 hh.2
    exact ⟨by simp [O2.so2ToO2, O2.element, O2.reduce, hm], .inl rfl, hh.1, hh.2⟩
  rcases C65_subgroup SO2.kgroup (restrictedIrrep SO2.table "O(2)" 0 fun i => .ok (O2.restrictSO2 i.1 i.2)) O2.so2ToO2 rin rout radii sigma L (π / 2) filter junk SO2.table_valid SO2.C18_so2
    hin hout (fun m _ n _ p hp => ⟨rfl, (SO2.kgroup_cg m n p hp).2⟩) (fun h hh => ⟨_, (hel h hh).1, (hel h hh).2⟩)
    (restrictedIrrep_ok fun r hwf hn => C13_o2_so2 [] "O(2)" r hwf hn) hlen hr hs with h | ⟨s, F, R, h1, h2, h3, h4, hR, h5⟩
  · exact .inl h
  · refine .inr ⟨s, F, h1, h2, h3, h4, h5 rotate fun h hh g hg => ?_⟩
    rw [(hel h hh).1] at hg
    obtain rfl := Except.ok.inj hg
    exact (moveBy_rotation _ R hR h (hel h hh).2).symm

/-- **C65** for the cyclic groups: `kernels_CN_act_R2` either has no kernels or builds kernels steerable under the rotations of the plane by `2π h / N`. -/
theorem C65_cyclic (N : ℕ) (hN : 0 < N) (rin rout : Rep ℤ ℕ) (radii sigma : List ℝ) (L : ℕ) (filter : Option (ℕ × ℕ → ℕ → Bool)) (junk : ℕ → ℝ)
    (hin : rin.WF (Cyclic.table N) fun g => Cyclic.isElement N g = true) (hout : rout.WF (Cyclic.table N) fun g => Cyclic.isElement N g = true)
    (hlen : radii.length = sigma.length) (hr : ∀ r ∈ radii, 0 ≤ r) (hs : ∀ s ∈ sigma, 0 < s) :
    kernelsCN N rin rout radii sigma L filter junk = .error .emptyBasis ∨
    ∃ s F, kernelsCN N rin rout radii sigma L filter junk = .ok (s, F) ∧ s.rows = rout.size ∧ s.cols = rin.size ∧ 0 < s.dim ∧
      ∀ e < s.dim, SteerableKernel (fun g => Cyclic.isElement N g = true) (fun h => rotate (2 * π * h / N)) rin.mat rout.mat fun x => SKB.sample O2.table.size F s x e := by
  have hle : ∀ {r : Rep ℤ ℕ}, r.WF (Cyclic.table N) (fun g => Cyclic.isElement N g = true) → ∀ m ∈ r.irreps, m ≤ N / 2 := fun hr m hm => of_decide_eq_true (hr.ok m hm)
  have hrad : ∀ h, Cyclic.isElement N h = true → 0 ≤ Cyclic.radians N h ∧ Cyclic.radians N h < 2 * π := fun h hh => by
    have h0 : (0 : ℝ) ≤ h ∧ (h : ℝ) < N := by
      simp only [Cyclic.isElement, Bool.and_eq_true, decide_eq_true_eq] at hh
      exact ⟨by exact_mod_cast hh.1, by exact_mod_cast hh.2⟩
    have hpi := Real.pi_pos
    have hN' : (0 : ℝ) < N := by exact_mod_cast hN
    unfold Cyclic.radians
    refine ⟨div_nonneg (mul_nonneg h0.1 (by positivity)) hN'.le, ?_⟩
    rw [div_lt_iff₀ hN']
    nlinarith [h0.2]
  have hel : ∀ h, Cyclic.isElement N h = true → O2.so2ToO2 (Cyclic.radians N h) = .ok (0, Cyclic.radians N h) ∧ O2.IsElement (0, Cyclic.radians N h) := fun h hh => by
    have hm : mod2pi (Cyclic.radians N h) = Cyclic.radians N h := mod2pi_eq_self (hrad h hh).1 (hrad h hh).2
    exact ⟨by simp [O2.so2ToO2, O2.element, O2.reduce, hm], .inl rfl, (hrad h hh).1, (hrad h hh).2⟩
  rcases C65_subgroup (Cyclic.kgroup N) (restrictedIrrep (Cyclic.table N) "O(2)" 0 fun i => .ok (O2.restrictRot i.1 i.2 N)) (fun h => O2.so2ToO2 (Cyclic.radians N h)) rin rout radii sigma L
    (π / 2) filter junk (Cyclic.table_valid N hN) (Cyclic.C18_cyclic N hN).1 hin hout
    (fun m hm n hn p hp => ⟨(Cyclic.kgroup_cg N hN m n (hle hin m hm) (hle hout n hn) p hp).1, (Cyclic.kgroup_cg N hN m n (hle hin m hm) (hle hout n hn) p hp).2.2⟩)
    (fun h hh => ⟨_, (hel h hh).1, (hel h hh).2⟩) (restrictedIrrep_ok fun r hwf hn => C13_o2_rot N hN [] "O(2)" r hwf hn) hlen hr hs with h | ⟨s, F, R, h1, h2, h3, h4, hR, h5⟩
  · exact .inl h
  · refine .inr ⟨s, F, h1, h2, h3, h4, h5 _ fun h hh g hg => ?_⟩
    rw [(hel h hh).1] at hg
    obtain rfl := Except.ok.inj hg
    rw [moveBy_rotation _ R hR _ (hel h hh).2, Cyclic.radians]
    congr 1
    ring

/-- **C65** for the dihedral groups, for Clebsch-Gordan coefficients which intertwine: `kernels_DN_act_R2` builds kernels steerable under the rotations by `2π k / N` and the reflection about the
line at the angle `axis`. -/
theorem C65_dihedral (N : ℕ) (hN : 0 < N) (K : KGroup Dihedral.Elem (ℕ × ℕ)) (hK : K.T = Dihedral.table N) (rin rout : Rep Dihedral.Elem (ℕ × ℕ)) (radii sigma : List ℝ) (axis : ℝ) (L : ℕ)
    (filter : Option (ℕ × ℕ → ℕ → Bool)) (junk : ℕ → ℝ)
    (hE : EndoValid K.T K.typ fun e => Dihedral.isElement N e = true)
    (hin : rin.WF K.T fun e => Dihedral.isElement N e = true) (hout : rout.WF K.T fun e => Dihedral.isElement N e = true)
    (hcg : ∀ m ∈ rin.irreps, ∀ n ∈ rout.irreps, ∀ p ∈ K.tensor m n, K.T.ok p.1 = true ∧
      ∀ g, Dihedral.isElement N g = true → Intertwines (K.T.mat n g) (K.T.mat m g) (K.T.mat p.1 g) (K.cg n m p.1))
    (hlen : radii.length = sigma.length) (hr : ∀ r ∈ radii, 0 ≤ r) (hs : ∀ s ∈ sigma, 0 < s) :
    kernelsDN N K rin rout radii sigma axis L filter junk = .error .emptyBasis ∨
    ∃ s F, kernelsDN N K rin rout radii sigma axis L filter junk = .ok (s, F) ∧ s.rows = rout.size ∧ s.cols = rin.size ∧ 0 < s.dim ∧
      ∀ e < s.dim, SteerableKernel (fun g => Dihedral.isElement N g = true)
        (fun h p => rotate (2 * π * h.2 / N) (if h.1 = 0 then p else (cos (2 * axis) * p.1 + sin (2 * axis) * p.2, sin (2 * axis) * p.1 - cos (2 * axis) * p.2))) rin.mat rout.mat
        fun x => SKB.sample O2.table.size F s x e := by
  have hT : K.T.Valid (fun e => Dihedral.isElement N e = true) (Dihedral.combine N) Dihedral.identity := by rw [hK]; exact Dihedral.table_valid N hN
  have hN' : (0 : ℝ) < N := by exact_mod_cast hN
  have hpi := Real.pi_pos
  have hel : ∀ h, Dihedral.isElement N h = true → (h.1 = 0 ∨ h.1 = 1) ∧ O2.dnToO2 N 0 h = .ok (h.1, 2 * π * h.2 / N) ∧ O2.IsElement (h.1, 2 * π * h.2 / N) := fun h hh => by
    have hh' : (h.1 = 0 ∨ h.1 = 1) ∧ 0 ≤ h.2 ∧ h.2 < N := by
      simp only [Dihedral.isElement, Bool.and_eq_true, Bool.or_eq_true, decide_eq_true_eq] at hh
      tauto
    have h2 : (0 : ℝ) ≤ h.2 ∧ (h.2 : ℝ) < N := ⟨by exact_mod_cast hh'.2.1, by exact_mod_cast hh'.2.2⟩
    have hb : 0 ≤ 2 * π * h.2 / N ∧ 2 * π * h.2 / N < 2 * π := by
      refine ⟨div_nonneg (mul_nonneg (by positivity) h2.1) hN'.le, ?_⟩
      rw [div_lt_iff₀ hN']
      nlinarith [h2.2]
    have he : (h.2 : ℝ) * 2 * π / N + h.1 * 0 = 2 * π * h.2 / N := by ring
    refine ⟨hh'.1, ?_, hh'.1, hb.1, hb.2⟩
    rw [O2.dnToO2, he, O2.element, if_pos hh'.1, O2.reduce, mod2pi_eq_self hb.1 hb.2]
  rcases C65_subgroup K (restrictedIrrep (Dihedral.table N) "O(2)" (0, 0) fun i => .ok (O2.restrictDih i.1 i.2 N 0)) (O2.dnToO2 N 0) rin rout radii sigma L
    axis filter junk hT hE hin hout hcg (fun h hh => ⟨_, (hel h hh).2.1, (hel h hh).2.2⟩)
    (by rw [hK]; exact restrictedIrrep_ok fun r hwf hn => C13_o2_dih N 0 hN [] "O(2)" r hwf hn) hlen hr hs with h | ⟨s, F, R, h1, h2, h3, h4, hR, h5⟩
  · exact .inl h
  · refine .inr ⟨s, F, h1, h2, h3, h4, h5 _ fun h hh g hg => ?_⟩
    obtain ⟨hf, hd, hg'⟩ := hel h hh
    rw [hd] at hg
    obtain rfl := Except.ok.inj hg
    obtain ⟨R', k1, -, -, -, k2⟩ := C39_action [] "StandardAction" (by simp) axis
    rw [hR] at k1
    obtain rfl := Except.ok.inj k1
    rcases hf with hf | hf
    · rw [hf] at hg' ⊢
      rw [moveBy_rotation _ R hR _ hg']
      simp
    · rw [hf] at hg' ⊢
      funext p
      obtain ⟨φ, hp⟩ := norm2_polar p
      rw [hp, k2 _ _ _ hg', if_neg (by norm_num), rotate]
      simp only [cos_add, sin_add, cos_sub, sin_sub]
      ext <;> simp only <;> ring

theorem restrictRep_irreps {G Id H Id' : Type} [DecidableEq Id'] {T : IrrepTable G Id} {S : IrrepTable H Id'} {taken : List String} {groupName : String} {trivial : Id'}
    {ri : Id → Except Err (NpMat ℝ × List Id')} {r : Rep G Id} {r' : Rep H Id'} {Cs : List (NpMat ℝ)} {ids : List Id'}
    (h : restrictRep T S taken groupName trivial ri r = .ok r') (hl : restrictLoop T ri r.irreps = .ok (Cs, ids)) : r'.irreps = ids := by
  unfold restrictRep at h
  rw [hl] at h
  simp only at h
  cases hm : mkRep S taken (groupName ++ ":" ++ r.name) ids (mul r.cob (blockDiag Cs)) r.nonlin none with
  | error e => rw [hm] at h; simp at h
  | ok res =>
    have hr : res.irreps = ids := by
      unfold mkRep at hm
      cases hi : resolveInv (mul r.cob (blockDiag Cs)) none with
      | error e =>
        rw [hi] at hm
        simp only at hm
        split_ifs at hm
      | ok inv =>
        rw [hi] at hm
        simp only at hm
        split_ifs at hm <;> rw [← Except.ok.inj hm]
    rw [hm] at h
    simp only at h
    split_ifs at h <;> rw [← Except.ok.inj h] <;> exact hr

/-- A scalar input and output field for SO(2), one radius and frequency 0: the hypotheses hold and kernels exist. -/
theorem kernelsSO2_nonempty (name : String) (nl : Finset String) : ∃ s F, kernelsSO2 (irrepRep SO2.table name nl 0) (irrepRep SO2.table name nl 0) [1] [1] 0 none (fun _ => 0) = .ok (s, F) ∧ 0 < s.dim ∧
    ∀ e < s.dim, SteerableKernel SO2.IsElement rotate (SO2.table.mat 0) (SO2.table.mat 0) fun x => SKB.sample O2.table.size F s x e := by
  have hwf := irrepRep_wf SO2.table_valid (j := 0) rfl (by decide) name nl
  rcases C65_so2 _ _ [1] [1] 0 none (fun _ => 0) hwf hwf rfl (by simp) (by simp) with h | ⟨s, F, h1, -, -, h4, h5⟩
  · exfalso
    have hirr : (restrictedIrrep SO2.table "O(2)" 0 (fun i => .ok (O2.restrictSO2 i.1 i.2)) (0, 0)).irreps = [0] := by
      obtain ⟨r', h1, -⟩ := C13_o2_so2 [] "O(2)" _ (irrepRep_wf O2.table_valid (j := (0, 0)) rfl (by decide) "irrep" ∅) (by simp)
      unfold restrictedIrrep
      rw [h1]
      exact restrictRep_irreps h1 (Cs := [eye 1]) (by simp [restrictLoop, irrepRep, O2.restrictSO2, O2.irrepSize, O2.table, eye])
    unfold kernelsSO2 kernelsO2Subgroup at h
    rw [if_neg (by simp), if_neg (by simp)] at h
    cases hb : Shells.init ShellKind.circ O2.table.size 0 [(1 : ℝ)].length none with
    | error e => simp [Shells.init, Shells.dim, ShellKind.circ, O2.table, O2.irrepSize] at hb
    | ok b =>
      rw [hb] at h
      simp only [bind, Except.bind] at h
      have hbj : b.js = [((0, 0), 1)] := by
        simp only [Shells.init] at hb
        split_ifs at hb
        rw [← Except.ok.inj hb]
        rfl
      have hj : (circularBasis (fun _ => 0) b [1] [1] (π / 2)).js = [((0, 0), 1)] := hbj
      generalize circularBasis (fun _ => 0) b [1] [1] (π / 2) = F at h hj
      generalize (restrictedIrrep SO2.table "O(2)" 0 fun i => .ok (O2.restrictSO2 i.1 i.2)) = res at h hirr
      have hR : RWE.restriction SO2.kgroup.T.size [0] (res (0, 0)) = [(0, [0])] := by simp [RWE.restriction, hirr, RWE.idPos]
      have hm : F.mult (0, 0) = 1 := by rw [FBasis.mult, hj]; rfl
      have ht : SO2.kgroup.tensor 0 0 = [(0, 1)] := by simp [SO2.kgroup, SO2.tensorIrreps]
      have hk : RWE.count SO2.kgroup 0 0 (0, [0]) = 1 := by
        simp [RWE.count, KGroup.endo, SO2.kgroup, SO2.irrepType, SO2.cg]
        exact ⟨rfl, rfl⟩
      have hg : ∃ ib, RWE.init SO2.kgroup F O2.table.size res 0 0 = .ok ib ∧ ib.dim = 1 := by
        unfold RWE.init
        simp only [hj, ht, List.map_cons, List.map_nil, List.dedup_cons_of_notMem, List.not_mem_nil, not_false_eq_true, List.dedup_nil, List.filter, hm]
        simp [hk, hm, hR]
      obtain ⟨ib, hg1, hg2⟩ := hg
      simp [SKB.init, SKB.cellsIn, SKB.cellsOut, irrepRep, hg1, SKB.tryBasis, hg2, bind, Except.bind] at h
  · exact ⟨s, F, h1, h4, h5⟩

example : ∃ s F, kernelsSO2 (irrepRep SO2.table "" ∅ 0) (irrepRep SO2.table "" ∅ 0) [1] [1] 0 none (fun _ => 0) = .ok (s, F) ∧ 0 < s.dim ∧
    ∀ e < s.dim, SteerableKernel SO2.IsElement rotate (SO2.table.mat 0) (SO2.table.mat 0) fun x => SKB.sample O2.table.size F s x e := kernelsSO2_nonempty "" ∅

end Escnn
