import Verif.Model.HomSpace
import Verif.Props.C17_Induced
import Verif.Props.C53_Fourier

/-!
# C82: the harmonics of homogeneous spaces transform as they should
-/

namespace Escnn

open NpMat

variable {G H Id Id' : Type} [DecidableEq Id'] {TG : IrrepTable G Id} {TH : IrrepTable H Id'} {typH : Id' → IrrType} {ElG : G → Prop} {mulG : G → G → G}
  {invG : G → G} {oneG : G} {ElH : H → Prop} {mulH : H → H → H} {invH : H → H} {oneH : H} {parent : H → G} {child : G → Option H} {rhoH : Id → Rep H Id'}

/-- **C82** `HomSpace.basis(g, rho, psi)`: on the left it transforms with `rho`, on the right, under the subgroup, with `psi`. -/
theorem C82_basis (hD : InducedData TG TH typH ElG mulG invG oneG ElH mulH invH oneH parent child rhoH) {psi : Id'} (hpsi : TH.ok psi = true)
    {sel : List (NpMat ℝ) → Except Err (List (NpMat ℝ))} (hsel : ∀ L L', sel L = .ok L' → ∀ B ∈ L', B ∈ L) {rho : Id} (hrho : TG.ok rho = true)
    {B : List (NpMat ℝ)} (hB : diracKernelFT TH typH psi (rhoH rho) sel = .ok B) {g : G} (hg : ElG g) :
    (homBasis TG rho B g).length = B.length ∧ ∀ (k : ℕ) (M : NpMat ℝ), (homBasis TG rho B g)[k]? = some M → M.rows = TG.size rho ∧ M.cols = TH.size psi ∧
      (∀ g', ElG g' → ∃ M', (homBasis TG rho B (mulG g' g))[k]? = some M' ∧ M' ≈ mul (TG.mat rho g') M) ∧
      (∀ h, ElH h → ∃ M', (homBasis TG rho B (mulG g (parent h)))[k]? = some M' ∧ M' ≈ mul M (TH.mat psi h)) := by
  refine ⟨by simp [homBasis], fun k M hM => ?_⟩
  rw [homBasis, List.getElem?_map, Option.map_eq_some_iff] at hM
  obtain ⟨K, hK, rfl⟩ := hM
  obtain ⟨r1, r2, r3⟩ := hD.restr rho hrho
  obtain ⟨k1, k2, k3⟩ := dirac_intertwines hD.validH hD.endoH hpsi r1 hsel hB (List.mem_of_getElem? hK)
  have v := hD.validG rho hrho
  have hKr : K.rows = TG.size rho := k1.trans r2
  refine ⟨v.rows g hg, k2, fun g' hg' => ⟨mul (TG.mat rho (mulG g' g)) K, by simp [homBasis, hK], ?_⟩, fun h hh => ⟨mul (TG.mat rho (mulG g (parent h))) K, by simp [homBasis, hK], ?_⟩⟩
  · exact (mul_congr_left _ (v.map_mul g' g hg' hg) (by rw [v.cols _ (hD.incl.groupG.mul_mem _ _ hg' hg), hKr])).trans (mul_assoc' _ _ _)
  · have hp := hD.incl.mem h hh
    refine (mul_congr_left _ (v.map_mul g _ hg hp) (by rw [v.cols _ (hD.incl.groupG.mul_mem _ _ hg hp), hKr])).trans ((mul_assoc' _ _ _).trans ?_)
    refine (mul_congr_right _ ?_ (by rw [v.cols g hg]; exact (v.rows _ hp).symm)).trans (mul_assoc' _ _ _).symm
    exact (mul_congr_left _ (r3 h hh).symm (by rw [v.cols _ hp, hKr])).trans (k3 h hh)

/-- The first column of a matrix as a list. -/
def firstCol (M : NpMat ℝ) : List ℝ := (List.range M.rows).map fun o => M.get o 0

theorem blockDiag_appVec {α : Type} (A : α → NpMat ℝ) (u : α → List ℝ) : ∀ (L : List α), (∀ x ∈ L, (A x).cols = (u x).length) → ∀ a,
    appVec (blockDiag (L.map A)) (fun t => (L.flatMap u).getD t 0) a =
      (L.flatMap fun x => (List.range (A x).rows).map fun o => appVec (A x) (fun t => (u x).getD t 0) o).getD a 0
  | [], _, a => by simp [appVec, blockDiag]
  | x :: L, h, a => by
    have hx := h x (by simp)
    have ih := blockDiag_appVec A u L (fun y hy => h y (by simp [hy]))
    rw [List.map_cons, show blockDiag (A x :: L.map A) = diag2 (A x) (blockDiag (L.map A)) from rfl, appVec, diag2_cols, Finset.sum_range_add, List.flatMap_cons]
    have e1 : ∀ b ∈ Finset.range (A x).cols, (u x ++ L.flatMap u).getD b 0 = (u x).getD b 0 := fun b hb => by
      rw [List.getD_append]; rw [Finset.mem_range] at hb; omega
    have e2 : ∀ b, (u x ++ L.flatMap u).getD ((A x).cols + b) 0 = (L.flatMap u).getD b 0 := fun b => by
      rw [List.getD_append_right _ _ _ _ (by omega), hx, Nat.add_sub_cancel_left]
    rw [Finset.sum_congr rfl fun b hb => by rw [e1 b hb], Finset.sum_congr (s₂ := Finset.range (blockDiag (L.map A)).cols) rfl fun b _ => by rw [e2 b], List.flatMap_cons]
    by_cases ha : a < (A x).rows
    · rw [List.getD_append _ _ _ _ (by simpa using ha), List.getD_eq_getElem?_getD, List.getElem?_map, List.getElem?_range ha]
      have z : ∀ b, (diag2 (A x) (blockDiag (L.map A))).get a ((A x).cols + b) = 0 := fun b => by simp [diag2, ha]
      rw [Finset.sum_congr (s₂ := Finset.range (blockDiag (L.map A)).cols) rfl fun b _ => by rw [z b, zero_mul], Finset.sum_const_zero, add_zero]
      exact Finset.sum_congr rfl fun b hb => by rw [Finset.mem_range] at hb; simp [diag2, ha, hb]
    · have z : ∀ b ∈ Finset.range (A x).cols, (diag2 (A x) (blockDiag (L.map A))).get a b * (u x).getD b 0 = 0 := fun b hb => by
        rw [Finset.mem_range] at hb; simp [diag2, ha, hb]
      rw [Finset.sum_congr rfl z, Finset.sum_const_zero, zero_add, List.getD_append_right _ _ _ _ (by simpa using ha), List.length_map, List.length_range, ← ih]
      exact Finset.sum_congr rfl fun b hb => by simp [diag2, ha]

omit [DecidableEq Id'] in
theorem completeLoop_blocks {kernel : Id → Except Err (List (NpMat ℝ))} {g : G} : ∀ {L : List Id} {v : List ℝ}, completeLoop TG kernel g L = .ok v →
    ∃ P, inducedBlocks kernel L = .ok P ∧ v = P.flatMap fun ib => firstCol (mul (TG.mat ib.1 g) ib.2)
  | [], v, h => ⟨[], rfl, (Except.ok.inj h).symm⟩
  | i :: L, v, h => by
    rw [completeLoop] at h
    obtain ⟨B, h1, h⟩ := bind_ok h
    obtain ⟨R, h2, h⟩ := bind_ok h
    obtain ⟨P, h3, rfl⟩ := completeLoop_blocks h2
    obtain rfl := Except.ok.inj h
    refine ⟨B.map (fun b => (i, b)) ++ P, by rw [inducedBlocks, h1]; simp only [h3], ?_⟩
    rw [List.flatMap_append, homBasis, List.flatMap_map, List.flatMap_map]
    rfl

omit [DecidableEq Id'] in
theorem inducedBlocks_ids {kernel : Id → Except Err (List (NpMat ℝ))} {mult ssc : Id → ℕ} : ∀ {L : List Id} {P : List (Id × NpMat ℝ)} {ids : List Id},
    (∀ i ∈ L, ∀ B, kernel i = .ok B → dimensionBasis mult ssc i = .ok B.length) → inducedBlocks kernel L = .ok P → spectralIds mult ssc L = .ok ids → ids = P.map Prod.fst
  | [], P, ids, _, h, h' => by obtain rfl := Except.ok.inj h; obtain rfl := Except.ok.inj h'; rfl
  | i :: L, P, ids, hk, h, h' => by
    rw [inducedBlocks] at h
    rw [spectralIds] at h'
    obtain ⟨m, h1, h'⟩ := bind_ok h'
    obtain ⟨rest, h2, h'⟩ := bind_ok h'
    obtain rfl := Except.ok.inj h'
    split at h
    · cases h
    rename_i B hB
    split at h
    · cases h
    rename_i R hR
    obtain rfl := Except.ok.inj h
    obtain rfl := Except.ok.inj (h1.symm.trans (hk i (by simp) B hB))
    rw [inducedBlocks_ids (fun i hi => hk i (by simp [hi])) hR h2, List.map_append, List.map_map]
    congr 1
    rw [show (Prod.fst ∘ fun b => (i, b) : NpMat ℝ → Id) = fun _ => i from rfl, List.map_const']

/-- **C82** `complete_basis(g, psi, irreps)` transforms with `induced_representation(psi, irreps)`: the harmonics at `g' g` are the matrix of `g'` times the
harmonics at `g`.  The number of slices of the kernels is the one of `dimension_basis`, see `C82_kernel_length`. -/
theorem C82_complete_basis (hD : InducedData TG TH typH ElG mulG invG oneG ElH mulH invH oneH parent child rhoH) {psi : Id'} (hpsi : TH.ok psi = true)
    {sel : Id → List (NpMat ℝ) → Except Err (List (NpMat ℝ))} (hsel : ∀ i L L', sel i L = .ok L' → ∀ B ∈ L', B ∈ L) {mult ssc : Id → ℕ}
    {name : String} {irreps : List Id} (hlen : ∀ i ∈ irreps, ∀ B, diracKernelFT TH typH psi (rhoH i) (sel i) = .ok B → dimensionBasis mult ssc i = .ok B.length)
    {r : Rep G Id} (hr : spectralRep TG mult ssc name irreps = .ok r) {g g' : G} (hg : ElG g) (hg' : ElG g') {v v' : List ℝ}
    (hv : completeBasis TG mult ssc (fun i => diracKernelFT TH typH psi (rhoH i) (sel i)) name irreps g = .ok v)
    (hv' : completeBasis TG mult ssc (fun i => diracKernelFT TH typH psi (rhoH i) (sel i)) name irreps (mulG g' g) = .ok v') :
    v.length = r.size ∧ v'.length = r.size ∧ ∀ a < r.size, v'.getD a 0 = ∑ b ∈ Finset.range r.size, (r.mat g').get a b * v.getD b 0 := by
  rw [completeBasis, hr] at hv hv'
  obtain ⟨r0, h0, hv⟩ := bind_ok hv
  obtain rfl := Except.ok.inj h0
  obtain ⟨r0, h0', hv'⟩ := bind_ok hv'
  obtain rfl := Except.ok.inj h0'
  obtain ⟨w, h1, hv⟩ := bind_ok hv
  obtain ⟨w', h1', hv'⟩ := bind_ok hv'
  split_ifs at hv with hl
  split_ifs at hv' with hl'
  obtain rfl := Except.ok.inj hv
  obtain rfl := Except.ok.inj hv'
  refine ⟨hl, hl', fun a ha => ?_⟩
  obtain ⟨ids, e1, sp, e2⟩ := spectralRep_ok (El := ElG) hD.validG hr
  obtain ⟨P, hP, rfl⟩ := completeLoop_blocks h1
  obtain ⟨P', hP', rfl⟩ := completeLoop_blocks h1'
  obtain rfl := Except.ok.inj (hP.symm.trans hP')
  have hids := inducedBlocks_ids hlen hP e1
  have hmem : ∀ x ∈ P, TG.ok x.1 = true ∧ x.2.rows = TG.size x.1 := by
    intro x hx
    obtain ⟨m1, B, hB, hxB⟩ := mem_inducedBlocks hP hx
    have hok : TG.ok x.1 = true := sp.wf.ok _ (by rw [e2, hids]; exact List.mem_map.2 ⟨x, hx, rfl⟩)
    obtain ⟨r1, r2, r3⟩ := hD.restr x.1 hok
    exact ⟨hok, (dirac_intertwines hD.validH hD.endoH hpsi r1 (hsel x.1) hB hxB).1.trans r2⟩
  have hmat : r.mat g' ≈ blockDiag (P.map fun x => TG.mat x.1 g') := by
    have := sp.wf.mat_eye hD.validG sp.cob hg'
    rw [e2, hids, List.map_map] at this
    exact this
  have hcols : (r.mat g').cols = r.size := (sp.wf.cols hg')
  have hrows : (r.mat g').rows = r.size := (sp.wf.rows hg')
  have hsum : ∑ b ∈ Finset.range r.size, (r.mat g').get a b * (P.flatMap fun ib => firstCol (mul (TG.mat ib.1 g) ib.2)).getD b 0 =
      appVec (blockDiag (P.map fun x => TG.mat x.1 g')) (fun t => (P.flatMap fun ib => firstCol (mul (TG.mat ib.1 g) ib.2)).getD t 0) a := by
    rw [appVec, ← hmat.2.1, hcols]
    refine Finset.sum_congr rfl fun b hb => ?_
    rw [hmat.2.2 a b (by omega) (by rw [hcols]; exact Finset.mem_range.1 hb)]
  rw [hsum, blockDiag_appVec _ _ _ (fun x hx => ?_)]
  · congr 1
    refine List.flatMap_congr fun x hx => ?_
    obtain ⟨hok, hrw⟩ := hmem x hx
    have v := hD.validG x.1 hok
    have hgg := hD.incl.groupG.mul_mem _ _ hg' hg
    rw [firstCol, mul_rows, v.rows _ hgg, v.rows _ hg']
    refine List.map_congr_left fun o ho => ?_
    rw [List.mem_range] at ho
    have key : ∀ t < TG.size x.1, (firstCol (mul (TG.mat x.1 g) x.2)).getD t 0 = (mul (TG.mat x.1 g) x.2).get t 0 := fun t ht => by
      rw [firstCol, List.getD_eq_getElem?_getD, List.getElem?_map, List.getElem?_range (by rw [mul_rows, v.rows g hg]; exact ht)]; rfl
    rw [appVec, v.cols _ hg', Finset.sum_congr rfl fun t ht => by rw [key t (Finset.mem_range.1 ht)]]
    have c0 : (mul (TG.mat x.1 (mulG g' g)) x.2).get o 0 = (mul (mul (TG.mat x.1 g') (TG.mat x.1 g)) x.2).get o 0 := by
      show ∑ k ∈ Finset.range _, _ = ∑ k ∈ Finset.range _, _
      rw [mul_cols, v.cols _ hgg, v.cols _ hg]
      refine Finset.sum_congr rfl fun k hk => ?_
      rw [(v.map_mul g' g hg' hg).2.2 o k (by rw [v.rows _ hgg]; exact ho) (by rw [v.cols _ hgg]; exact Finset.mem_range.1 hk)]
    rw [c0]
    show ∑ k ∈ Finset.range (TG.mat x.1 g).cols, (∑ t ∈ Finset.range (TG.mat x.1 g').cols, _) * _ = ∑ t ∈ Finset.range _, _ * ∑ k ∈ Finset.range _, _
    rw [v.cols _ hg', v.cols _ hg]
    simp only [Finset.sum_mul, Finset.mul_sum]
    rw [Finset.sum_comm]
    exact Finset.sum_congr rfl fun _ _ => Finset.sum_congr rfl fun _ _ => by ring
  · obtain ⟨hok, hrw⟩ := hmem x hx
    simp [firstCol, (hD.validG x.1 hok).cols _ hg', (hD.validG x.1 hok).rows _ hg]

omit [DecidableEq Id'] in
theorem diracLoop_length [DecidableEq Id'] (cols : List (NpMat ℝ)) (psi : Id') (n : ℕ) : ∀ (L : List Id') (p : ℕ), (diracLoop TH cols psi n p L).length = L.count psi * cols.length
  | [], _ => by simp [diracLoop]
  | i :: L, p => by
    rw [diracLoop, List.length_append, diracLoop_length cols psi n L]
    by_cases h : i = psi
    · rw [if_pos h, h, List.count_cons_self, List.length_map]; ring
    · rw [if_neg h, List.count_cons_of_ne h]; simp

/-- **C82** For an irrep of real type the kernel has exactly as many slices as `dimension_basis` announces. -/
theorem C82_kernel_length {psi : Id'} {rho : Rep H Id'} {B : List (NpMat ℝ)} (hB : diracKernelFT TH typH psi rho .ok = .ok B) {mult ssc : Id → ℕ} {i : Id}
    (hm : mult i = rho.irreps.count psi * (typH psi).sumsq) (hs : ssc i = 1) : dimensionBasis mult ssc i = .ok B.length := by
  rw [diracKernelFT] at hB
  simp only at hB
  split at hB
  · cases hB
  rename_i hcond
  obtain rfl := Except.ok.inj hB
  rw [dimensionBasis, hs, if_pos (one_dvd _), Nat.div_one, hm, List.length_map, diracLoop_length, List.length_map]
  by_cases hmem : psi ∈ rho.irreps
  · rw [not_and, not_not] at hcond
    rw [hcond hmem]
  · rw [List.count_eq_zero_of_not_mem hmem]; simp

end Escnn
