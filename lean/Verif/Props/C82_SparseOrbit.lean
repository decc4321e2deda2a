import Verif.Props.C82_Sparse

/-!
# C82: when SparseOrbitBasis can be built, and its change of basis
-/

namespace Escnn

open NpMat

theorem bind_step {α β : Type} {m : Except Err α} {f : α → Except Err β} {a : α} {y : Except Err β} (h : m = .ok a) (h' : f a = y) : (m >>= f) = y := by
  rw [h]; exact h'

namespace Sparse

variable {G H Id Id' : Type} [DecidableEq Id] [DecidableEq Id'] {TG : IrrepTable G Id} {TH : IrrepTable H Id'} {typH : Id' → IrrType} {els : List G} {mulG : G → G → G}
  {invG : G → G} {oneG : G} {hels : List H} {mulH : H → H → H} {invH : H → H} {oneH : H} {parent : H → G} {child : G → Option H} {rhoH : Id → Rep H Id'}
  {mult ssc : Id → ℕ} {kernel : Id → Except Err (List (NpMat ℝ))} {rnd : ℝ → ℝ} {le : List ℝ → List ℝ → Bool} {action : Rep G Id} {root : List ℝ} {sigma : ℝ} {C : NpMat ℝ}
  {b : Sparse Id}

/-- **C82** Without a change of basis `SparseOrbitBasis` is steerable under its orthogonal `action`. -/
theorem C82_sparse_default (hG : els.Nodup) (hH : hels.Nodup)
    (hD : InducedData TG TH typH (· ∈ els) mulG invG oneG (· ∈ hels) mulH invH oneH parent child rhoH) {triv : Id'} (htriv : TH.IsTrivial (· ∈ hels) triv)
    {sel : Id → List (NpMat ℝ) → Except Err (List (NpMat ℝ))} (hsel : ∀ i L L', sel i L = .ok L' → ∀ B ∈ L', B ∈ L)
    (hact : OrthoRep (· ∈ els) mulG oneG action.size action.mat) {irreps : List Id} {harmonics : Option (List Id)}
    (h : sparseInit TG mult ssc (fun j => diracKernelFT TH typH triv (rhoH j) (sel j)) irreps (some els) hels parent rnd le action root sigma harmonics none = .ok b) :
    (b.toFBasis TG.size).Steerable TG.size TG.mat (· ∈ els) (fun g => appVec (action.mat g)) :=
  C82_sparse_steerable hG hH hD htriv hsel hact.toLinRep h rfl hact.rows hact.ortho fun g hg => (mul_eye' _ (hact.cols g hg)).trans (eye_mul' _ (hact.rows g hg)).symm

/-- **C82** With a change of basis which commutes with the action (a multiple of the identity for the icosahedral kernels, kernels/r3.py) it is steerable under `action`, too. -/
theorem C82_sparse_commuting (hG : els.Nodup) (hH : hels.Nodup)
    (hD : InducedData TG TH typH (· ∈ els) mulG invG oneG (· ∈ hels) mulH invH oneH parent child rhoH) {triv : Id'} (htriv : TH.IsTrivial (· ∈ hels) triv)
    {sel : Id → List (NpMat ℝ) → Except Err (List (NpMat ℝ))} (hsel : ∀ i L L', sel i L = .ok L' → ∀ B ∈ L', B ∈ L)
    (hact : OrthoRep (· ∈ els) mulG oneG action.size action.mat) {irreps : List Id} {harmonics : Option (List Id)} (hcomm : ∀ g ∈ els, mul (action.mat g) C ≈ mul C (action.mat g))
    (h : sparseInit TG mult ssc (fun j => diracKernelFT TH typH triv (rhoH j) (sel j)) irreps (some els) hels parent rnd le action root sigma harmonics (some C) = .ok b) :
    (b.toFBasis TG.size).Steerable TG.size TG.mat (· ∈ els) (fun g => appVec (action.mat g)) := by
  obtain ⟨els', C', -, -, hC, -⟩ := init_ok h
  have : C' = C := by
    rw [sparseCob] at hC
    split_ifs at hC
    exact (Except.ok.inj hC).symm
  subst this
  exact C82_sparse_steerable hG hH hD htriv hsel hact.toLinRep h hC hact.rows hact.ortho hcomm

omit [DecidableEq Id] in
/-- **C82** If the constructor succeeds, the subgroup of the homogeneous space is exactly the stabiliser of the root, so that the orbit is the homogeneous space; the basis
has one point per coset and the points before the change of basis are distinct. -/
theorem C82_stabilizer (hG : els.Nodup) (hH : hels.Nodup) (hI : Inclusion (· ∈ els) mulG invG oneG (· ∈ hels) mulH invH oneH parent child)
    (hact : LinRep (· ∈ els) mulG oneG action.size action.mat) {irreps : List Id} {harmonics : Option (List Id)} {cob : Option (NpMat ℝ)}
    (h : sparseInit TG mult ssc kernel irreps (some els) hels parent rnd le action root sigma harmonics cob = .ok b) :
    b.n * hels.length = els.length ∧
    (∀ g ∈ els, (∀ a < action.size, appVec (action.mat g) (fun a => root.getD a 0) a = root.getD a 0) ↔ ∃ h ∈ hels, g = parent h) := by
  obtain ⟨els', C', he, -, -, hb⟩ := init_ok h
  obtain rfl := Option.some.inj he
  refine ⟨by rw [hb.n]; exact hb.count, fun g hg => ⟨fun hfix => ?_, ?_⟩⟩
  · have hG' := hI.groupG
    have hcov := reps_complete_of_count hG hH hI (reps_mem (oneG := oneG) (le := le) (rnd := rnd) (action := action) (root := root)) (reps_pairwise hI hact hb.fixed)
      (by rw [reps, List.length_map]; exact hb.count.symm)
    have key : ∀ x ∈ els, (∀ a < action.size, appVec (action.mat x) (fun a => root.getD a 0) a = root.getD a 0) →
        ∃ i ∈ uniqueIdx le (sparseKeys rnd action root els), els.getD i oneG ∈ els ∧ (∃ h ∈ hels, x = mulG (els.getD i oneG) (parent h)) ∧
          (sparseKeys rnd action root els)[i]? = some ((List.range action.size).map fun a => rnd (root.getD a 0)) := by
      intro x hx hf
      obtain ⟨r, hr, h, hh, e⟩ := hcov x hx
      obtain ⟨i, hi, rfl⟩ := List.mem_map.1 hr
      have li : i < els.length := by simpa [sparseKeys] using (mem_uniqueIdx.1 hi).1
      have hri : els.getD i oneG ∈ els := reps_mem _ hr
      refine ⟨i, hi, hri, ⟨h, hh, e⟩, ?_⟩
      rw [key_at (oneG := oneG) li]
      congr 1
      refine List.map_congr_left fun a ha => ?_
      rw [← coset_point hI hact hb.fixed hri hh (List.mem_range.1 ha), ← e, hf a (List.mem_range.1 ha)]
    obtain ⟨i, hi, hri, ⟨h1, hh1, e1⟩, k1⟩ := key g hg hfix
    obtain ⟨k, hk, hrk, ⟨h2, hh2, e2⟩, k2⟩ := key oneG hG'.one_mem (fun a ha => by
      rw [appVec_congr hact.map_one _ (by rw [hact.rows _ hG'.one_mem]; exact ha), appVec_eye _ ha])
    obtain rfl := uniqueIdx_inj hi hk (k1.trans k2.symm)
    obtain ⟨h3, hh3, e3⟩ := cosetRel_symm hI hrk ⟨h2, hh2, e2⟩
    refine ⟨mulH h3 h1, hI.groupH.mul_mem _ _ hh3 hh1, ?_⟩
    rw [hI.map_mul _ _ hh3 hh1, e1, e3, hG'.one_mul _ (hI.mem h3 hh3)]
  · rintro ⟨h, hh, rfl⟩ a ha
    exact (hb.fixed h hh a ha).symm

omit [DecidableEq Id] in
theorem sparseJs_ok {irreps : List Id} (hok : ∀ j ∈ irreps, TG.ok j = true) (hker : ∀ j ∈ irreps, ∃ B, kernel j = .ok B ∧ dimensionBasis mult ssc j = .ok B.length) :
    ∃ js, sparseJs TG mult ssc irreps = .ok js ∧ sparseCheck kernel js = .ok () ∧ ∀ j ∈ irreps, ∀ m, dimensionBasis mult ssc j = .ok m → 0 < m → (j, m) ∈ js := by
  induction irreps with
  | nil => exact ⟨[], rfl, rfl, by simp⟩
  | cons j L ih =>
    obtain ⟨js, h1, h2, h3⟩ := ih (fun i hi => hok i (by simp [hi])) (fun i hi => hker i (by simp [hi]))
    obtain ⟨B, hB, hd⟩ := hker j (by simp)
    refine ⟨if 0 < B.length then (j, B.length) :: js else js, ?_, ?_, ?_⟩
    · rw [sparseJs, if_neg (by simp [hok j (by simp)])]
      exact bind_step hd (bind_step h1 rfl)
    · split_ifs
      · rw [sparseCheck]
        exact bind_step hB (by rw [if_pos rfl]; exact h2)
      · exact h2
    · intro i hi m hm hpos
      rcases List.mem_cons.1 hi with rfl | hi
      · obtain rfl := Except.ok.inj (hd.symm.trans hm)
        rw [if_pos hpos]; simp
      · have := h3 i hi m hm hpos
        split_ifs <;> simp [this]

omit [DecidableEq Id] in
/-- **C82** The constructor succeeds for every orbit of a finite group: if the subgroup is the stabiliser of the root and the rounding to four decimals keeps the points of
the orbit apart, none of its assertions fails. -/
theorem C82_sparse_accepts (hG : els.Nodup) (hH : hels.Nodup) (hI : Inclusion (· ∈ els) mulG invG oneG (· ∈ hels) mulH invH oneH parent child)
    (hact : LinRep (· ∈ els) mulG oneG action.size action.mat) {irreps : List Id} {harmonics : Option (List Id)} {cob : Option (NpMat ℝ)}
    (hok : ∀ j ∈ harmonics.getD irreps, TG.ok j = true) (hker : ∀ j ∈ harmonics.getD irreps, ∃ B, kernel j = .ok B ∧ dimensionBasis mult ssc j = .ok B.length)
    (hroot : root.length = action.size)
    (hstab : ∀ g ∈ els, (∀ a < action.size, appVec (action.mat g) (fun a => root.getD a 0) a = root.getD a 0) ↔ ∃ h ∈ hels, g = parent h)
    (hrnd : ∀ g ∈ els, ∀ g' ∈ els, (∀ a < action.size, rnd (appVec (action.mat g) (fun a => root.getD a 0) a) = rnd (appVec (action.mat g') (fun a => root.getD a 0) a)) →
      ∀ a < action.size, appVec (action.mat g) (fun a => root.getD a 0) a = appVec (action.mat g') (fun a => root.getD a 0) a)
    (hsig : 0 < sigma) (hC : sparseCob action.size cob = .ok C) :
    ∃ b, sparseInit TG mult ssc kernel irreps (some els) hels parent rnd le action root sigma harmonics cob = .ok b ∧
      ∀ j ∈ harmonics.getD irreps, ∀ m, dimensionBasis mult ssc j = .ok m → 0 < m → (j, m) ∈ b.js := by
  obtain ⟨js, h1, h2, h3⟩ := sparseJs_ok hok hker
  have hG' := hI.groupG
  have hfix : ∀ h ∈ hels, ∀ a < action.size, root.getD a 0 = appVec (action.mat (parent h)) (fun a => root.getD a 0) a :=
    fun h hh a ha => ((hstab _ (hI.mem h hh)).2 ⟨h, hh, rfl⟩ a ha).symm
  have hcount : (uniqueIdx le (sparseKeys rnd action root els)).length * hels.length = els.length := by
    have hpw := reps_pairwise (rnd := rnd) (le := le) hI hact hfix
    have hlen : (reps oneG els (uniqueIdx le (sparseKeys rnd action root els))).length = (uniqueIdx le (sparseKeys rnd action root els)).length := by rw [reps, List.length_map]
    rw [← hlen, ← cosetList_length (mulG := mulG) (parent := parent)]
    refine le_antisymm ((cosetList_nodup hH hI reps_mem hpw).subperm ?_).length_le (hG.subperm ?_).length_le
    · intro x hx
      obtain ⟨r, hr, hx⟩ := List.mem_flatMap.1 hx
      obtain ⟨h, hh, rfl⟩ := List.mem_map.1 hx
      exact hG'.mul_mem _ _ (reps_mem r hr) (hI.mem h hh)
    · intro g hg
      obtain ⟨i, li, rfl⟩ := List.getElem_of_mem hg
      obtain ⟨k, hk, e⟩ := uniqueIdx_complete (le := le) (keys := sparseKeys rnd action root els) (i := i) (by simpa [sparseKeys] using li)
      have lk : k < els.length := by simpa [sparseKeys] using (mem_uniqueIdx.1 hk).1
      have hr : els.getD k oneG ∈ reps oneG els (uniqueIdx le (sparseKeys rnd action root els)) := List.mem_map.2 ⟨k, hk, rfl⟩
      have hre := reps_mem _ hr
      rw [key_at (oneG := oneG) li, key_at (oneG := oneG) lk, List.getD_eq_getElem _ _ li] at e
      have e' := Option.some.inj e
      rw [List.map_inj_left] at e'
      have hpt := hrnd _ hre _ hg fun a ha => e' a (List.mem_range.2 ha)
      have hst : ∀ a < action.size, appVec (action.mat (mulG (invG (els.getD k oneG)) els[i])) (fun a => root.getD a 0) a = root.getD a 0 := by
        intro a ha
        have hinv := hG'.inv_mem _ hre
        rw [appVec_congr (hact.map_mul _ _ hinv hg) _ (by rw [hact.rows _ (hG'.mul_mem _ _ hinv hg)]; exact ha), appVec_mul,
          appVec_congr_right _ (w := appVec (action.mat (els.getD k oneG)) fun a => root.getD a 0) (fun t ht => (hpt t (by rwa [hact.cols _ hinv] at ht)).symm), ← appVec_mul,
          ← appVec_congr (hact.map_mul _ _ hinv hre) _ (by rw [hact.rows _ (hG'.mul_mem _ _ hinv hre)]; exact ha), hG'.inv_mul _ hre,
          appVec_congr hact.map_one _ (by rw [hact.rows _ hG'.one_mem]; exact ha), appVec_eye _ ha]
      obtain ⟨h, hh, e2⟩ := (hstab _ (hG'.mul_mem _ _ (hG'.inv_mem _ hre) hg)).1 hst
      refine List.mem_flatMap.2 ⟨_, hr, List.mem_map.2 ⟨h, hh, ?_⟩⟩
      rw [← e2, hG'.mul_inv_cancel_left hre hg]
  have hne : els ≠ [] := List.ne_nil_of_mem hG'.one_mem
  refine ⟨⟨js, action.size, (uniqueIdx le (sparseKeys rnd action root els)).length, fun i => appVec C (sparsePoint action root els (uniqueIdx le (sparseKeys rnd action root els)) i),
    sparseHarm TG kernel els (uniqueIdx le (sparseKeys rnd action root els)), sigma⟩, ?_, h3⟩
  unfold sparseInit
  simp only
  rw [if_neg hne]
  refine bind_step h1 ?_
  rw [if_neg (not_not.2 hroot), if_neg (not_not.2 hfix), if_neg (not_not.2 hcount), if_neg (not_not.2 hsig)]
  exact bind_step h2 (bind_step hC rfl)

/-! ### instances -/

/-- Rounding to four decimals. -/
noncomputable def round4 (x : ℝ) : ℝ := (round (x * 10000) : ℝ) / 10000

/-- The restriction of the irreps of `C_2` to `C_1`. -/
def c2Restr : Rep ℤ ℕ := ⟨"r", [0], eye 1, eye 1, fun _ => eye 1, ∅⟩

open Cyclic in
/-- `C_2` with its trivial subgroup. -/
theorem c2Data : InducedData (table 2) (table 1) (irrepType 1) (· ∈ elements 2) (combine 2) (inverse 2) identity (· ∈ elements 1) (combine 1) (inverse 1) identity
    (fun e => e * (2 : ℕ) / (1 : ℕ)) (fun g => match childMap 2 1 g with | .ok o => o | .error _ => none) (fun _ => c2Restr) := by
  obtain ⟨rhoH, hD⟩ := inducedData 2 1 (by norm_num) (by decide)
  refine ⟨hD.incl, hD.validG, hD.validH, hD.endoH, fun i hi => ?_⟩
  have hi' : i = 0 ∨ i = 1 := by
    have : i ≤ 1 := by simpa [table] using hi
    omega
  have hs : (table 2).size i = 1 := by rcases hi' with rfl | rfl <;> rfl
  refine ⟨⟨Nat.one_pos, IsInv.eye 1, by simp [c2Restr, table], rfl, fun g hg => ?_⟩, hs.symm, fun h hh => ?_⟩
  · show eye 1 ≈ mul (mul (eye 1) (blockDiag [(table 1).mat 0 g])) (eye 1)
    refine ((mul_eye' _ rfl).trans ((eye_mul' _ ?_).trans ?_)).symm
    · rw [blockDiag_rows]; simp [table, irrepMat]
    · exact (blockDiag_single _).trans (by exact Eqv.refl _)
  · obtain rfl : h = 0 := by simpa [elements] using hh
    have := (hD.validG i hi).map_one
    rw [hs] at this
    exact this.symm

open Cyclic in
theorem c2Kernel : ∃ B, diracKernelFT (table 1) (irrepType 1) 0 c2Restr .ok = .ok [B] ∧ B.get 0 0 = 1 ∧ B.rows = 1 ∧ B.cols = 1 := by
  have s0 : (table 1).size 0 = 1 := rfl
  have hE : endoBasis (irrepType 1 0) 1 = [eye 1] := by simp [irrepType, endoBasis]
  have hw : diracWeight [eye 1] 0 = 1 := by simp [diracWeight, eye]
  have hmask : diracMask [eye 1] 1 = [0] := by simp [diracMask, List.range_succ, hw]
  unfold diracKernelFT c2Restr
  simp only [s0, hE, hmask, diracLoop]
  rw [if_neg (by simp [irrepType, IrrType.sumsq])]
  refine ⟨_, rfl, ?_, rfl, rfl⟩
  simp [mul, eye, setBlock, diracColumn]

open Cyclic in
theorem c2Trivial : (table 1).IsTrivial (· ∈ elements 1) 0 := ⟨rfl, rfl, fun g _ => by simp [table, irrepMat, eye]⟩

open Cyclic in
/-- The hypotheses of `C82_basis` and `C82_complete_basis` hold for `C_2` and its trivial subgroup: both irreps occur once. -/
example {g : ℤ} (hg : g ∈ elements 2) : ∃ r v, spectralRep (table 2) (fun _ => 1) (fun _ => 1) "s" [0, 1] = .ok r ∧ r.size = 2 ∧
    completeBasis (table 2) (fun _ => 1) (fun _ => 1) (fun _ => diracKernelFT (table 1) (irrepType 1) 0 c2Restr .ok) "s" [0, 1] g = .ok v ∧
    (∀ i ∈ [0, 1], ∀ B, diracKernelFT (table 1) (irrepType 1) 0 c2Restr .ok = .ok B → dimensionBasis (fun _ : ℕ => 1) (fun _ => 1) i = .ok B.length) := by
  obtain ⟨B, hB, hB0, hBr, hBc⟩ := c2Kernel
  have hv := table_valid_mem 2 (by norm_num)
  obtain ⟨r, h, hwf, _, hirr, hcob, hci, _⟩ := C14_constructor hv [] "s" [0, 1] (eye 2) (eye 2) {"norm", "gated", "concatenated"} (by simp) Nat.two_pos (IsInv.eye 2) (by simp [table]) rfl false
  have hsz : r.size = 2 := by rw [Rep.size, hcob]; rfl
  have hr : spectralRep (table 2) (fun _ => 1) (fun _ => 1) "s" [0, 1] = .ok r := by
    unfold spectralRep
    rw [if_neg (by simp), if_neg (by simp [table]), if_neg (by simp)]
    refine bind_step (a := [0, 1]) rfl ?_
    rw [if_neg (by decide)]
    exact h
  refine ⟨r, _, hr, hsz, bind_step hr (bind_step (bind_step hB (bind_step (bind_step hB (bind_step rfl rfl)) rfl)) (if_pos ?_)), fun i _ B' hB' => ?_⟩
  · have v0 := (hv 0 rfl).rows g hg
    have v1 := (hv 1 rfl).rows g hg
    simp [homBasis, v0, v1, hsz, show (table 2).size 0 = 1 from rfl, show (table 2).size 1 = 1 from rfl]
  · obtain rfl := Except.ok.inj (hB.symm.trans hB')
    simp [dimensionBasis]

open Cyclic in
/-- `C_2` acting on the plane by the reflection `diag(1, -1)`. -/
theorem c2Action : ∃ r : Rep ℤ ℕ, r.WF (table 2) (· ∈ elements 2) ∧ r.size = 2 ∧ OrthoRep (· ∈ elements 2) (combine 2) identity r.size r.mat ∧
    r.mat 0 ≈ of2 1 0 0 1 ∧ r.mat 1 ≈ of2 1 0 0 (-1) := by
  have hv := table_valid_mem 2 (by norm_num)
  obtain ⟨r, _, hwf, _, hirr, hcob, hci, _⟩ := C14_constructor hv [] "r" [0, 1] (eye 2) (eye 2) ∅ (by simp) Nat.two_pos (IsInv.eye 2) (by simp [table]) rfl false
  have hsz : r.size = 2 := by rw [Rep.size, hcob]; rfl
  have sp : Fourier.Split (table 2) (· ∈ elements 2) r := ⟨hwf, by rw [hcob, hsz]⟩
  have hm : ∀ g ∈ elements 2, r.mat g ≈ of2 1 0 0 (Real.cos ((1 : ℕ) * radians 2 g)) := by
    intro g hg
    have h := sp.wf.mat_eye hv sp.cob hg
    rw [hirr] at h
    refine h.trans ?_
    refine ⟨rfl, rfl, fun i j hi hj => ?_⟩
    have hi' : i < 2 := hi
    have hj' : j < 2 := hj
    show (diag2 (eye 1) (diag2 (of1 _) (zeros 0 0))).get i j = _
    interval_cases i <;> interval_cases j <;> simp [diag2, eye, of1, of2]
  refine ⟨r, hwf, hsz, sp.ortho hv (by decide) (by decide), (hm 0 (by decide)).trans ?_, (hm 1 (by decide)).trans ?_⟩
  · rw [show Real.cos ((1 : ℕ) * radians 2 0) = 1 by simp [radians]]
  · rw [show ((1 : ℕ) : ℝ) * radians 2 1 = Real.pi by rw [radians]; push_cast; ring, Real.cos_pi]

open Cyclic in
/-- The orbit of `(0, 1)` under that reflection, with any invertible change of basis and any set of harmonics. -/
theorem c2_built (le : List ℝ → List ℝ → Bool) {r : Rep ℤ ℕ} (hsz : r.size = 2) (ho : OrthoRep (· ∈ elements 2) (combine 2) identity r.size r.mat) (h0 : r.mat 0 ≈ of2 1 0 0 1)
    (h1 : r.mat 1 ≈ of2 1 0 0 (-1)) {L : List ℕ} (hL : ∀ j ∈ L, j ≤ 1) {cob : Option (NpMat ℝ)} {C : NpMat ℝ} (hC : sparseCob r.size cob = .ok C) :
    ∃ b, sparseInit (table 2) (fun _ => 1) (fun _ => 1) (fun _ => diracKernelFT (table 1) (irrepType 1) 0 c2Restr .ok) [0, 1] (some (elements 2)) (elements 1)
      (fun e => e * (2 : ℕ) / (1 : ℕ)) round4 le r [0, 1] 1 (some L) cob = .ok b ∧ ∀ j ∈ L, ∀ m, dimensionBasis (fun _ : ℕ => 1) (fun _ => 1) j = .ok m → 0 < m → (j, m) ∈ b.js := by
  obtain ⟨B, hB, -⟩ := c2Kernel
  have p0 : ∀ a < 2, appVec (r.mat 0) (fun a => [(0 : ℝ), 1].getD a 0) a = [(0 : ℝ), 1].getD a 0 := fun a ha => by
    rw [appVec_congr h0 _ (by rw [ho.rows 0 (by decide), hsz]; exact ha)]
    interval_cases a <;> simp [appVec, of2, Finset.sum_range_succ]
  have p1 : ∀ a < 2, appVec (r.mat 1) (fun a => [(0 : ℝ), 1].getD a 0) a = [(0 : ℝ), -1].getD a 0 := fun a ha => by
    rw [appVec_congr h1 _ (by rw [ho.rows 1 (by decide), hsz]; exact ha)]
    interval_cases a <;> simp [appVec, of2, Finset.sum_range_succ]
  have q1 : round4 1 = 1 := by
    rw [round4, one_mul, show (10000 : ℝ) = ((10000 : ℤ) : ℝ) by norm_num, round_intCast]; norm_num
  have q2 : round4 (-1) = -1 := by
    rw [round4, show (-1 * 10000 : ℝ) = ((-10000 : ℤ) : ℝ) by norm_num, round_intCast]; norm_num
  have mem2 : ∀ g, g ∈ elements 2 ↔ g = 0 ∨ g = 1 := fun g => by rw [show elements 2 = [0, 1] from rfl]; simp
  refine C82_sparse_accepts (mulG := combine 2) (invG := inverse 2) (oneG := identity) (by decide) (by decide) c2Data.incl ho.toLinRep (fun j hj => ?_) (fun j _ => ⟨[B], hB, by simp [dimensionBasis]⟩)
    hsz.symm (fun g hg => ⟨fun hf => ?_, ?_⟩) ?_ one_pos hC
  · have := hL j hj
    simpa [table] using this
  · rcases (mem2 g).1 hg with rfl | rfl
    · exact ⟨0, by decide, rfl⟩
    · have := hf 1 (by rw [hsz]; norm_num)
      rw [p1 1 (by norm_num)] at this
      norm_num at this
  · rintro ⟨h, hh, rfl⟩ a ha
    obtain rfl : h = 0 := by simpa [elements] using hh
    exact p0 a (by rwa [hsz] at ha)
  · intro g hg g' hg' hr
    have := hr 1 (by rw [hsz]; norm_num)
    rcases (mem2 g).1 hg with rfl | rfl <;> rcases (mem2 g').1 hg' with rfl | rfl
    · exact fun _ _ => rfl
    · rw [p0 1 (by norm_num), p1 1 (by norm_num)] at this; simp [q1, q2] at this; norm_num at this
    · rw [p0 1 (by norm_num), p1 1 (by norm_num)] at this; simp [q1, q2] at this; norm_num at this
    · exact fun _ _ => rfl

open Cyclic in
/-- The hypotheses of `C82_sparse_default` and the conclusion for the orbit of `(0, 1)` under the reflection. -/
example (le : List ℝ → List ℝ → Bool) : ∃ (r : Rep ℤ ℕ) (b : Sparse ℕ), r.size = 2 ∧ b.n = 2 ∧ (0, 1) ∈ b.js ∧ (1, 1) ∈ b.js ∧
    (b.toFBasis (table 2).size).Steerable (table 2).size (table 2).mat (· ∈ elements 2) (fun g => appVec (r.mat g)) := by
  obtain ⟨r, hwf, hsz, ho, h0, h1⟩ := c2Action
  obtain ⟨b, hb, hjs⟩ := c2_built le hsz ho h0 h1 (L := [0, 1]) (by simp) (cob := none) rfl
  refine ⟨r, b, hsz, ?_, hjs 0 (by simp) 1 (by simp [dimensionBasis]) one_pos, hjs 1 (by simp) 1 (by simp [dimensionBasis]) one_pos,
    C82_sparse_default (by decide) (by decide) c2Data c2Trivial (sel := fun _ => .ok) (fun _ L L' h B hB => by obtain rfl := Except.ok.inj h; exact hB) ho hb⟩
  have := (C82_stabilizer (by decide) (by decide) c2Data.incl ho.toLinRep hb).1
  simpa [elements] using this

open Cyclic in
/-- **C82** (violation) With a `change_of_basis` which does not commute with the action the basis is not steerable under `basis.action`: the constructor moves the points but leaves
`self.action` unchanged (sparse_basis.py L79-84, L117-124), although the documentation says that the change of basis amounts to applying it to both the root and the action.  Here the
points `±(0, 1)` of the orbit under the reflection `diag(1, -1)` are sheared to `±(1, 1)`, and the filter of the trivial harmonic is not invariant. -/
theorem C82_change_of_basis_violated (le : List ℝ → List ℝ → Bool) : ∃ (r : Rep ℤ ℕ) (b : Sparse ℕ), r.WF (table 2) (· ∈ elements 2) ∧
    OrthoRep (· ∈ elements 2) (combine 2) identity r.size r.mat ∧
    sparseInit (table 2) (fun _ => 1) (fun _ => 1) (fun _ => diracKernelFT (table 1) (irrepType 1) 0 c2Restr .ok) [0, 1] (some (elements 2)) (elements 1)
      (fun e => e * (2 : ℕ) / (1 : ℕ)) round4 le r [0, 1] 1 (some [0]) (some (of2 1 1 0 1)) = .ok b ∧
    ¬ (b.toFBasis (table 2).size).Steerable (table 2).size (table 2).mat (· ∈ elements 2) (fun g => appVec (r.mat g)) := by
  obtain ⟨r, hwf, hsz, ho, h0, h1⟩ := c2Action
  have hC : sparseCob r.size (some (of2 1 1 0 1)) = .ok (of2 1 1 0 1) := by
    rw [sparseCob, if_neg (by rw [hsz]; simp), if_neg]
    rw [not_not]
    refine ⟨of2 1 (-1) 0 1, rfl, rfl, rfl, ⟨rfl, rfl, fun i j hi hj => ?_⟩, ⟨rfl, rfl, fun i j hi hj => ?_⟩⟩
    all_goals
      have hi' : i < 2 := hi
      have hj' : j < 2 := hj
      interval_cases i <;> interval_cases j <;> simp [mul, of2, eye, Finset.sum_range_succ]
  obtain ⟨b, hb, hjs⟩ := c2_built le hsz ho h0 h1 (L := [0]) (by simp) hC
  refine ⟨r, b, hwf, ho, hb, fun hst => ?_⟩
  obtain ⟨els, C, he, -, hC', hB⟩ := init_ok hb
  obtain rfl := Option.some.inj he
  obtain rfl := Except.ok.inj (hC.symm.trans hC')
  obtain ⟨k, hk⟩ := List.mem_iff_getElem?.1 (hjs 0 (by simp) 1 (by simp [dimensionBasis]) one_pos)
  obtain ⟨K, hK, hK0, hKr, hKc⟩ := c2Kernel
  have hs := hst 1 (by decide) (fun _ => 1) k 0 1 hk 0 one_pos 0 (by decide)
  have hval := fun x => sample_at hB hk one_pos (c := 0) (by decide) hK (K := K) rfl identity x
  have hreps : (reps identity (elements 2) (uniqueIdx le (sparseKeys round4 r [0, 1] (elements 2)))).Perm (elements 2) := by
    have hp := cosetList_perm (els := elements 2) (hels := elements 1) (by decide) c2Data.incl (reps_mem (oneG := identity) (le := le) (rnd := round4) (action := r) (root := [0, 1]))
      (reps_pairwise c2Data.incl ho.toLinRep hB.fixed) (by rw [reps, List.length_map]; exact hB.count.symm)
    have e : cosetList (combine 2) (fun e => e * (2 : ℕ) / (1 : ℕ)) (elements 1) (reps identity (elements 2) (uniqueIdx le (sparseKeys round4 r [0, 1] (elements 2)))) =
        reps identity (elements 2) (uniqueIdx le (sparseKeys round4 r [0, 1] (elements 2))) := by
      rw [cosetList, show elements 1 = [0] from rfl]
      conv_rhs => rw [← List.flatMap_singleton' (reps identity (elements 2) (uniqueIdx le (sparseKeys round4 r [0, 1] (elements 2))))]
      refine List.flatMap_congr fun x hx => ?_
      have hx' := reps_mem _ hx
      simp only [List.map_cons, List.map_nil, List.cons.injEq, and_true]
      exact c2Data.incl.groupG.mul_one x hx'
    rwa [e] at hp
  have key : ∀ x, b.sample (table 2).size x (((b.js.take k).map fun e => (table 2).size e.1 * e.2).sum + (0 * (table 2).size 0 + 0)) =
      Real.exp (-(0.5 : ℝ) * ((1 - x 0) ^ 2 + (1 - x 1) ^ 2)) + Real.exp (-(0.5 : ℝ) * ((-1 - x 0) ^ 2 + (-1 - x 1) ^ 2)) := by
    intro x
    rw [hval x, (hreps.map _).sum_eq, show elements 2 = [0, 1] from rfl, hsz]
    have p0 : ∀ a < 2, appVec (r.mat 0) (fun a => [(0 : ℝ), 1].getD a 0) a = [(0 : ℝ), 1].getD a 0 := fun a ha => by
      rw [appVec_congr h0 _ (by rw [ho.rows 0 (by decide), hsz]; exact ha)]
      interval_cases a <;> simp [appVec, of2, Finset.sum_range_succ]
    have p1 : ∀ a < 2, appVec (r.mat 1) (fun a => [(0 : ℝ), 1].getD a 0) a = [(0 : ℝ), -1].getD a 0 := fun a ha => by
      rw [appVec_congr h1 _ (by rw [ho.rows 1 (by decide), hsz]; exact ha)]
      interval_cases a <;> simp [appVec, of2, Finset.sum_range_succ]
    have m : ∀ g, (mul ((table 2).mat 0 g) K).get 0 0 = 1 := fun g => by
      rw [show (table 2).mat 0 g = eye 1 from rfl]; simp [mul, eye, hK0]
    have c : ∀ v : ℕ → ℝ, appVec (of2 1 1 0 1) v 0 = v 0 + v 1 ∧ appVec (of2 1 1 0 1) v 1 = v 1 := fun v => by
      constructor <;> simp [appVec, of2, Finset.sum_range_succ]
    simp only [List.map_cons, List.map_nil, List.sum_cons, List.sum_nil, m, Finset.sum_range_succ, Finset.sum_range_zero, (c _).1, (c _).2, p0 0 (by norm_num), p0 1 (by norm_num),
      p1 0 (by norm_num), p1 1 (by norm_num)]
    simp
  have h2 : (table 2).size 0 = 1 := rfl
  have hx : ∀ a < 2, appVec (r.mat 1) (fun _ => 1) a = [(1 : ℝ), -1].getD a 0 := fun a ha => by
    rw [appVec_congr h1 _ (by rw [ho.rows 1 (by decide), hsz]; exact ha)]
    interval_cases a <;> simp [appVec, of2, Finset.sum_range_succ]
  change b.sample (table 2).size (appVec (r.mat 1) fun _ => 1) (((b.js.take k).map fun e => (table 2).size e.1 * e.2).sum + (0 * (table 2).size 0 + 0)) =
    ∑ c' ∈ Finset.range 1, (eye 1 : NpMat ℝ).get 0 c' * b.sample (table 2).size (fun _ => 1) (((b.js.take k).map fun e => (table 2).size e.1 * e.2).sum + (0 * (table 2).size 0 + c')) at hs
  rw [Finset.sum_range_one, key, key, hx 0 (by norm_num), hx 1 (by norm_num)] at hs
  have e1 : Real.exp (-2) < 1 / 2 := by
    have := Real.add_one_lt_exp (x := 2) (by norm_num)
    rw [Real.exp_neg, inv_lt_comm₀ (Real.exp_pos _) (by norm_num)]
    linarith
  have e2 := Real.exp_pos (-4)
  simp [eye] at hs
  norm_num at hs
  linarith

end Sparse

end Escnn
