import Verif.Lemmas.Orbit
import Verif.Lemmas.Expansion
import Verif.Spec.Kernels
import Verif.Spec.Invariants
import Verif.Props.C82_HomSpace

/-!
# C82: SparseOrbitBasis is steerable
-/

namespace Escnn

open NpMat

namespace Sparse

variable {G H Id Id' : Type} [DecidableEq Id] [DecidableEq Id'] {TG : IrrepTable G Id} {TH : IrrepTable H Id'} {typH : Id' → IrrType} {els : List G} {mulG : G → G → G}
  {invG : G → G} {oneG : G} {hels : List H} {mulH : H → H → H} {invH : H → H} {oneH : H} {parent : H → G} {child : G → Option H} {rhoH : Id → Rep H Id'}

omit [DecidableEq Id] in
theorem sparseJs_mem {mult ssc : Id → ℕ} : ∀ {L : List Id} {js : List (Id × ℕ)}, sparseJs TG mult ssc L = .ok js → ∀ e ∈ js, e.1 ∈ L ∧ TG.ok e.1 = true ∧
    dimensionBasis mult ssc e.1 = .ok e.2 ∧ 0 < e.2
  | [], js, h, e, he => by obtain rfl := Except.ok.inj h; simp at he
  | j :: L, js, h, e, he => by
    rw [sparseJs] at h
    split_ifs at h with hok
    obtain ⟨m, h1, h⟩ := bind_ok h
    obtain ⟨R, h2, h⟩ := bind_ok h
    obtain rfl := Except.ok.inj h
    have ih := sparseJs_mem h2
    split_ifs at he with hm
    · rcases List.mem_cons.1 he with rfl | he
      · exact ⟨by simp, by simpa using hok, h1, hm⟩
      · exact ⟨by simp [(ih e he).1], (ih e he).2⟩
    · exact ⟨by simp [(ih e he).1], (ih e he).2⟩

omit [DecidableEq Id] in
theorem sparseCheck_mem {kernel : Id → Except Err (List (NpMat ℝ))} : ∀ {js : List (Id × ℕ)}, sparseCheck kernel js = .ok () → ∀ e ∈ js, ∃ B, kernel e.1 = .ok B ∧ B.length = e.2
  | [], _, e, he => by simp at he
  | (j, m) :: L, h, e, he => by
    rw [sparseCheck] at h
    obtain ⟨B, h1, h⟩ := bind_ok h
    split_ifs at h with hl
    rcases List.mem_cons.1 he with rfl | he
    · exact ⟨B, h1, hl⟩
    · exact sparseCheck_mem h e he

/-- The entries of the sampled filters, if repeated irreps have the same multiplicity. -/
theorem sampleLoop_at {size : Id → ℕ} (b : Sparse Id) (x : ℕ → ℝ) (hd : ∀ e ∈ b.js, dimHarmonic size b.js e.1 = size e.1 * e.2) : ∀ (L : List (Id × ℕ)), (∀ e ∈ L, e ∈ b.js) →
    ∀ (k : ℕ) (j : Id) (m : ℕ), L[k]? = some (j, m) → ∀ i < m, ∀ c < size j, sampleLoop size b x (((L.take k).map fun e => size e.1 * e.2).sum + (i * size j + c)) L =
      ∑ p ∈ Finset.range b.n, b.harm j p i c * b.weight x p
  | [], _, k, j, m, h, _, _, _, _ => by simp at h
  | (j0, m0) :: L, hL, 0, j, m, h, i, hi, c, hc => by
    obtain ⟨rfl, rfl⟩ := Prod.mk.inj (Option.some.inj h)
    rw [sampleLoop, hd (j0, m0) (hL _ (by simp))]
    have hlt : i * size j0 + c < size j0 * m0 := by
      calc i * size j0 + c < i * size j0 + size j0 := by omega
        _ = size j0 * (i + 1) := by ring
        _ ≤ size j0 * m0 := Nat.mul_le_mul_left _ hi
    rw [List.take_zero, List.map_nil, List.sum_nil, zero_add, if_pos hlt]
    have h1 : (i * size j0 + c) / size j0 = i := by
      rw [Nat.mul_comm, Nat.mul_add_div (by omega), Nat.div_eq_of_lt hc, add_zero]
    have h2 : (i * size j0 + c) % size j0 = c := by
      rw [Nat.mul_comm, Nat.mul_add_mod, Nat.mod_eq_of_lt hc]
    rw [h1, h2]
  | (j0, m0) :: L, hL, k + 1, j, m, h, i, hi, c, hc => by
    rw [sampleLoop, hd (j0, m0) (hL _ (by simp)), List.take_succ_cons, List.map_cons, List.sum_cons, if_neg (by simp only; omega)]
    rw [show size (j0, m0).1 * (j0, m0).2 + ((L.take k).map fun e => size e.1 * e.2).sum + (i * size j + c) - size (j0, m0).1 * (j0, m0).2 =
      ((L.take k).map fun e => size e.1 * e.2).sum + (i * size j + c) by omega]
    exact sampleLoop_at b x hd L (fun e he => hL e (by simp [he])) k j m (by simpa using h) i hi c hc

/-- What a successful constructor of `SparseOrbitBasis` has checked. -/
structure Built (TG : IrrepTable G Id) (mult ssc : Id → ℕ) (kernel : Id → Except Err (List (NpMat ℝ))) (els : List G) (hels : List H) (parent : H → G) (rnd : ℝ → ℝ)
    (le : List ℝ → List ℝ → Bool) (action : Rep G Id) (root : List ℝ) (sigma : ℝ) (C : NpMat ℝ) (b : Sparse Id) : Prop where
  js : ∀ e ∈ b.js, TG.ok e.1 = true ∧ dimensionBasis mult ssc e.1 = .ok e.2 ∧ ∃ B, kernel e.1 = .ok B ∧ B.length = e.2
  rootLen : root.length = action.size
  fixed : ∀ h ∈ hels, ∀ a < action.size, root.getD a 0 = appVec (action.mat (parent h)) (fun a => root.getD a 0) a
  count : (uniqueIdx le (sparseKeys rnd action root els)).length * hels.length = els.length
  sigmaPos : 0 < sigma
  d : b.d = action.size
  n : b.n = (uniqueIdx le (sparseKeys rnd action root els)).length
  points : b.points = fun i => appVec C (sparsePoint action root els (uniqueIdx le (sparseKeys rnd action root els)) i)
  harm : b.harm = sparseHarm TG kernel els (uniqueIdx le (sparseKeys rnd action root els))
  sig : b.sigma = sigma

omit [DecidableEq Id] in
theorem init_ok {mult ssc : Id → ℕ} {kernel : Id → Except Err (List (NpMat ℝ))} {irreps : List Id} {order : Option (List G)} {rnd : ℝ → ℝ} {le : List ℝ → List ℝ → Bool}
    {action : Rep G Id} {root : List ℝ} {sigma : ℝ} {harmonics : Option (List Id)} {cob : Option (NpMat ℝ)} {b : Sparse Id}
    (h : sparseInit TG mult ssc kernel irreps order hels parent rnd le action root sigma harmonics cob = .ok b) :
    ∃ els C, order = some els ∧ els ≠ [] ∧ sparseCob action.size cob = .ok C ∧ Built TG mult ssc kernel els hels parent rnd le action root sigma C b := by
  unfold sparseInit at h
  split at h
  · cases h
  rename_i els
  by_cases h0 : els = []
  · rw [if_pos h0] at h; cases h
  rw [if_neg h0] at h
  obtain ⟨js, h1, h⟩ := bind_ok h
  split_ifs at h with h2 h3 h4 h5
  obtain ⟨_, h6, h⟩ := bind_ok h
  obtain ⟨C, h7, h⟩ := bind_ok h
  obtain rfl := Except.ok.inj h
  refine ⟨els, C, rfl, h0, h7, fun e he => ?_, not_not.1 h2, h3, not_not.1 h4, h5, rfl, rfl, rfl, rfl, rfl⟩
  obtain ⟨-, k1, k2, -⟩ := sparseJs_mem h1 e he
  exact ⟨k1, k2, sparseCheck_mem h6 e he⟩

section
variable {mult ssc : Id → ℕ} {kernel : Id → Except Err (List (NpMat ℝ))} {rnd : ℝ → ℝ} {le : List ℝ → List ℝ → Bool}
  {action : Rep G Id} {root : List ℝ} {sigma : ℝ} {C : NpMat ℝ} {b : Sparse Id}

/-- The elements whose points are kept. -/
def reps (oneG : G) (els : List G) (idx : List ℕ) : List G := idx.map fun i => els.getD i oneG

omit [DecidableEq Id] in
theorem key_at {i : ℕ} (hi : i < els.length) : (sparseKeys rnd action root els)[i]? =
    some ((List.range action.size).map fun a => rnd (appVec (action.mat (els.getD i oneG)) (fun a => root.getD a 0) a)) := by
  rw [sparseKeys, List.getElem?_map, List.getElem?_eq_getElem hi, List.getD_eq_getElem _ _ hi]; rfl

omit [DecidableEq Id] in
theorem reps_mem : ∀ r ∈ reps oneG els (uniqueIdx le (sparseKeys rnd action root els)), r ∈ els := by
  intro r hr
  obtain ⟨i, hi, rfl⟩ := List.mem_map.1 hr
  have := (mem_uniqueIdx.1 hi).1
  rw [sparseKeys, List.length_map] at this
  rw [List.getD_eq_getElem _ _ this]
  exact List.getElem_mem this

omit [DecidableEq Id] in
theorem coset_point (hI : Inclusion (· ∈ els) mulG invG oneG (· ∈ hels) mulH invH oneH parent child) (hact : LinRep (· ∈ els) mulG oneG action.size action.mat)
    (hfix : ∀ h ∈ hels, ∀ a < action.size, root.getD a 0 = appVec (action.mat (parent h)) (fun a => root.getD a 0) a) {r : G} (hr : r ∈ els) {h : H} (hh : h ∈ hels) {a : ℕ}
    (ha : a < action.size) : appVec (action.mat (mulG r (parent h))) (fun a => root.getD a 0) a = appVec (action.mat r) (fun a => root.getD a 0) a := by
  have hp := hI.mem h hh
  rw [appVec_congr (hact.map_mul r _ hr hp) _ (by rw [hact.rows _ (hI.groupG.mul_mem _ _ hr hp)]; exact ha), appVec_mul]
  exact appVec_congr_right _ (fun b hb => (hfix h hh b (by rwa [hact.cols r hr] at hb)).symm) a

omit [DecidableEq Id] in
theorem reps_pairwise (hI : Inclusion (· ∈ els) mulG invG oneG (· ∈ hels) mulH invH oneH parent child) (hact : LinRep (· ∈ els) mulG oneG action.size action.mat)
    (hfix : ∀ h ∈ hels, ∀ a < action.size, root.getD a 0 = appVec (action.mat (parent h)) (fun a => root.getD a 0) a) :
    (reps oneG els (uniqueIdx le (sparseKeys rnd action root els))).Pairwise fun a b => ¬ CosetRel mulG (· ∈ hels) parent a b := by
  rw [reps, List.pairwise_map]
  refine (List.Pairwise.and_mem.1 (uniqueIdx_nodup (le := le) (keys := sparseKeys rnd action root els))).imp ?_
  rintro i k ⟨hi, hk, hne⟩ ⟨h, hh, e⟩
  have li : i < els.length := by simpa [sparseKeys] using (mem_uniqueIdx.1 hi).1
  have lk : k < els.length := by simpa [sparseKeys] using (mem_uniqueIdx.1 hk).1
  refine hne (uniqueIdx_inj hi hk ?_)
  rw [key_at (oneG := oneG) li, key_at (oneG := oneG) lk, e]
  congr 1
  refine List.map_congr_left fun a ha => ?_
  rw [coset_point hI hact hfix (by rw [List.getD_eq_getElem _ _ li]; exact List.getElem_mem li) hh (List.mem_range.1 ha)]

omit [DecidableEq Id] in
theorem reps_at {idx : List ℕ} (hidx : ∀ i ∈ idx, i < els.length) {p : ℕ} (hp : p < idx.length) : (idx[p]?).bind (els[·]?) = some ((reps oneG els idx).getD p oneG) := by
  have h := hidx _ (List.getElem_mem hp)
  rw [List.getElem?_eq_getElem hp, Option.bind_some, List.getElem?_eq_getElem h, reps, List.getD_eq_getElem _ _ (by simpa using hp), List.getElem_map, List.getD_eq_getElem _ _ h]

/-- The value of the filter `(j, i, c)` at `x`: the sum over the cosets of the harmonic times the Gaussian centred at the point of the orbit. -/
theorem sample_at (hb : Built TG mult ssc kernel els hels parent rnd le action root sigma C b) {k : ℕ} {j : Id} {m : ℕ} (hk : b.js[k]? = some (j, m)) {i : ℕ} (hi : i < m) {c : ℕ}
    (hc : c < TG.size j) {B : List (NpMat ℝ)} (hB : kernel j = .ok B) {K : NpMat ℝ} (hK : B[i]? = some K) (oneG : G) (x : ℕ → ℝ) :
    b.sample TG.size x (((b.js.take k).map fun e => TG.size e.1 * e.2).sum + (i * TG.size j + c)) =
      ((reps oneG els (uniqueIdx le (sparseKeys rnd action root els))).map fun r => (mul (TG.mat j r) K).get c 0 *
        Real.exp (-(0.5 : ℝ) * ((∑ a ∈ Finset.range action.size, (appVec C (appVec (action.mat r) fun a => root.getD a 0) a - x a) ^ 2) / sigma ^ 2))).sum := by
  have hd : ∀ e ∈ b.js, dimHarmonic TG.size b.js e.1 = TG.size e.1 * e.2 := by
    intro e he
    obtain ⟨v, h1, h2⟩ := lookupLast_mem (List.mem_map.2 ⟨e, he, rfl⟩)
    have := Except.ok.inj ((hb.js _ h2).2.1.symm.trans (hb.js e he).2.1)
    rw [dimHarmonic, h1]; simpa using .inl this
  rw [sample, sampleLoop_at b x hd b.js (fun e he => he) k j m hk i hi c hc, sum_map_range _ oneG, reps, List.length_map, ← reps, ← hb.n]
  refine Finset.sum_congr rfl fun p hp => ?_
  rw [Finset.mem_range, hb.n] at hp
  have hidx : ∀ i ∈ uniqueIdx le (sparseKeys rnd action root els), i < els.length := fun i hi => by simpa [sparseKeys] using (mem_uniqueIdx.1 hi).1
  have ht := reps_at (oneG := oneG) hidx hp
  rw [weight, hb.harm, hb.points, hb.d, hb.sig]
  simp only [sparseHarm, sparsePoint, hB, ht, homBasis, List.getElem?_map, hK, Option.map_some]

/-- **C82** `SparseOrbitBasis` is steerable: whenever the constructor succeeds for a finite group and a subgroup, the filters of every harmonic `j` at the moved point are the matrix of
the irrep `j` times those at the original point.  The points are moved by `act'`, any orthogonal action which the change of basis `C` of the points carries `action` to; without a
change of basis it is `action` itself (`C82_sparse_default`). -/
theorem C82_sparse_steerable (hG : els.Nodup) (hH : hels.Nodup)
    (hD : InducedData TG TH typH (· ∈ els) mulG invG oneG (· ∈ hels) mulH invH oneH parent child rhoH) {triv : Id'} (htriv : TH.IsTrivial (· ∈ hels) triv)
    {sel : Id → List (NpMat ℝ) → Except Err (List (NpMat ℝ))} (hsel : ∀ i L L', sel i L = .ok L' → ∀ B ∈ L', B ∈ L)
    (hact : LinRep (· ∈ els) mulG oneG action.size action.mat) {irreps : List Id} {harmonics : Option (List Id)} {cob : Option (NpMat ℝ)}
    (h : sparseInit TG mult ssc (fun j => diracKernelFT TH typH triv (rhoH j) (sel j)) irreps (some els) hels parent rnd le action root sigma harmonics cob = .ok b)
    (hC : sparseCob action.size cob = .ok C) {act' : G → NpMat ℝ} (hrows : ∀ g ∈ els, (act' g).rows = action.size) (hortho : ∀ g ∈ els, IsOrtho (act' g))
    (hcarry : ∀ g ∈ els, mul (act' g) C ≈ mul C (action.mat g)) :
    (b.toFBasis TG.size).Steerable TG.size TG.mat (· ∈ els) (fun g => appVec (act' g)) := by
  obtain ⟨els', C', he, -, hC', hb⟩ := init_ok h
  obtain rfl := Option.some.inj he
  obtain rfl := Except.ok.inj (hC.symm.trans hC')
  have hCd : C.rows = action.size ∧ C.cols = action.size := by
    cases cob with
    | none => obtain rfl := Except.ok.inj hC; exact ⟨rfl, rfl⟩
    | some D =>
      rw [sparseCob] at hC
      split_ifs at hC with h1 h2
      obtain rfl := Except.ok.inj hC
      exact h1
  intro g hg x k j m hk i hi c hc
  obtain ⟨hok, -, B, hB, hlen⟩ := hb.js (j, m) (List.mem_of_getElem? hk)
  simp only at hok hB hlen
  obtain ⟨K, hK⟩ : ∃ K, B[i]? = some K := ⟨B[i]'(by omega), List.getElem?_eq_getElem _⟩
  obtain ⟨r1, r2, r3⟩ := hD.restr j hok
  obtain ⟨k1, k2, k3⟩ := dirac_intertwines hD.validH hD.endoH htriv.ok r1 (hsel j) hB (List.mem_of_getElem? hK)
  have v := hD.validG j hok
  have hKr : K.rows = TG.size j := k1.trans r2
  have hKc : K.cols = 1 := k2.trans htriv.size
  have hGp := hD.incl.groupG
  have matmul : ∀ a ∈ els, ∀ a' ∈ els, ∀ c < TG.size j, (mul (TG.mat j (mulG a a')) K).get c 0 = ∑ c' ∈ Finset.range (TG.size j), (TG.mat j a).get c c' * (mul (TG.mat j a') K).get c' 0 := by
    intro a ha a' ha' c hc
    have haa := hGp.mul_mem _ _ ha ha'
    have := ((mul_congr_left K (v.map_mul a a' ha ha') (by rw [v.cols _ haa, hKr])).trans (mul_assoc' _ _ _)).2.2 c 0 (by rw [mul_rows, v.rows _ haa]; exact hc) (by rw [mul_cols, hKc]; omega)
    rw [this]
    show ∑ c' ∈ Finset.range (TG.mat j a).cols, _ = _
    rw [v.cols a ha]
  let F (y : ℕ → ℝ) (c : ℕ) (r : G) : ℝ := (mul (TG.mat j r) K).get c 0 *
    Real.exp (-(0.5 : ℝ) * ((∑ a ∈ Finset.range action.size, (appVec C (appVec (action.mat r) fun a => root.getD a 0) a - y a) ^ 2) / sigma ^ 2))
  have hs : ∀ (y : ℕ → ℝ) (c : ℕ), c < TG.size j → b.sample TG.size y (((b.js.take k).map fun e => TG.size e.1 * e.2).sum + (i * TG.size j + c)) =
      ((reps oneG els (uniqueIdx le (sparseKeys rnd action root els))).map (F y c)).sum := fun y c hc => sample_at hb hk hi hc hB hK oneG y
  show b.sample TG.size (appVec (act' g) x) (((b.js.take k).map fun e => TG.size e.1 * e.2).sum + (i * TG.size j + c)) =
    ∑ c' ∈ Finset.range (TG.size j), (TG.mat j g).get c c' * b.sample TG.size x (((b.js.take k).map fun e => TG.size e.1 * e.2).sum + (i * TG.size j + c'))
  rw [hs _ c hc, Finset.sum_congr rfl fun c' hc' => by rw [hs x c' (Finset.mem_range.1 hc')]]
  have hcr : ∀ (y : ℕ → ℝ) (c : ℕ), c < TG.size j → ∀ a ∈ els, ∀ h ∈ hels, F y c (mulG a (parent h)) = F y c a := by
    intro y c hc a ha h hh
    have hp := hD.incl.mem h hh
    show _ * _ = _ * _
    congr 1
    · rw [matmul a ha _ hp c hc]
      show _ = ∑ c' ∈ Finset.range (TG.mat j a).cols, (TG.mat j a).get c c' * K.get c' 0
      rw [v.cols a ha]
      refine Finset.sum_congr rfl fun c' hc' => ?_
      have e1 := ((mul_congr_left K (r3 h hh).symm (by rw [v.cols _ hp, hKr])).trans (k3 h hh)).2.2 c' 0 (by rw [mul_rows, v.rows _ hp]; exact Finset.mem_range.1 hc') (by rw [mul_cols, hKc]; omega)
      rw [e1]
      show _ * ∑ t ∈ Finset.range K.cols, _ = _
      rw [hKc, Finset.sum_range_one, htriv.mat h hh, mul_one]
    · congr 3
      refine Finset.sum_congr rfl fun t ht => ?_
      congr 2
      exact appVec_congr_right _ (fun s hs => coset_point hD.incl hact hb.fixed ha hh (by rwa [hCd.2] at hs)) t
  rw [← orbit_sum hG hH hD.incl reps_mem (reps_pairwise hD.incl hact hb.fixed) (by rw [reps, List.length_map]; exact hb.count.symm) (hcr (appVec (act' g) x) c hc) hg]
  simp only [Finset.mul_sum, ← List.sum_map_mul_left]
  rw [sum_map_range _ oneG, Finset.sum_congr (s₂ := Finset.range (TG.size j)) rfl fun c' _ => by rw [sum_map_range _ oneG], Finset.sum_comm]
  refine Finset.sum_congr rfl fun p hp => ?_
  have hr : (reps oneG els (uniqueIdx le (sparseKeys rnd action root els))).getD p oneG ∈ els := by
    rw [List.getD_eq_getElem _ _ (Finset.mem_range.1 hp)]
    exact reps_mem _ (List.getElem_mem _)
  set r := (reps oneG els (uniqueIdx le (sparseKeys rnd action root els))).getD p oneG with hrdef
  show (mul (TG.mat j (mulG g r)) K).get c 0 * _ = _
  have hexp : ∑ a ∈ Finset.range action.size, (appVec C (appVec (action.mat (mulG g r)) fun a => root.getD a 0) a - appVec (act' g) x a) ^ 2 =
      ∑ a ∈ Finset.range action.size, (appVec C (appVec (action.mat r) fun a => root.getD a 0) a - x a) ^ 2 := by
    rw [← appVec_normSq (hortho g hg) (hrows g hg) fun a => appVec C (appVec (action.mat r) fun a => root.getD a 0) a - x a]
    refine Finset.sum_congr rfl fun a ha => ?_
    rw [← appVec_sub]
    congr 2
    have ha' := Finset.mem_range.1 ha
    rw [← appVec_mul (act' g) C, appVec_congr (hcarry g hg) _ (by rw [mul_rows, hrows g hg]; exact ha'), appVec_mul]
    refine appVec_congr_right _ (fun s hs => ?_) a
    rw [hCd.2] at hs
    rw [← appVec_mul (action.mat g) (action.mat r)]
    exact appVec_congr (hact.map_mul g r hg hr) _ (by rw [hact.rows _ (hGp.mul_mem _ _ hg hr)]; exact hs)
  rw [hexp, matmul g hg r hr c hc, Finset.sum_mul]
  exact Finset.sum_congr rfl fun c' _ => by rw [mul_assoc]

end

end Sparse

end Escnn
