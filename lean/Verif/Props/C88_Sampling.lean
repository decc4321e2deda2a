import Verif.Props.C88_GroupGrids
import Verif.Lemmas.CosSum

/-!
# C88: band limited functions on the regular grid of SO(2)
-/

namespace Escnn

open Real Finset NpMat

/-- The sum of the sines over the grid. -/
theorem sum_sin (N : ℕ) (hN : 0 < N) (m : ℤ) : ∑ e ∈ range N, sin (m * (e * (2 * π) / N)) = 0 := by
  have hN' : (N : ℝ) ≠ 0 := by positivity
  have hf : ∀ e ∈ range N, sin (m * (((N - 1 - e : ℕ) : ℝ) * (2 * π) / N)) = -sin (m * (((e + 1 : ℕ) : ℝ) * (2 * π) / N)) := fun e he => by
    have he := Finset.mem_range.1 he
    have : (m : ℝ) * (((N - 1 - e : ℕ) : ℝ) * (2 * π) / N) = -(m * (((e + 1 : ℕ) : ℝ) * (2 * π) / N)) + m * (2 * π) := by
      rw [show N - 1 - e = N - (e + 1) by omega, Nat.cast_sub (by omega)]
      field_simp; ring
    rw [this, sin_add_int_mul_two_pi, sin_neg]
  have h1 : ∑ e ∈ range N, sin (m * (e * (2 * π) / N)) = -∑ e ∈ range N, sin (m * (((e + 1 : ℕ) : ℝ) * (2 * π) / N)) := by
    rw [← Finset.sum_range_reflect, ← Finset.sum_neg_distrib]
    exact Finset.sum_congr rfl hf
  have h2 : ∑ e ∈ range N, sin (m * (((e + 1 : ℕ) : ℝ) * (2 * π) / N)) = ∑ e ∈ range N, sin (m * (e * (2 * π) / N)) := by
    have e1 := Finset.sum_range_succ (fun e : ℕ => sin (m * ((e : ℝ) * (2 * π) / N))) N
    have e2 := Finset.sum_range_succ' (fun e : ℕ => sin (m * ((e : ℝ) * (2 * π) / N))) N
    have h0 : sin (m * (((0 : ℕ) : ℝ) * (2 * π) / N)) = 0 := by simp
    have hN2 : sin (m * (((N : ℕ) : ℝ) * (2 * π) / N)) = 0 := by
      rw [mul_div_cancel_left₀ _ hN', show (m : ℝ) * (2 * π) = ((2 * m : ℤ) : ℝ) * π by push_cast; ring, sin_int_mul_pi]
    linarith
  linarith

/-- The functions which the irrep of frequency `l` contributes. -/
noncomputable def waves (l : ℕ) : List (ℝ → ℝ) := if l = 0 then [fun _ => 1] else [fun θ => √2 * cos (l * θ), fun θ => √2 * sin (l * θ)]

/-- The sum of the products over the grid. -/
noncomputable def gridInner (N : ℕ) (f g : ℝ → ℝ) : ℝ := ∑ e ∈ range N, f (e * (2 * π) / N) * g (e * (2 * π) / N)

theorem cos_cos_sum (N : ℕ) (hN : 0 < N) {k l : ℕ} (hkl : k + l < N) (h0 : 0 < k + l) : gridInner N (fun θ => cos (k * θ)) (fun θ => cos (l * θ)) = if k = l then (N : ℝ) / 2 else 0 := by
  have e1 : ∀ e ∈ range N, cos (k * (e * (2 * π) / N)) * cos (l * (e * (2 * π) / N)) = (cos (((k - l : ℤ) : ℝ) * (e * (2 * π) / N)) + cos (((k + l : ℤ) : ℝ) * (e * (2 * π) / N))) / 2 := fun e _ => by
    push_cast; rw [sub_mul, add_mul, Real.cos_sub, Real.cos_add]; ring
  rw [gridInner, Finset.sum_congr rfl e1, ← Finset.sum_div, Finset.sum_add_distrib, sum_cos N hN, sum_cos N hN, if_neg (c := (N : ℤ) ∣ (k : ℤ) + l) (fun h => by have := Int.le_of_dvd (by omega) h; omega)]
  by_cases h : k = l
  · subst h; simp
  · rw [if_neg h, if_neg]
    · simp
    · intro hd
      have := Int.eq_zero_of_abs_lt_dvd hd (abs_lt.2 ⟨by omega, by omega⟩)
      omega

theorem sin_sin_sum (N : ℕ) (hN : 0 < N) {k l : ℕ} (hkl : k + l < N) (h0 : 0 < k + l) : gridInner N (fun θ => sin (k * θ)) (fun θ => sin (l * θ)) = if k = l then (N : ℝ) / 2 else 0 := by
  have e1 : ∀ e ∈ range N, sin (k * (e * (2 * π) / N)) * sin (l * (e * (2 * π) / N)) = (cos (((k - l : ℤ) : ℝ) * (e * (2 * π) / N)) - cos (((k + l : ℤ) : ℝ) * (e * (2 * π) / N))) / 2 := fun e _ => by
    push_cast; rw [sub_mul, add_mul, Real.cos_sub, Real.cos_add]; ring
  rw [gridInner, Finset.sum_congr rfl e1, ← Finset.sum_div, Finset.sum_sub_distrib, sum_cos N hN, sum_cos N hN, if_neg (c := (N : ℤ) ∣ (k : ℤ) + l) (fun h => by have := Int.le_of_dvd (by omega) h; omega)]
  by_cases h : k = l
  · subst h; simp
  · rw [if_neg h, if_neg]
    · simp
    · intro hd
      have := Int.eq_zero_of_abs_lt_dvd hd (abs_lt.2 ⟨by omega, by omega⟩)
      omega

theorem cos_sin_sum (N : ℕ) (hN : 0 < N) (k l : ℕ) : gridInner N (fun θ => cos (k * θ)) (fun θ => sin (l * θ)) = 0 := by
  have e1 : ∀ e ∈ range N, cos (k * (e * (2 * π) / N)) * sin (l * (e * (2 * π) / N)) = (sin (((l + k : ℤ) : ℝ) * (e * (2 * π) / N)) + sin (((l - k : ℤ) : ℝ) * (e * (2 * π) / N))) / 2 := fun e _ => by
    push_cast; rw [sub_mul, add_mul, Real.sin_sub, Real.sin_add]; ring
  rw [gridInner, Finset.sum_congr rfl e1, ← Finset.sum_div, Finset.sum_add_distrib, sum_sin N hN, sum_sin N hN]; simp

theorem gridInner_comm (N : ℕ) (f g : ℝ → ℝ) : gridInner N f g = gridInner N g f := Finset.sum_congr rfl fun _ _ => mul_comm _ _

theorem gridInner_smul (N : ℕ) (a b : ℝ) (f g : ℝ → ℝ) : gridInner N (fun θ => a * f θ) (fun θ => b * g θ) = a * b * gridInner N f g := by
  rw [gridInner, gridInner, Finset.mul_sum]
  exact Finset.sum_congr rfl fun _ _ => by ring

/-- **C88** The matrix entries of the irreps of frequencies below `N / 2` are orthogonal on the regular grid with `N` elements, and all have the same norm: such functions are determined by their samples. -/
theorem C88_quadrature {N : ℕ} (hN : 0 < N) {k l : ℕ} (hk : 2 * k < N) (hl : 2 * l < N) :
    (k ≠ l → ∀ f ∈ waves k, ∀ g ∈ waves l, gridInner N f g = 0) ∧ (waves l).Pairwise (fun f g => gridInner N f g = 0) ∧ ∀ f ∈ waves l, gridInner N f f = N := by
  have h1 : (fun _ : ℝ => (1 : ℝ)) = fun θ => 1 * cos ((0 : ℕ) * θ) := by funext θ; simp
  have hs2 : √2 * √2 = (2 : ℝ) := mul_self_sqrt (by norm_num)
  refine ⟨fun hne f hf g hg => ?_, ?_, fun f hf => ?_⟩
  · unfold waves at hf hg
    split_ifs at hf hg with a b b
    · omega
    · obtain rfl := List.mem_singleton.1 hf
      rw [h1]
      rcases List.mem_cons.1 hg with rfl | hg
      · rw [gridInner_smul, cos_cos_sum N hN (by omega) (by omega), if_neg (by omega), mul_zero]
      · rw [List.mem_singleton.1 hg, gridInner_smul, cos_sin_sum N hN, mul_zero]
    · obtain rfl := List.mem_singleton.1 hg
      rw [h1]
      rcases List.mem_cons.1 hf with rfl | hf
      · rw [gridInner_smul, cos_cos_sum N hN (by omega) (by omega), if_neg (by omega), mul_zero]
      · rw [List.mem_singleton.1 hf, gridInner_smul, gridInner_comm, cos_sin_sum N hN, mul_zero]
    · rcases List.mem_cons.1 hf with rfl | hf <;> rcases List.mem_cons.1 hg with rfl | hg
      · rw [gridInner_smul, cos_cos_sum N hN (by omega) (by omega), if_neg hne, mul_zero]
      · rw [List.mem_singleton.1 hg, gridInner_smul, cos_sin_sum N hN, mul_zero]
      · rw [List.mem_singleton.1 hf, gridInner_smul, gridInner_comm, cos_sin_sum N hN, mul_zero]
      · rw [List.mem_singleton.1 hf, List.mem_singleton.1 hg, gridInner_smul, sin_sin_sum N hN (by omega) (by omega), if_neg hne, mul_zero]
  · unfold waves
    split_ifs with a
    · simp
    · refine List.pairwise_cons.2 ⟨fun g hg => ?_, by simp⟩
      rw [List.mem_singleton.1 hg, gridInner_smul, cos_sin_sum N hN, mul_zero]
  · unfold waves at hf
    split_ifs at hf with a
    · rw [List.mem_singleton.1 hf]; simp [gridInner]
    · rcases List.mem_cons.1 hf with rfl | hf
      · rw [gridInner_smul, cos_cos_sum N hN (by omega) (by omega), if_pos rfl, hs2]; ring
      · rw [List.mem_singleton.1 hf, gridInner_smul, sin_sin_sum N hN (by omega) (by omega), if_pos rfl, hs2]; ring

/-- All the functions of a list of irreps. -/
theorem waves_pairwise {N : ℕ} (hN : 0 < N) {L : List ℕ} (hnd : L.Nodup) (hL : ∀ l ∈ L, 2 * l < N) : (L.flatMap waves).Pairwise (fun f g => gridInner N f g = 0) := by
  rw [List.pairwise_flatMap]
  refine ⟨fun l hl => (C88_quadrature hN (hL l hl) (hL l hl)).2.1, ?_⟩
  refine hnd.imp_of_mem fun {a b} ha hb hne f hf g hg => (C88_quadrature hN (hL a ha) (hL b hb)).1 hne f hf g hg

/-- `sum_of_squares_constituents` of the irreps of SO(2). -/
def so2ssc (k : ℕ) : ℕ := (SO2.irrepType k).sumsq

theorem so2ssc_eq (k : ℕ) : so2ssc k = SO2.table.size k := by
  unfold so2ssc SO2.irrepType
  show _ = SO2.irrepSize k
  unfold SO2.irrepSize
  split_ifs <;> rfl

theorem so2_size_pos (k : ℕ) : 0 < SO2.table.size k := by
  show 0 < SO2.irrepSize k
  unfold SO2.irrepSize
  split_ifs <;> norm_num

theorem so2_ids (L : List ℕ) : spectralIds SO2.table.size so2ssc L = .ok L := by
  induction L with
  | nil => rfl
  | cons k L ih =>
    rw [spectralIds, dimensionBasis, so2ssc_eq, if_pos (dvd_refl _), ih, Nat.div_self (so2_size_pos k)]
    rfl

/-- The kernel of one irrep. -/
noncomputable def so2Kernel (k : ℕ) : List ℝ := if k = 0 then [1] else [√2, 0]

theorem so2_kernel (k : ℕ) : flatCols (regularKernel SO2.table so2ssc SO2.identity k) = so2Kernel k := by
  unfold flatCols regularKernel so2Kernel
  have hs : SO2.table.size k / so2ssc k = 1 := by rw [so2ssc_eq]; exact Nat.div_self (so2_size_pos k)
  simp only [hs]
  show (List.range (min 1 (SO2.irrepMat k 0).cols)).flatMap (fun a => (List.range (SO2.irrepMat k 0).rows).map fun i => (SO2.irrepMat k 0).get i a * √(SO2.irrepSize k : ℕ)) = _
  by_cases h : k = 0
  · simp [SO2.irrepMat, SO2.irrepSize, h, eye]
  · simp [SO2.irrepMat, SO2.irrepSize, h, psi, of2, List.range_succ]

theorem waves_length (k : ℕ) : (waves k).length = SO2.table.size k := by
  show _ = SO2.irrepSize k
  unfold waves SO2.irrepSize
  split_ifs <;> rfl

/-- The samples of the functions of a list of irreps. -/
theorem so2_row (g : ℝ) (L : List ℕ) (f : ℕ) (hf : f < (blockDiag (L.map fun k => SO2.table.mat k g)).rows) :
    ∑ j ∈ range (blockDiag (L.map fun k => SO2.table.mat k g)).cols, (blockDiag (L.map fun k => SO2.table.mat k g)).get f j * (L.flatMap so2Kernel).getD j 0 = ((L.flatMap waves).map fun w => w g).getD f 0 := by
  induction L generalizing f with
  | nil => simp [blockDiag, zeros] at hf
  | cons k L ih =>
    simp only [List.map_cons, blockDiag, diag2_rows, diag2_cols, List.flatMap_cons] at hf ⊢
    set B := blockDiag (L.map fun k => SO2.table.mat k g)
    have hM : SO2.table.mat k g = SO2.irrepMat k g := rfl
    rw [hM] at hf ⊢
    by_cases h : k = 0
    · have e1 : SO2.irrepMat k g = eye 1 := by simp [SO2.irrepMat, h]
      have e2 : so2Kernel k = [1] := by simp [so2Kernel, h]
      have e3 : waves k = [fun _ => 1] := by simp [waves, h]
      rw [e1, eye_rows] at hf
      rw [e1, e2, e3]
      simp only [eye_cols]
      rw [Finset.sum_range_add]
      rcases Nat.eq_zero_or_pos f with rfl | h0
      · have : ∀ x ∈ range B.cols, (diag2 (eye 1) B).get 0 (1 + x) * (([1] : List ℝ) ++ L.flatMap so2Kernel).getD (1 + x) 0 = 0 := fun x _ => by simp [diag2]
        rw [Finset.sum_eq_zero this]
        simp [diag2, eye]
      · obtain ⟨f, rfl⟩ : ∃ f', f = f' + 1 := ⟨f - 1, by omega⟩
        have : ∀ x ∈ range B.cols, (diag2 (eye 1) B).get (f + 1) (1 + x) * (([1] : List ℝ) ++ L.flatMap so2Kernel).getD (1 + x) 0 = B.get f x * (L.flatMap so2Kernel).getD x 0 := fun x _ => by
          simp [diag2, Nat.add_comm 1 x]
        rw [Finset.sum_congr rfl this, ih f (by omega)]
        simp [diag2]
    · have e1 : SO2.irrepMat k g = psi g k := by simp [SO2.irrepMat, h]
      have e2 : so2Kernel k = [√2, 0] := by simp [so2Kernel, h]
      have e3 : waves k = [fun θ => √2 * cos (k * θ), fun θ => √2 * sin (k * θ)] := by simp [waves, h]
      have hr : (psi g k).rows = 2 := rfl
      have hc : (psi g k).cols = 2 := rfl
      rw [e1, hr] at hf
      rw [e1, e2, e3, hc, Finset.sum_range_add]
      rcases Nat.lt_or_ge f 2 with h0 | h0
      · have : ∀ x ∈ range B.cols, (diag2 (psi g k) B).get f (2 + x) * (([√2, 0] : List ℝ) ++ L.flatMap so2Kernel).getD (2 + x) 0 = 0 := fun x _ => by simp only [diag2, hr, hc]; rw [if_pos h0, if_neg (by omega), zero_mul]
        rw [Finset.sum_eq_zero this]
        interval_cases f <;> simp [diag2, hr, hc, Finset.sum_range_succ, psi, of2, mul_comm]
      · obtain ⟨f, rfl⟩ : ∃ f', f = f' + 2 := ⟨f - 2, by omega⟩
        have : ∀ x ∈ range B.cols, (diag2 (psi g k) B).get (f + 2) (2 + x) * (([√2, 0] : List ℝ) ++ L.flatMap so2Kernel).getD (2 + x) 0 = B.get f x * (L.flatMap so2Kernel).getD x 0 := fun x _ => by
          simp [diag2, hr, hc, Nat.add_comm 2 x]
        rw [Finset.sum_congr rfl this, ih f (by omega)]
        simp [diag2, hr, hc, Finset.sum_range_succ]

theorem so2_kernel_sq (L : List ℕ) : ((L.flatMap so2Kernel).map fun b : ℝ => b ^ 2).sum = ((L.flatMap waves).length : ℝ) := by
  induction L with
  | nil => simp
  | cons k L ih =>
    rw [List.flatMap_cons, List.map_append, List.sum_append, ih, List.flatMap_cons, List.length_append]
    unfold so2Kernel waves
    split_ifs <;> simp

namespace Fourier

variable {S B P C : Type}

/-- The entries of the sampling matrix: the functions of the irreps at the elements of the grid, divided by the norm of the kernel if `normalize` is set. -/
theorem so2_sampling {N : ℕ} (hN : 0 < N) {grid : List ℝ} (hgrid : SO2.grid N .regular = .ok grid) {nameOf : List ℕ → String} {order : List ℕ → List ℕ} {space : S} {channels : ℕ} {irreps : List ℕ} {function : String}
    {normalize : Bool} {m : Fourier S ℝ ℕ} (hm : initRegular SO2.table so2ssc SO2.identity nameOf order space channels irreps grid function none normalize = .ok m) :
    ∃ s : ℝ, 0 < s ∧ s ^ 2 = (if normalize then 1 / ((irreps.flatMap waves).length : ℝ) else 1) ∧ m.rho.size = (irreps.flatMap waves).length ∧ m.A.rows = N ∧ m.A.cols = m.rho.size ∧
      ∀ i < N, ∀ f < m.rho.size, ∃ w, (irreps.flatMap waves)[f]? = some w ∧ m.A.get i f = s * w (i * (2 * π) / N) := by
  obtain ⟨rho, Nm, h1, h2, rfl, h4, h5, h6, h7, h8, h9⟩ := init_none hm
  obtain ⟨L, hL, hlen, hel, hG, hLeq, -⟩ := C88_so2 hN
  obtain rfl := Except.ok.inj (hL.symm.trans hgrid)
  have hT : SO2.table.Valid SO2.IsElement SO2.combine SO2.identity := SO2.table_valid
  obtain ⟨ids, e1, hs, e2⟩ := spectralRep_ok hT h1
  obtain rfl := Except.ok.inj (e1.symm.trans (so2_ids irreps))
  have hK : buildKernel (regularKernel SO2.table so2ssc SO2.identity) ids = ids.flatMap so2Kernel := by
    unfold buildKernel
    exact List.flatMap_congr fun k _ => so2_kernel k
  have hsize : m.rho.size = (ids.flatMap waves).length := by
    rw [← hs.wf.size, e2, List.length_flatMap]
    simp only [waves_length]
  have hsq := so2_kernel_sq ids
  have hpos : (0 : ℝ) < (ids.flatMap waves).length := by
    rw [← hsize]; exact_mod_cast hs.wf.pos
  obtain ⟨s, hs0, hs2, hnk⟩ : ∃ s : ℝ, 0 < s ∧ s ^ 2 = (if normalize then 1 / ((ids.flatMap waves).length : ℝ) else 1) ∧ ∀ j, (normalizeKernel normalize (ids.flatMap so2Kernel)).getD j 0 = s * (ids.flatMap so2Kernel).getD j 0 := by
    cases normalize with
    | false => exact ⟨1, one_pos, by simp, fun j => by simp [normalizeKernel]⟩
    | true =>
      refine ⟨1 / √((ids.flatMap waves).length), by positivity, by rw [div_pow, one_pow, sq_sqrt hpos.le, if_pos rfl], fun j => ?_⟩
      rw [normalizeKernel, if_pos rfl, hsq]
      simp only [List.getD_eq_getElem?_getD, List.getElem?_map]
      cases (ids.flatMap so2Kernel)[j]? with
      | none => simp
      | some a => simp; ring
  refine ⟨s, hs0, hs2, hsize, by rw [h8]; exact hlen, by rw [h8]; rfl, fun i hi f hf => ?_⟩
  have hfl : f < (ids.flatMap waves).length := hsize ▸ hf
  refine ⟨_, List.getElem?_eq_getElem hfl, ?_⟩
  have hgi : (L)[i]? = some (mod2pi ((i : ℝ) * 2 * π / N)) := by
    have := Except.ok.inj hL
    rw [← this, List.getElem?_map, List.getElem?_range hi]; rfl
  set g := mod2pi ((i : ℝ) * 2 * π / N) with hg
  have hgel : SO2.IsElement g := ⟨mod2pi_nonneg _, mod2pi_lt _⟩
  have hmat := hs.wf.mat_eye hT hs.cob hgel
  rw [e2] at hmat
  have hrows : (blockDiag (ids.map fun k => SO2.table.mat k g)).rows = m.rho.size := by rw [← hmat.1, hs.wf.rows hgel]
  rw [h8, hK]
  simp only [samplingMatrix, hgi]
  have hrow := so2_row g ids f (by rw [hrows]; exact hf)
  have : ∀ j ∈ range (m.rho.mat g).cols, (m.rho.mat g).get f j * (normalizeKernel normalize (ids.flatMap so2Kernel)).getD j 0 = s * ((blockDiag (ids.map fun k => SO2.table.mat k g)).get f j * (ids.flatMap so2Kernel).getD j 0) := fun j hj => by
    rw [hnk, hmat.2.2 f j (by rw [hs.wf.rows hgel]; exact hf) (Finset.mem_range.1 hj)]; ring
  rw [Finset.sum_congr rfl this, ← Finset.mul_sum, hmat.2.1, hrow]
  congr 1
  simp only [List.getD_eq_getElem?_getD, List.getElem?_map, List.getElem?_eq_getElem hfl, Option.map_some, Option.getD_some]
  have hw : ∀ w ∈ ids.flatMap waves, ∀ x, w (mod2pi x) = w x := fun w hw x => by
    obtain ⟨k, -, hw⟩ := List.mem_flatMap.1 hw
    unfold waves at hw
    split_ifs at hw
    · rw [List.mem_singleton.1 hw]
    · rcases List.mem_cons.1 hw with rfl | hw
      · simp only [cos_nat_mul_mod2pi]
      · rw [List.mem_singleton.1 hw]; simp only [sin_nat_mul_mod2pi]
  rw [hg, hw _ (List.getElem_mem hfl)]
  congr 1; ring

/-- **C88** The samples of a band limited function on the regular grid determine it: for frequencies below `N / 2`, the module with the identity as function multiplies every channel by `c / (c + 1e-8)`, where `c` is the number of
samples (divided by the number of functions if `normalize` is set). -/
theorem C88_sampling {N : ℕ} (hN : 0 < N) {grid : List ℝ} (hgrid : SO2.grid N .regular = .ok grid) {nameOf : List ℕ → String} {order : List ℕ → List ℕ} {space : S} {channels : ℕ} {irreps : List ℕ} {function : String}
    {normalize : Bool} {m : Fourier S ℝ ℕ} (hnd : irreps.Nodup) (hband : ∀ l ∈ irreps, 2 * l < N)
    (hm : initRegular SO2.table so2ssc SO2.identity nameOf order space channels irreps grid function none normalize = .ok m) :
    ∃ c : ℝ, c = (if normalize then (N : ℝ) / m.rho.size else N) ∧ ∀ x : GTensor B P S (Rep ℝ ℕ) C, x.type = m.inType → x.tensor.chans = m.inType.size Rep.size →
      ∃ y, forward { m with function := id } x = .ok y ∧ y.type = x.type ∧ y.tensor.chans = x.tensor.chans ∧ ∀ b p, ∀ k < x.tensor.chans, y.tensor.get b k p = c / (c + 1 / 100000000) * x.tensor.get b k p := by
  obtain ⟨s, hs0, hs2, hsize, hrows, hcols, hA⟩ := so2_sampling hN hgrid hm
  obtain ⟨rho, Nm, h1, h2, rfl, h4, h5, h6, h7, h8, h9⟩ := init_none hm
  have hglen : grid.length = N := by rw [← hrows, h8]; rfl
  have hNr : (0 : ℝ) < N := by exact_mod_cast hN
  obtain ⟨ext, K, K', N', Q, F⟩ := init_facts (El := SO2.IsElement) SO2.table_valid ⟨le_rfl, two_pi_pos⟩ hm
  have hd : 0 < m.rho.size := F.rho.wf.pos
  refine ⟨s ^ 2 * N, ?_, fun x hx hc => ?_⟩
  · rw [hs2, hsize]; split_ifs <;> ring
  set c := s ^ 2 * (N : ℝ) with hc'
  have hcpos : 0 < c := by positivity
  -- the columns of the sampling matrix are orthogonal
  have horth : ∀ f < m.rho.size, ∀ f' < m.rho.size, ∑ i ∈ range N, m.A.get i f * m.A.get i f' = if f = f' then c else 0 := fun f hf f' hf' => by
    have hw : ∀ f < m.rho.size, ∃ w, (irreps.flatMap waves)[f]? = some w ∧ ∀ i < N, m.A.get i f = s * w (i * (2 * π) / N) := fun f hf => by
      obtain ⟨w, hw, -⟩ := hA 0 hN f hf
      refine ⟨w, hw, fun i hi => ?_⟩
      obtain ⟨w', hw', e⟩ := hA i hi f hf
      obtain rfl := Option.some.inj (hw.symm.trans hw')
      exact e
    obtain ⟨w, hw1, e1⟩ := hw f hf
    obtain ⟨w', hw1', e1'⟩ := hw f' hf'
    have : ∑ i ∈ range N, m.A.get i f * m.A.get i f' = s ^ 2 * gridInner N w w' := by
      rw [gridInner, Finset.mul_sum]
      refine Finset.sum_congr rfl fun i hi => ?_
      rw [e1 i (Finset.mem_range.1 hi), e1' i (Finset.mem_range.1 hi)]; ring
    rw [this]
    have hp := List.pairwise_iff_getElem.1 (waves_pairwise hN hnd hband)
    obtain ⟨hf1, rfl⟩ := List.getElem?_eq_some_iff.1 hw1
    obtain ⟨hf1', rfl⟩ := List.getElem?_eq_some_iff.1 hw1'
    rcases lt_trichotomy f f' with h | h | h
    · rw [if_neg h.ne, hp f f' hf1 hf1' h, mul_zero]
    · subst h
      rw [if_pos rfl]
      obtain ⟨k, hk, hmem⟩ := List.mem_flatMap.1 (List.getElem_mem hf1)
      rw [(C88_quadrature hN (hband k hk) (hband k hk)).2.2 _ hmem]
    · rw [if_neg h.ne', gridInner_comm, hp f' f hf1' hf1 h, mul_zero]
  -- the inverse of the normal matrix
  have hinv := npInv_ok h2
  rw [← h8, h4.symm.trans h4] at hinv
  have hnorm : ∀ f < m.rho.size, ∀ f' < m.rho.size, (normalMatrix m.A m.rho.size).get f f' = if f = f' then c + 1 / 100000000 else 0 := fun f hf f' hf' => by
    show (mul (transpose m.A) m.A).get f f' + 1 / 100000000 * (eye m.rho.size : NpMat ℝ).get f f' = _
    have e : (mul (transpose m.A) m.A).get f f' = ∑ i ∈ range N, m.A.get i f * m.A.get i f' := by
      show ∑ i ∈ range (transpose m.A).cols, _ = _
      rw [show (transpose m.A).cols = N from hrows]; rfl
    rw [e, horth f hf f' hf']
    simp only [eye]
    split_ifs <;> simp
  have hNmrows : Nm.rows = m.rho.size := by rw [hinv.2.1]; exact hcols
  have hNmcols : Nm.cols = m.rho.size := by rw [hinv.2.2.1]; exact hcols
  have hNm : ∀ f < m.rho.size, ∀ f' < m.rho.size, Nm.get f f' = if f = f' then 1 / (c + 1 / 100000000) else 0 := fun f hf f' hf' => by
    have h := hinv.2.2.2.2.2.2 f f' (by show f < Nm.rows; rw [hNmrows]; exact hf) (by show f' < m.A.cols; rw [hcols]; exact hf')
    have e : (mul Nm (normalMatrix m.A m.rho.size)).get f f' = Nm.get f f' * (c + 1 / 100000000) := by
      show ∑ j ∈ range Nm.cols, Nm.get f j * (normalMatrix m.A m.rho.size).get j f' = _
      rw [hNmcols, Finset.sum_eq_single_of_mem f' (Finset.mem_range.2 hf') fun j hj hne => by rw [hnorm j (Finset.mem_range.1 hj) f' hf', if_neg hne, mul_zero], hnorm f' hf' f' hf', if_pos rfl]
    rw [e] at h
    have hcne : c + 1 / 100000000 ≠ 0 := by positivity
    rw [eq_div_iff hcne |>.2 h]
    simp only [eye]
    split_ifs <;> simp
  have hAinv : ∀ o < m.rho.size, ∀ g < N, m.Ainv.get o g = 1 / (c + 1 / 100000000) * m.A.get g o := fun o ho g hg => by
    rw [h9]
    show ∑ j ∈ range Nm.cols, Nm.get o j * m.A.get g j = _
    rw [hNmcols, Finset.sum_eq_single_of_mem o (Finset.mem_range.2 ho) fun j hj hne => by rw [hNm o ho j (Finset.mem_range.1 hj), if_neg (Ne.symm hne), zero_mul], hNm o ho o ho, if_pos rfl]
  obtain ⟨y, hy, ht, -, hch, hval⟩ := forward_spec F id x hx hc
  have htype : m.outType = m.inType := by rw [h6, h5]
  refine ⟨y, hy, by rw [ht, htype, hx], by rw [hch, htype, hc], fun b p k hk => ?_⟩
  have hchans : x.tensor.chans = channels * m.rho.size := by rw [hc, FType.size_eq, h5]; simp
  have hq : k / m.rho.size < channels := by rw [Nat.div_lt_iff_lt_mul hd]; omega
  have hr : k % m.rho.size < m.rho.size := Nat.mod_lt _ hd
  have hv := hval (k / m.rho.size) m.rho (by rw [h6]; simp [List.getElem?_replicate, hq]) (k % m.rho.size) hr b p
  rw [chanOffset_replicate Rep.size (r := m.rho) (fun r hr => by rw [h6] at hr; exact List.eq_of_mem_replicate hr) (by rw [h6]; simp; omega), Nat.div_add_mod'] at hv
  rw [hv, hglen]
  set q := k / m.rho.size
  have e1 : ∀ g ∈ range N, id (∑ f ∈ range m.rho.size, x.tensor.get b (q * m.rho.size + f) p * m.A.get g f) * m.Ainv.get (k % m.rho.size) g =
      1 / (c + 1 / 100000000) * ∑ f ∈ range m.rho.size, x.tensor.get b (q * m.rho.size + f) p * (m.A.get g f * m.A.get g (k % m.rho.size)) := fun g hg => by
    rw [hAinv _ hr g (Finset.mem_range.1 hg), id, Finset.sum_mul, Finset.mul_sum]
    exact Finset.sum_congr rfl fun f _ => by ring
  rw [Finset.sum_congr rfl e1, ← Finset.mul_sum, Finset.sum_comm]
  have e2 : ∀ f ∈ range m.rho.size, ∑ g ∈ range N, x.tensor.get b (q * m.rho.size + f) p * (m.A.get g f * m.A.get g (k % m.rho.size)) = if f = k % m.rho.size then x.tensor.get b (q * m.rho.size + f) p * c else 0 := fun f hf => by
    rw [← Finset.mul_sum, horth f (Finset.mem_range.1 hf) _ hr]
    split_ifs <;> simp
  rw [Finset.sum_congr rfl e2, Finset.sum_ite_eq' (range m.rho.size), if_pos (Finset.mem_range.2 hr), Nat.div_add_mod']
  ring

/-- **C88** The bound on the frequency is sharp: on the grid with `2 l` elements the samples do not depend on the second component of the irrep of frequency `l`, so that the output does not depend on it, whatever function is applied. -/
theorem C88_aliasing {l : ℕ} (hl : 0 < l) {grid : List ℝ} (hgrid : SO2.grid (2 * l) .regular = .ok grid) {nameOf : List ℕ → String} {order : List ℕ → List ℕ} {space : S} {channels : ℕ} {function : String}
    {normalize : Bool} {m : Fourier S ℝ ℕ} (hm : initRegular SO2.table so2ssc SO2.identity nameOf order space channels [l] grid function none normalize = .ok m) (φ : ℝ → ℝ)
    {x x' : GTensor B P S (Rep ℝ ℕ) C} (hx : x.type = m.inType) (hc : x.tensor.chans = m.inType.size Rep.size) (hx' : x'.type = m.inType) (hc' : x'.tensor.chans = m.inType.size Rep.size)
    (hsame : ∀ b p k, x.tensor.get b (2 * k) p = x'.tensor.get b (2 * k) p) :
    ∃ y y', forward { m with function := φ } x = .ok y ∧ forward { m with function := φ } x' = .ok y' ∧ ∀ b p, ∀ k < y.tensor.chans, y.tensor.get b k p = y'.tensor.get b k p := by
  have hN : 0 < 2 * l := by omega
  obtain ⟨s, -, -, hsize, hrows, -, hA⟩ := so2_sampling hN hgrid hm
  have hw : [l].flatMap waves = [fun θ => √2 * cos (l * θ), fun θ => √2 * sin (l * θ)] := by simp [waves, hl.ne']
  rw [hw] at hsize hA
  have hsize : m.rho.size = 2 := hsize
  have hglen : grid.length = 2 * l := by
    obtain ⟨L, hL, hlen, -⟩ := C88_so2 hN
    rw [← hlen, Except.ok.inj (hL.symm.trans hgrid)]
  have hA1 : ∀ i < 2 * l, m.A.get i 1 = 0 := fun i hi => by
    obtain ⟨w, hw, e⟩ := hA i hi 1 (by rw [hsize]; norm_num)
    obtain rfl := Option.some.inj hw
    have hlr : (l : ℝ) ≠ 0 := by exact_mod_cast hl.ne'
    have h1 : (l : ℝ) * ((i : ℝ) * (2 * π) / ((2 * l : ℕ) : ℝ)) = i * π := by push_cast; field_simp
    rw [e]
    show s * (√2 * sin (l * _)) = 0
    rw [h1, sin_nat_mul_pi, mul_zero, mul_zero]
  obtain ⟨rho, Nm, h1, h2, rfl, h4, h5, h6, h7, h8, h9⟩ := init_none hm
  obtain ⟨ext, K, K', N', Q, F⟩ := init_facts (El := SO2.IsElement) SO2.table_valid ⟨le_rfl, two_pi_pos⟩ hm
  obtain ⟨y, hy, -, -, hch, hval⟩ := forward_spec F φ x hx hc
  obtain ⟨y', hy', -, -, -, hval'⟩ := forward_spec F φ x' hx' hc'
  refine ⟨y, y', hy, hy', fun b p k hk => ?_⟩
  have hchans : y.tensor.chans = channels * 2 := by rw [hch, FType.size_eq, h6]; simp [hsize]
  have hq : k / 2 < channels := by omega
  have hr : k % 2 < m.rho.size := by rw [hsize]; omega
  have hk' : m.outType.reprs[k / 2]? = some m.rho := by rw [h6]; simp [List.getElem?_replicate, hq]
  have hv := hval (k / 2) m.rho hk' (k % 2) hr b p
  have hv' := hval' (k / 2) m.rho hk' (k % 2) hr b p
  rw [chanOffset_replicate Rep.size (r := m.rho) (fun r hr => by rw [h6] at hr; exact List.eq_of_mem_replicate hr) (by rw [h6]; simp; omega), hsize, Nat.div_add_mod'] at hv hv'
  rw [hv, hv', hglen]
  refine Finset.sum_congr rfl fun g hg => ?_
  have hg := Finset.mem_range.1 hg
  congr 2
  simp only [Finset.sum_range_succ, Finset.sum_range_zero, hA1 g hg, mul_zero, add_zero]
  rw [Nat.mul_comm (k / 2) 2, hsame]

end Fourier

namespace Fourier

variable {S B P C : Type}

theorem table_mono {G Id : Type} {T : IrrepTable G Id} {El El' : G → Prop} {op : G → G → G} {one : G} (h : T.Valid El op one) (hE : ∀ g, El' g → El g) : T.Valid El' op one := fun i hi =>
  ⟨fun g hg => (h i hi).rows g (hE g hg), fun g hg => (h i hi).cols g (hE g hg), (h i hi).map_one, fun a b ha hb => (h i hi).map_mul a b (hE a ha) (hE b hb), fun g hg => (h i hi).ortho g (hE g hg)⟩

/-- **C88** `FourierPointwise` for SO(2) and for O(2) with the regular grid is exactly equivariant under the elements of the grid, for each list of irreps and each pointwise function. -/
theorem C88_fourier {N : ℕ} (hN : 0 < N) (φ : ℝ → ℝ) {space : S} {channels : ℕ} {function : String} {normalize : Bool} :
    (∀ {grid ssc nameOf order irreps outIrreps} {m : Fourier S ℝ ℕ}, SO2.grid N .regular = .ok grid → initRegular SO2.table ssc SO2.identity nameOf order space channels irreps grid function outIrreps normalize = .ok m →
      FibreEquivariant (B := B) (P := P) (C := C) (· ∈ grid) m.inType m.outType (forward { m with function := φ })) ∧
    ∀ {grid ssc nameOf order irreps outIrreps} {m : Fourier S O2.Elem (ℕ × ℕ)}, O2.grid N .regular = .ok grid → initRegular O2.table ssc O2.identity nameOf order space channels irreps grid function outIrreps normalize = .ok m →
      FibreEquivariant (B := B) (P := P) (C := C) (· ∈ grid) m.inType m.outType (forward { m with function := φ }) := by
  constructor
  · intro grid ssc nameOf order irreps outIrreps m hg hm
    obtain ⟨L, hL, -, hel, hG, -⟩ := C88_so2 hN
    obtain rfl := Except.ok.inj (hL.symm.trans hg)
    exact (C53_equivariant (table_mono SO2.table_valid hel) hG (List.Perm.refl _) hm φ).1
  · intro grid ssc nameOf order irreps outIrreps m hg hm
    obtain ⟨L, hL, -, hel, hG, -⟩ := (C88_o2 hN).1
    obtain rfl := Except.ok.inj (hL.symm.trans hg)
    exact (C53_equivariant (table_mono O2.table_valid hel) hG (List.Perm.refl _) hm φ).1

/-- The irreps of frequencies 0, 1, 2 on the grid with 5 elements: the constructor accepts, and the frequencies are below the bound. -/
example : ∃ (grid : List ℝ) (m : Fourier Unit ℝ ℕ), SO2.grid 5 .regular = .ok grid ∧ initRegular SO2.table so2ssc SO2.identity (fun _ => "regular") id () 3 [0, 1, 2] grid "p_elu" none true = .ok m ∧ m.rho.size = 5 ∧
    ([0, 1, 2] : List ℕ).Nodup ∧ ∀ l ∈ ([0, 1, 2] : List ℕ), 2 * l < 5 := by
  obtain ⟨L, hL, hlen, hel, hG, -⟩ := C88_so2 (N := 5) (by norm_num)
  obtain ⟨m, hm, -, hs⟩ := C53_regular_init (S := Unit) (nameOf := fun _ => "regular") (order := id) (irreps := [0, 1, 2]) (grid := L) (function := "p_elu") (ssc := so2ssc) (channels := 3) (table_mono SO2.table_valid hel) hG.one_mem
    (fun i _ => ⟨so2_size_pos i, by rw [so2ssc_eq]; exact so2_size_pos i, by rw [so2ssc_eq]⟩) (fun L => List.Perm.refl L) () (by norm_num) (List.ne_nil_of_length_pos (by omega)) (by simp [Known]) none true
    (fun L h => by rcases h with rfl | h; exacts [⟨by simp, by simp, fun _ _ => rfl⟩, by cases h])
  exact ⟨L, m, hL, hm, hs, by simp, by simp⟩

end Fourier

end Escnn
