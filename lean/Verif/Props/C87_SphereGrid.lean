import Verif.Lemmas.SphereGrid
import Verif.Lemmas.ExRel

/-!
# C87: grids on the sphere
-/

namespace Escnn.Sphere

open Real Matrix

/-- A list of `n` distinct points of the unit sphere. -/
structure IsGrid (n : ℕ) (ps : List V3) : Prop where
  length : ps.length = n
  nodup : ps.Nodup
  unit : ∀ p ∈ ps, p ⬝ᵥ p = 1

/-- The pole `(0, 0, 1)`. -/
def pole : V3 := ![0, 0, 1]

/-- A rotation of the space. -/
def IsRot (R : Mat3) : Prop := Rᵀ * R = 1 ∧ R.det = 1

/-! ### HEALPix -/

theorem healpixCap_rows (N : ℕ) : healpixCap N = rows (N - 1) (fun i => 4 * (i + 1)) (fun i => 1 - ((i + 1 : ℕ) : ℝ) ^ 2 / (3 * (N : ℝ) ^ 2)) (fun i => π / (2 * ((i + 1 : ℕ) : ℝ)) * 0.5) := by
  unfold healpixCap rows
  congr 1
  funext i
  refine List.map_congr_left fun j _ => ?_
  congr 1
  have : (((i + 1 : ℕ) : ℝ)) ≠ 0 := by positivity
  push_cast at this ⊢
  field_simp
  ring

theorem healpixBelt_rows {N : ℕ} (hN : 0 < N) (m : ℕ) : ((List.range m).flatMap fun i' : ℕ =>
      (List.range (4 * N)).map fun j' : ℕ => polar (4 / 3 - 2 * ((N + i' : ℕ) : ℝ) / (3 * N)) (π / (2 * N) * (((j' + 1 : ℕ) : ℝ) - (((i' + 1) % 2 : ℕ) : ℝ) / 2))) =
    rows m (fun _ => 4 * N) (fun i => 4 / 3 - 2 * ((N + i : ℕ) : ℝ) / (3 * N)) (fun i => π / (2 * N) * (1 - (((i + 1) % 2 : ℕ) : ℝ) / 2)) := by
  unfold rows
  congr 1
  funext i
  refine List.map_congr_left fun j _ => ?_
  congr 1
  have : (N : ℝ) ≠ 0 := by positivity
  push_cast
  field_simp
  ring

theorem rows_cap_z {N : ℕ} (hN : 0 < N) {i : ℕ} (hi : i < N - 1) : 2 / 3 < 1 - ((i + 1 : ℕ) : ℝ) ^ 2 / (3 * (N : ℝ) ^ 2) ∧ 1 - ((i + 1 : ℕ) : ℝ) ^ 2 / (3 * (N : ℝ) ^ 2) < 1 := by
  have h0 : (0 : ℝ) < N := by exact_mod_cast hN
  have h1 : ((i + 1 : ℕ) : ℝ) < N := by exact_mod_cast (show i + 1 < N by omega)
  have h2 : (0 : ℝ) < ((i + 1 : ℕ) : ℝ) := by positivity
  have h3 : ((i + 1 : ℕ) : ℝ) ^ 2 / (3 * (N : ℝ) ^ 2) < 1 / 3 := by
    rw [div_lt_div_iff₀ (by positivity) (by norm_num)]
    nlinarith
  have h4 : 0 < ((i + 1 : ℕ) : ℝ) ^ 2 / (3 * (N : ℝ) ^ 2) := by positivity
  constructor <;> linarith

theorem rows_belt_z {N : ℕ} (hN : 0 < N) (i : ℕ) : (4 / 3 - 2 * ((N + i : ℕ) : ℝ) / (3 * N) : ℝ) = 2 / 3 * (1 - i / N) := by
  have : (N : ℝ) ≠ 0 := by positivity
  push_cast
  field_simp
  ring

/-- The three parts of the northern half: the cap, the belt above the equator, the equator. -/
structure North (N : ℕ) (L : List V3) (E : List V3) : Prop where
  eq : healpixCap N ++ healpixBelt N = L ++ E
  pos : ∀ p ∈ L, 0 < p 2
  zero : ∀ p ∈ E, p 2 = 0
  lenL : L.length = 6 * N ^ 2 - 2 * N
  lenE : E.length = 4 * N
  nodup : (L ++ E).Nodup
  unit : ∀ p ∈ L ++ E, p ⬝ᵥ p = 1
  quarterL : ∀ p ∈ L, quarter p ∈ L
  quarterE : ∀ p ∈ E, quarter p ∈ E

theorem polar_two (c φ : ℝ) : polar c φ 2 = c := rfl

theorem north {N : ℕ} (hN : 0 < N) : ∃ L E, North N L E := by
  have hNr : (0 : ℝ) < N := by exact_mod_cast hN
  let c1 : ℕ → ℝ := fun i => 1 - ((i + 1 : ℕ) : ℝ) ^ 2 / (3 * (N : ℝ) ^ 2)
  let c2 : ℕ → ℝ := fun i => 4 / 3 - 2 * ((N + i : ℕ) : ℝ) / (3 * N)
  let a1 : ℕ → ℝ := fun i => π / (2 * ((i + 1 : ℕ) : ℝ)) * 0.5
  let a2 : ℕ → ℝ := fun i => π / (2 * N) * (1 - (((i + 1) % 2 : ℕ) : ℝ) / 2)
  let n1 : ℕ → ℕ := fun i => 4 * (i + 1)
  let n2 : ℕ → ℕ := fun _ => 4 * N
  have hsplit : rows (N + 1) n2 c2 a2 = rows N n2 c2 a2 ++ (List.range (4 * N)).map fun j : ℕ => polar (c2 N) (2 * π / (4 * N : ℕ) * j + a2 N) := by
    simp [rows, n2, List.range_succ]
  have hc2 : ∀ i, c2 i = 2 / 3 * (1 - i / N) := rows_belt_z hN
  have hfrac : ∀ i < N, (i : ℝ) / N < 1 := fun i hi => by rw [div_lt_one hNr]; exact_mod_cast hi
  have hfrac0 : ∀ i : ℕ, 0 ≤ (i : ℝ) / N := fun i => by positivity
  have hcN : c2 N = 0 := by rw [hc2, div_self hNr.ne']; norm_num
  have hc2sq : ∀ i < N + 1, c2 i ^ 2 < 1 := fun i hi => by
    rw [hc2]
    have h1 : (i : ℝ) / N ≤ 1 := by rw [div_le_one hNr]; exact_mod_cast Nat.lt_succ_iff.1 hi
    nlinarith [hfrac0 i]
  have hc1 : ∀ i < N - 1, 2 / 3 < c1 i ∧ c1 i < 1 := fun i hi => rows_cap_z hN hi
  have hc1sq : ∀ i < N - 1, c1 i ^ 2 < 1 := fun i hi => by nlinarith [hc1 i hi]
  have hinj1 : ∀ i < N - 1, ∀ j < N - 1, c1 i = c1 j → i = j := fun i _ j _ e => by
    have h3 : (0 : ℝ) < 3 * (N : ℝ) ^ 2 := by positivity
    have e1 : ((i + 1 : ℕ) : ℝ) ^ 2 / (3 * (N : ℝ) ^ 2) = ((j + 1 : ℕ) : ℝ) ^ 2 / (3 * (N : ℝ) ^ 2) := by simp only [c1] at e; linarith
    rw [div_left_inj' h3.ne'] at e1
    have e2 : (i + 1) ^ 2 = (j + 1) ^ 2 := by exact_mod_cast e1
    have := Nat.pow_left_injective (n := 2) (by norm_num) e2
    omega
  have hinj2 : ∀ i < N + 1, ∀ j < N + 1, c2 i = c2 j → i = j := fun i _ j _ e => by
    rw [hc2, hc2] at e
    have : (i : ℝ) / N = j / N := by linarith
    rw [div_left_inj' hNr.ne'] at this
    exact_mod_cast this
  have hbelt : healpixBelt N = rows (N + 1) n2 c2 a2 := healpixBelt_rows hN _
  have hnodup : (rows (N - 1) n1 c1 a1 ++ rows (N + 1) n2 c2 a2).Nodup := by
    rw [List.nodup_append]
    refine ⟨rows_nodup hc1sq hinj1, rows_nodup hc2sq hinj2, fun p hp q hq e => ?_⟩
    obtain ⟨i, hi, j, -, rfl⟩ := mem_rows.1 hp
    obtain ⟨i', hi', j', -, rfl⟩ := mem_rows.1 hq
    have h := congrFun e 2
    rw [polar_two, polar_two, hc2] at h
    have := (hc1 i hi).1
    nlinarith [hfrac0 i']
  refine ⟨rows (N - 1) n1 c1 a1 ++ rows N n2 c2 a2, (List.range (4 * N)).map fun j : ℕ => polar (c2 N) (2 * π / (4 * N : ℕ) * j + a2 N), ?_, ?_, ?_, ?_, by simp, ?_, ?_, ?_, ?_⟩
  · rw [hbelt, healpixCap_rows, hsplit, List.append_assoc]
  · intro p hp
    rcases List.mem_append.1 hp with hp | hp
    · obtain ⟨i, hi, j, -, rfl⟩ := mem_rows.1 hp
      rw [polar_two]; linarith [hc1 i hi]
    · obtain ⟨i, hi, j, -, rfl⟩ := mem_rows.1 hp
      rw [polar_two, hc2]; linarith [hfrac i hi]
  · intro p hp
    obtain ⟨j, -, rfl⟩ := List.mem_map.1 hp
    exact hcN
  · rw [List.length_append, rows_length, rows_length]
    have h1 : ∑ i ∈ Finset.range (N - 1), n1 i = 2 * N ^ 2 - 2 * N := by
      have hg := Finset.sum_range_id_mul_two N
      have : ∑ i ∈ Finset.range N, i = ∑ i ∈ Finset.range (N - 1), (i + 1) := by
        obtain ⟨k, rfl⟩ : ∃ k, N = k + 1 := ⟨N - 1, by omega⟩
        rw [Finset.sum_range_succ']; simp
      rw [show (∑ i ∈ Finset.range (N - 1), n1 i) = 4 * ∑ i ∈ Finset.range (N - 1), (i + 1) by rw [Finset.mul_sum], ← this]
      obtain ⟨k, rfl⟩ : ∃ k, N = k + 1 := ⟨N - 1, by omega⟩
      have e : 2 * (k + 1) ^ 2 - 2 * (k + 1) = 2 * ((k + 1) * k) := by
        rw [show 2 * (k + 1) ^ 2 = 2 * ((k + 1) * k) + 2 * (k + 1) by ring]; omega
      rw [e]
      simp only [Nat.add_sub_cancel] at hg
      omega
    rw [h1]
    simp only [n2, Finset.sum_const, Finset.card_range, smul_eq_mul]
    have : 2 * N ≤ 2 * N ^ 2 := by nlinarith
    have e : N * (4 * N) = 4 * N ^ 2 := by ring
    omega
  · rw [List.append_assoc, ← hsplit]; exact hnodup
  · rw [List.append_assoc, ← hsplit]
    intro p hp
    rcases List.mem_append.1 hp with hp | hp
    · exact rows_unit (fun i hi => (hc1sq i hi).le) p hp
    · exact rows_unit (fun i hi => (hc2sq i hi).le) p hp
  · intro p hp
    rcases List.mem_append.1 hp with hp | hp
    · exact List.mem_append_left _ (rows_quarter (q := fun i => i + 1) (fun _ _ => rfl) (fun _ _ => Nat.succ_pos _) p hp)
    · exact List.mem_append_right _ (rows_quarter (q := fun _ => N) (fun _ _ => rfl) (fun _ _ => hN) p hp)
  · intro p hp
    have hr : (List.range (4 * N)).map (fun j : ℕ => polar (c2 N) (2 * π / (4 * N : ℕ) * j + a2 N)) = rows 1 n2 (fun _ => c2 N) (fun _ => a2 N) := by simp [rows, n2]
    rw [hr] at hp ⊢
    exact rows_quarter (q := fun _ => N) (fun _ _ => rfl) (fun _ _ => hN) p hp

theorem mirror_mirror (p : V3) : mirror (mirror p) = p := by
  funext i; fin_cases i <;> simp [mirror]

theorem mirror_quarter (p : V3) : quarter (mirror p) = mirror (quarter p) := by
  funext i; fin_cases i <;> simp [mirror, quarter]

/-- **C87** The HEALPix grid with parameter `N` has `12 N²` distinct points of the unit sphere, for each `N`, so that its assertion never fails; it is symmetric under the mirroring of the Z axis and under the quarter turn around
it. -/
theorem C87_healpix {N : ℕ} (hN : 0 < N) : ∃ ps, healpix N = .ok ps ∧ IsGrid (12 * N ^ 2) ps ∧ ∀ p ∈ ps, mirror p ∈ ps ∧ quarter p ∈ ps := by
  obtain ⟨L, E, h⟩ := north hN
  have hf : (healpixCap N ++ healpixBelt N).filter (fun p => decide (0 < p 2)) = L := by
    rw [h.eq, List.filter_append, List.filter_eq_self.2 fun p hp => by simpa using h.pos p hp, List.filter_eq_nil_iff.2 fun p hp => by simp [h.zero p hp], List.append_nil]
  have hlen : (L.map mirror ++ (L ++ E)).length = 12 * N ^ 2 := by
    simp only [List.length_append, List.length_map, h.lenL, h.lenE]
    have : N ≤ N ^ 2 := by nlinarith
    omega
  have hm2 : ∀ p, mirror p 2 = - p 2 := fun p => by simp [mirror]
  have hsplit := List.nodup_append.1 h.nodup
  refine ⟨L.map mirror ++ (L ++ E), ?_, ⟨hlen, ?_, ?_⟩, ?_⟩
  · unfold healpix
    simp only
    rw [show (List.filter (fun p => @decide (0 < p 2) (Classical.propDecidable _)) (healpixCap N ++ healpixBelt N)) = L by rw [← hf], h.eq, if_pos hlen, if_neg]
    intro e
    rw [e] at hlen
    have : 0 < N ^ 2 := by positivity
    simp at hlen; omega
  · rw [List.nodup_append]
    refine ⟨hsplit.1.map fun a b e => by rw [← mirror_mirror a, e, mirror_mirror], h.nodup, fun p hp q hq e => ?_⟩
    obtain ⟨p', hp', rfl⟩ := List.mem_map.1 hp
    have h1 := h.pos p' hp'
    have h2 : 0 ≤ q 2 := by
      rcases List.mem_append.1 hq with hq | hq
      · exact (h.pos q hq).le
      · exact (h.zero q hq).ge
    rw [← e, hm2] at h2
    linarith
  · intro p hp
    rcases List.mem_append.1 hp with hp | hp
    · obtain ⟨q, hq, rfl⟩ := List.mem_map.1 hp
      have := h.unit q (List.mem_append_left _ hq)
      simp only [mirror, dotProduct, Fin.sum_univ_three, Matrix.cons_val_zero, Matrix.cons_val_one, Matrix.cons_val] at this ⊢
      linarith
    · exact h.unit p hp
  · intro p hp
    rcases List.mem_append.1 hp with hp | hp
    · obtain ⟨q, hq, rfl⟩ := List.mem_map.1 hp
      rw [mirror_mirror, mirror_quarter]
      exact ⟨List.mem_append_right _ (List.mem_append_left _ hq), List.mem_append_left _ (List.mem_map_of_mem (h.quarterL q hq))⟩
    · rcases List.mem_append.1 hp with hp | hp
      · exact ⟨List.mem_append_left _ (List.mem_map_of_mem hp), List.mem_append_right _ (List.mem_append_left _ (h.quarterL p hp))⟩
      · have e : mirror p = p := by
          have := h.zero p hp
          funext i; fin_cases i <;> simp [mirror, this]
        rw [e]
        exact ⟨List.mem_append_right _ (List.mem_append_right _ hp), List.mem_append_right _ (List.mem_append_right _ (h.quarterE p hp))⟩

/-! ### Fibonacci and longitude-latitude grids -/

/-- **C87** The Fibonacci grid of `N` points has `N` distinct points of the unit sphere, for each `N` but 1. -/
theorem C87_fibonacci {N : ℕ} (hN : N ≠ 1) : ∃ ps, fibonacci N = .ok ps ∧ IsGrid N ps := by
  have hd : ∀ i < N, (0 : ℝ) ≤ (i : ℝ) / ((N : ℝ) - 1) ∧ (i : ℝ) / ((N : ℝ) - 1) ≤ 1 ∧ (0 : ℝ) < (N : ℝ) - 1 := fun i hi => by
    have h2 : (2 : ℝ) ≤ N := by exact_mod_cast (show 2 ≤ N by omega)
    have h3 : (i : ℝ) + 1 ≤ N := by exact_mod_cast (show i + 1 ≤ N by omega)
    have h4 : (0 : ℝ) < (N : ℝ) - 1 := by linarith
    exact ⟨by positivity, by rw [div_le_one h4]; linarith, h4⟩
  refine ⟨_, if_neg hN, by simp, List.Nodup.map_on (fun i hi j hj e => ?_) List.nodup_range, fun p hp => ?_⟩
  · have h := congrFun e 1
    simp only [Matrix.cons_val_one, Matrix.cons_val_zero] at h
    have h2 : (i : ℝ) / ((N : ℝ) - 1) = j / ((N : ℝ) - 1) := by linarith
    rw [div_left_inj' (hd i (List.mem_range.1 hi)).2.2.ne'] at h2
    exact_mod_cast h2
  · obtain ⟨i, hi, rfl⟩ := List.mem_map.1 hp
    obtain ⟨h1, h2, -⟩ := hd i (List.mem_range.1 hi)
    have hs : √(1 - (1 - 2 * ((i : ℝ) / ((N : ℝ) - 1))) ^ 2) ^ 2 = 1 - (1 - 2 * ((i : ℝ) / ((N : ℝ) - 1))) ^ 2 := sq_sqrt (by nlinarith)
    simp only [dotProduct, Fin.sum_univ_three, Matrix.cons_val_zero, Matrix.cons_val_one, Matrix.cons_val]
    nlinarith [sin_sq_add_cos_sq (π * (3 - √5) * i)]

/-- **C87** (violation) The Fibonacci grid of one point divides zero by zero. -/
theorem C87_fibonacci_violation : fibonacci 1 = .error .value := rfl

/-- **C87** The longitude-latitude grid has `N` distinct points of the unit sphere for each of the `M - 2` inner latitudes, and the two poles. -/
theorem C87_longlat (N : ℕ) {M : ℕ} (hM : 1 < M) : ∃ ps, longlat N M = .ok ps ∧ IsGrid (N * (M - 2) + 2) ps ∧ pole ∈ ps ∧ -pole ∈ ps := by
  obtain ⟨K, rfl⟩ : ∃ K, M = K + 2 := ⟨M - 2, by omega⟩
  let c : ℕ → ℝ := fun i => cos ((i + 1 : ℕ) * π / (K + 1))
  have hK : (0 : ℝ) < K + 1 := by positivity
  have hth : ∀ i < K, 0 < ((i + 1 : ℕ) : ℝ) * π / (K + 1) ∧ ((i + 1 : ℕ) : ℝ) * π / (K + 1) < π := fun i hi => by
    have h1 : ((i + 1 : ℕ) : ℝ) < K + 1 := by exact_mod_cast (show i + 1 < K + 1 by omega)
    refine ⟨by positivity, ?_⟩
    rw [div_lt_iff₀ hK]
    nlinarith [pi_pos]
  have hc : ∀ i < K, -1 < c i ∧ c i < 1 := fun i hi => by
    obtain ⟨h1, h2⟩ := hth i hi
    constructor
    · rw [← cos_pi]; exact cos_lt_cos_of_nonneg_of_le_pi h1.le le_rfl h2
    · rw [← cos_zero]; exact cos_lt_cos_of_nonneg_of_le_pi le_rfl h2.le h1
  have hsq : ∀ i < K, c i ^ 2 < 1 := fun i hi => by nlinarith [hc i hi]
  have hinj : ∀ i < K, ∀ j < K, c i = c j → i = j := fun i hi j hj e => by
    have := injOn_cos ⟨(hth i hi).1.le, (hth i hi).2.le⟩ ⟨(hth j hj).1.le, (hth j hj).2.le⟩ e
    rw [div_left_inj' hK.ne'] at this
    have := mul_right_cancel₀ pi_ne_zero this
    have : i + 1 = j + 1 := by exact_mod_cast this
    omega
  have hpts : longlat N (K + 2) = .ok ([pole] ++ (rows K (fun _ => N) c (fun _ => 0) ++ [-pole])) := by
    rw [longlat, if_pos hM, List.range_succ, List.flatMap_append, List.range_succ_eq_map, List.flatMap_cons, List.flatMap_map]
    congr 1
    rw [List.append_assoc]
    congr 1
    congr 1
    · unfold rows
      refine List.flatMap_congr fun i hi => ?_
      have hi := List.mem_range.1 hi
      rw [if_neg (by omega), if_neg (by omega)]
      refine List.map_congr_left fun j hj => ?_
      have hN : (N : ℝ) ≠ 0 := by exact_mod_cast (by have := List.mem_range.1 hj; omega : N ≠ 0)
      congr 1
      · simp only [c]; congr 2; push_cast; ring
      · field_simp; ring
    · simp [pole]
  have hz : ∀ p ∈ rows K (fun _ => N) c (fun _ => 0), -1 < p 2 ∧ p 2 < 1 := fun p hp => by
    obtain ⟨i, hi, j, -, rfl⟩ := mem_rows.1 hp
    exact hc i hi
  refine ⟨_, hpts, ⟨?_, ?_, ?_⟩, by simp, by simp⟩
  · simp [rows_length]; ring
  · rw [List.nodup_append, List.nodup_append]
    refine ⟨by simp, ⟨rows_nodup hsq hinj, by simp, fun p hp q hq e => ?_⟩, fun p hp q hq e => ?_⟩
    · rw [List.mem_singleton.1 hq] at e
      have := (hz p hp).1
      rw [e] at this
      simp [pole] at this
    · rw [List.mem_singleton.1 hp] at e
      rcases List.mem_append.1 hq with hq | hq
      · have := (hz q hq).2
        rw [← e] at this
        simp [pole] at this
      · rw [List.mem_singleton.1 hq] at e
        have := congrFun e 2
        simp [pole] at this
        linarith
  · intro p hp
    rcases List.mem_append.1 hp with hp | hp
    · rw [List.mem_singleton.1 hp]; simp [pole]
    · rcases List.mem_append.1 hp with hp | hp
      · exact rows_unit (fun i hi => (hsq i hi).le) p hp
      · rw [List.mem_singleton.1 hp]; simp [pole]

/-! ### Representatives of the points -/

theorem isRot_ofCols {a b c : V3} (haa : a ⬝ᵥ a = 1) (hbb : b ⬝ᵥ b = 1) (hcc : c ⬝ᵥ c = 1) (hab : a ⬝ᵥ b = 0) (hac : a ⬝ᵥ c = 0) (hbc : b ⬝ᵥ c = 0) : (ofCols a b c)ᵀ * ofCols a b c = 1 := by
  simp only [dotProduct, Fin.sum_univ_three] at haa hbb hcc hab hac hbc
  ext i j
  fin_cases i <;> fin_cases j <;> simp [Matrix.mul_apply, Fin.sum_univ_three, ofCols] <;> linarith

theorem ofCols_pole (a b c : V3) : ofCols a b c *ᵥ pole = c := by
  funext i
  simp [ofCols, pole, Matrix.mulVec, dotProduct, Fin.sum_univ_three]

theorem dot_nonneg (v : V3) : 0 ≤ v ⬝ᵥ v := by
  simp only [dotProduct, Fin.sum_univ_three]
  nlinarith [mul_self_nonneg (v 0), mul_self_nonneg (v 1), mul_self_nonneg (v 2)]

theorem dot_self_zero {v : V3} (h : v ⬝ᵥ v = 0) : v = 0 := by
  simp only [dotProduct, Fin.sum_univ_three] at h
  have h0 : v 0 * v 0 = 0 := by nlinarith [mul_self_nonneg (v 0), mul_self_nonneg (v 1), mul_self_nonneg (v 2)]
  have h1 : v 1 * v 1 = 0 := by nlinarith [mul_self_nonneg (v 0), mul_self_nonneg (v 1), mul_self_nonneg (v 2)]
  have h2 : v 2 * v 2 = 0 := by nlinarith [mul_self_nonneg (v 0), mul_self_nonneg (v 1), mul_self_nonneg (v 2)]
  funext i
  fin_cases i
  · exact mul_self_eq_zero.1 h0
  · exact mul_self_eq_zero.1 h1
  · exact mul_self_eq_zero.1 h2

/-- The frame of both functions: a unit vector orthogonal to the point, and their product. -/
theorem frame {p y : V3} (hp : p ⬝ᵥ p = 1) (hy : norm (y - (y ⬝ᵥ p) • p) ≠ 0) :
    ∃ c1 : V3, c1 = (norm (y - (y ⬝ᵥ p) • p))⁻¹ • (y - (y ⬝ᵥ p) • p) ∧ (ofCols (crossProduct p c1) c1 p).det = -1 ∧
      (∀ s t : ℝ, s ^ 2 = 1 → t ^ 2 = 1 → (ofCols (s • crossProduct p c1) c1 (t • p))ᵀ * ofCols (s • crossProduct p c1) c1 (t • p) = 1 ∧ (ofCols (s • crossProduct p c1) c1 (t • p)).det = -(s * t)) := by
  set e := y - (y ⬝ᵥ p) • p with he
  have hep : e ⬝ᵥ p = 0 := by rw [he, sub_dotProduct, smul_dotProduct, hp, smul_eq_mul, mul_one, sub_self]
  have hne := dot_nonneg e
  have hn2 : norm e ^ 2 = e ⬝ᵥ e := sq_sqrt hne
  have hcp : (norm e)⁻¹ • e ⬝ᵥ p = 0 := by rw [smul_dotProduct, hep, smul_zero]
  have hcc : ((norm e)⁻¹ • e) ⬝ᵥ ((norm e)⁻¹ • e) = 1 := by
    rw [smul_dotProduct, dotProduct_smul, ← hn2, smul_eq_mul, smul_eq_mul]
    field_simp
  refine ⟨_, rfl, ?_⟩
  generalize (norm e)⁻¹ • e = c at hcp hcc
  simp only [dotProduct, Fin.sum_univ_three] at hcp hcc hp
  have hcross : (p 1 * c 2 - p 2 * c 1) ^ 2 + (p 2 * c 0 - p 0 * c 2) ^ 2 + (p 0 * c 1 - p 1 * c 0) ^ 2 = 1 := by
    have : (p 1 * c 2 - p 2 * c 1) ^ 2 + (p 2 * c 0 - p 0 * c 2) ^ 2 + (p 0 * c 1 - p 1 * c 0) ^ 2 = (p 0 * p 0 + p 1 * p 1 + p 2 * p 2) * (c 0 * c 0 + c 1 * c 1 + c 2 * c 2) - (c 0 * p 0 + c 1 * p 1 + c 2 * p 2) ^ 2 := by ring
    rw [this, hp, hcc, hcp]; norm_num
  have hdet : ∀ s t : ℝ, (ofCols (s • crossProduct p c) c (t • p)).det = -(s * t) := fun s t => by
    rw [Matrix.det_fin_three]
    simp only [ofCols, cross_apply, Matrix.of_apply, Pi.smul_apply, smul_eq_mul, Matrix.cons_val_zero, Matrix.cons_val_one, Matrix.cons_val]
    linear_combination (-(s * t)) * hcross
  refine ⟨by simpa using hdet 1 1, fun s t hs ht => ⟨isRot_ofCols ?_ ?_ ?_ ?_ ?_ ?_, hdet s t⟩⟩ <;>
    simp only [dotProduct, Fin.sum_univ_three, cross_apply, Pi.smul_apply, smul_eq_mul, Matrix.cons_val_zero, Matrix.cons_val_one, Matrix.cons_val]
  · linear_combination (s ^ 2) * hcross + hs
  · exact hcc
  · linear_combination (t ^ 2) * hp + ht
  · ring
  · ring
  · linear_combination t * hcp

/-- One element of the grid of SO(3): unless the random vector is a multiple of the point there is a result; it is a rotation which takes the pole to the opposite of the point. -/
theorem so3Element_spec {p rnd : V3} (hp : p ⬝ᵥ p = 1) :
    (∀ R, so3Element p rnd = .ok R → IsRot R ∧ R *ᵥ pole = -p) ∧ ((∀ t : ℝ, rnd ≠ t • p) → ∃ R, so3Element p rnd = .ok R) := by
  by_cases h0 : norm ((rnd - p) - ((rnd - p) ⬝ᵥ p) • p) = 0
  · refine ⟨fun R h => ?_, fun h => ?_⟩
    · rw [so3Element, if_pos h0] at h; cases h
    · have hne := dot_nonneg ((rnd - p) - ((rnd - p) ⬝ᵥ p) • p)
      have h1 := (sqrt_eq_zero hne).1 h0
      have h2 : (rnd - p) - ((rnd - p) ⬝ᵥ p) • p = 0 := dot_self_zero h1
      refine (h (1 + (rnd - p) ⬝ᵥ p) ?_).elim
      rw [add_smul, one_smul]
      linear_combination (exp := 1) h2
  · obtain ⟨c1, hc1, hd, hst⟩ := frame (y := rnd - p) hp h0
    obtain ⟨h1, h2⟩ := hst 1 (-1) (by norm_num) (by norm_num)
    have e : so3Element p rnd = .ok (ofCols (crossProduct p c1) c1 ((-1 : ℝ) • p)) := by
      rw [so3Element, if_neg h0]
      simp only
      rw [← hc1, hd, if_pos (by norm_num), element, if_pos]
      rw [← one_smul ℝ (crossProduct p c1), h2]; norm_num
    rw [one_smul] at h1 h2
    refine ⟨fun R h => ?_, fun _ => ⟨_, e⟩⟩
    obtain rfl := Except.ok.inj (e.symm.trans h)
    exact ⟨⟨h1, by rw [h2]; norm_num⟩, by rw [ofCols_pole, neg_one_smul]⟩

theorem mapM_zipIdx {α β γ : Type} {f : α → ℕ → Except Err β} {h : β → γ} {k : α → γ} : ∀ {l : List α} {n : ℕ} {r : List β}, (∀ a ∈ l, ∀ i b, f a i = .ok b → h b = k a) →
    (l.zipIdx n).mapM (fun ai => f ai.1 ai.2) = .ok r → r.map h = l.map k
  | [], n, r, _, e => by obtain rfl := Except.ok.inj (show Except.ok [] = Except.ok r from e); rfl
  | a :: l, n, r, hf, e => by
    rw [List.zipIdx_cons, List.mapM_cons] at e
    obtain ⟨b, h1, e⟩ := ExRel.bind_ok e
    obtain ⟨bs, h2, e⟩ := ExRel.bind_ok e
    obtain rfl := Except.ok.inj e
    rw [List.map_cons, List.map_cons, hf a (by simp) _ b h1, mapM_zipIdx (fun a ha => hf a (List.mem_cons_of_mem _ ha)) h2]

theorem random_unit {s els : List V3} (h1 : random s = .ok els) : ∀ p ∈ els, p ⬝ᵥ p = 1 := by
  rw [random] at h1
  split_ifs at h1
  induction s generalizing els with
  | nil => contradiction
  | cons a s ih =>
    rw [List.mapM_cons] at h1
    obtain ⟨b, h2, h1⟩ := ExRel.bind_ok h1
    obtain ⟨bs, h3, h1⟩ := ExRel.bind_ok h1
    obtain rfl := Except.ok.inj h1
    split_ifs at h2 with h0
    obtain rfl := Except.ok.inj h2
    intro p hp
    rcases List.mem_cons.1 hp with rfl | hp
    · rw [smul_dotProduct, dotProduct_smul, ← (sq_sqrt (dot_nonneg a)), smul_eq_mul, smul_eq_mul]
      change (norm a)⁻¹ * ((norm a)⁻¹ * norm a ^ 2) = 1
      field_simp
    · by_cases hs : s = []
      · subst hs
        obtain rfl := Except.ok.inj (show Except.ok [] = Except.ok bs from h3)
        simp at hp
      · exact ih hs h3 p hp

theorem sphereGrid_unit {t : Kind} {adj : Mat3} {ps : List V3} (hadj : adjᵀ * adj = 1) (ht : ∀ ps, t = .solid ps → ∀ p ∈ ps, p ⬝ᵥ p = 1) (h : sphereGrid t adj = .ok ps) : ∀ p ∈ ps, p ⬝ᵥ p = 1 := by
  obtain ⟨els, h1, h⟩ := ExRel.bind_ok h
  have hu : ∀ p ∈ els, p ⬝ᵥ p = 1 := by
    cases t with
    | rand s =>
      exact random_unit h1
    | healpix N =>
      rcases Nat.eq_zero_or_pos N with rfl | hN
      · simp [Kind.points, healpix, healpixCap, healpixBelt] at h1
      · obtain ⟨ps, h2, hg, -⟩ := C87_healpix hN
        obtain rfl := Except.ok.inj (h2.symm.trans h1)
        exact hg.unit
    | fibonacci N =>
      by_cases hN : N = 1
      · subst hN; cases h1
      · obtain ⟨ps, h2, hg⟩ := C87_fibonacci hN
        obtain rfl := Except.ok.inj (h2.symm.trans h1)
        exact hg.unit
    | longlat N M =>
      by_cases hM : 1 < M
      · obtain ⟨ps, h2, hg, -⟩ := C87_longlat N hM
        obtain rfl := Except.ok.inj (h2.symm.trans h1)
        exact hg.unit
      · rw [Kind.points, longlat, if_neg hM] at h1; cases h1
    | solid ps =>
      obtain rfl := Except.ok.inj h1
      exact ht _ rfl
    | other => cases h1
  split_ifs at h
  obtain rfl := Except.ok.inj h
  intro p hp
  obtain ⟨q, hq, rfl⟩ := List.mem_map.1 hp
  rw [Matrix.dotProduct_mulVec, Matrix.vecMul_mulVec, ← Matrix.mulVec_transpose, hadj]
  simpa using hu q hq

/-- **C87** (violation) Every representative which `SO3.sphere_grid` returns is a rotation, but it takes the pole to the opposite of the point of the grid: the method changes the sign of the third column, which is the point, where
`find_rotation_pole2point` changes the sign of the first. -/
theorem C87_so3_sphere_violation {t : Kind} {adj : Mat3} {rnd : ℕ → V3} {ps : List V3} {Rs : List Mat3} (hadj : adjᵀ * adj = 1) (ht : ∀ ps, t = .solid ps → ∀ p ∈ ps, p ⬝ᵥ p = 1) (hp : sphereGrid t adj = .ok ps)
    (h : so3SphereGrid t adj rnd = .ok Rs) : (∀ R ∈ Rs, IsRot R) ∧ Rs.map (· *ᵥ pole) = ps.map fun p => -p := by
  have hu := sphereGrid_unit hadj ht hp
  rw [so3SphereGrid, hp] at h
  have hR := fun p hp i => (so3Element_spec (rnd := rnd i) (hu p hp)).1
  refine ⟨fun R hR' => ?_, mapM_zipIdx (fun p hp i R e => (hR p hp i R e).2) h⟩
  have := mapM_zipIdx (h := fun R => IsRot R) (k := fun _ => True) (fun p hp i R e => eq_true (hR p hp i R e).1) h
  have h2 : IsRot R ∈ Rs.map fun R => IsRot R := List.mem_map_of_mem hR'
  rw [this] at h2
  obtain ⟨_, -, e⟩ := List.mem_map.1 h2
  exact e ▸ trivial

/-- **C87** `SO3.sphere_grid` succeeds unless a random vector is a multiple of its point. -/
theorem C87_so3_sphere_total {t : Kind} {adj : Mat3} {rnd : ℕ → V3} {ps : List V3} (hadj : adjᵀ * adj = 1) (ht : ∀ ps, t = .solid ps → ∀ p ∈ ps, p ⬝ᵥ p = 1) (hp : sphereGrid t adj = .ok ps)
    (hr : ∀ i p, ps[i]? = some p → ∀ s : ℝ, rnd i ≠ s • p) : ∃ Rs, so3SphereGrid t adj rnd = .ok Rs ∧ Rs.length = ps.length := by
  have hu := sphereGrid_unit hadj ht hp
  rw [so3SphereGrid, hp]
  have : ∀ (l : List V3) (n : ℕ), (∀ p ∈ l, p ⬝ᵥ p = 1) → (∀ i p, l[i]? = some p → ∀ s : ℝ, rnd (n + i) ≠ s • p) → ∃ Rs, (l.zipIdx n).mapM (fun pi => so3Element pi.1 (rnd pi.2)) = .ok Rs ∧ Rs.length = l.length := by
    intro l
    induction l with
    | nil => exact fun n _ _ => ⟨[], rfl, rfl⟩
    | cons a l ih =>
      intro n h1 h2
      obtain ⟨R, hR⟩ := (so3Element_spec (h1 a (by simp))).2 (h2 0 a rfl)
      obtain ⟨Rs, e, hl⟩ := ih (n + 1) (fun p hp => h1 p (List.mem_cons_of_mem _ hp)) fun i p hi => by
        have := h2 (i + 1) p hi
        rwa [show n + (i + 1) = n + 1 + i by omega] at this
      refine ⟨R :: Rs, ?_, by simp [hl]⟩
      rw [List.zipIdx_cons, List.mapM_cons, e]
      simp only [Nat.add_zero] at hR
      simp only [hR]
      rfl
  exact this ps 0 hu fun i p hi => by rw [Nat.zero_add]; exact hr i p hi

theorem isRot_mul {A B : Mat3} (hA : IsRot A) (hB : IsRot B) : IsRot (A * B) := by
  refine ⟨?_, by rw [Matrix.det_mul, hA.2, hB.2, one_mul]⟩
  rw [Matrix.transpose_mul, Matrix.mul_assoc, ← Matrix.mul_assoc Aᵀ, hA.1, Matrix.one_mul, hB.1]

theorem isRot_rotZ (θ : ℝ) : IsRot (rotZ θ) := by
  constructor
  · ext i j
    fin_cases i <;> fin_cases j <;> simp [rotZ, Matrix.mul_apply, Fin.sum_univ_three] <;> nlinarith [sin_sq_add_cos_sq θ]
  · rw [Matrix.det_fin_three]
    simp [rotZ]
    nlinarith [sin_sq_add_cos_sq θ]

theorem isRot_rotY (θ : ℝ) : IsRot (rotY θ) := by
  constructor
  · ext i j
    fin_cases i <;> fin_cases j <;> simp [rotY, Matrix.mul_apply, Fin.sum_univ_three] <;> nlinarith [sin_sq_add_cos_sq θ]
  · rw [Matrix.det_fin_three]
    simp [rotY]
    nlinarith [sin_sq_add_cos_sq θ]

/-- **C87** Every representative which `O3.sphere_grid` returns is a rotation which takes the pole to the point of the grid. -/
theorem C87_o3_sphere {t : Kind} {adj : Mat3} {ps : List V3} (hadj : adjᵀ * adj = 1) (ht : ∀ ps, t = .solid ps → ∀ p ∈ ps, p ⬝ᵥ p = 1) (hp : sphereGrid t adj = .ok ps) :
    ∃ Rs, o3SphereGrid t adj = .ok Rs ∧ (∀ R ∈ Rs, IsRot R) ∧ Rs.map (· *ᵥ pole) = ps := by
  have hu := sphereGrid_unit hadj ht hp
  rw [o3SphereGrid, hp]
  refine ⟨_, rfl, fun R hR => ?_, ?_⟩
  · obtain ⟨p, -, rfl⟩ := List.mem_map.1 hR
    exact isRot_mul (isRot_mul (isRot_rotZ _) (isRot_rotY _)) (isRot_rotZ _)
  · rw [List.map_map]
    refine (List.map_congr_left fun p hp => ?_).trans (List.map_id _)
    have h := hu p hp
    simp only [dotProduct, Fin.sum_univ_three] at h
    have h1 : p 2 ≤ 1 := by nlinarith [mul_self_nonneg (p 0), mul_self_nonneg (p 1)]
    have h2 : -1 ≤ p 2 := by nlinarith [mul_self_nonneg (p 0), mul_self_nonneg (p 1)]
    have hn : ‖(⟨p 0, p 1⟩ : ℂ)‖ = √(1 - p 2 ^ 2) := by
      rw [Complex.norm_def, Complex.normSq_mk]
      congr 1
      linarith
    have hc := Complex.norm_mul_cos_arg (⟨p 0, p 1⟩ : ℂ)
    have hs := Complex.norm_mul_sin_arg (⟨p 0, p 1⟩ : ℂ)
    rw [hn] at hc hs
    have he : ∀ θ φ : ℝ, eulerZYZ 0 θ φ *ᵥ pole = ![cos φ * sin θ, sin φ * sin θ, cos θ] := fun θ φ => by
      funext i
      fin_cases i <;> simp [eulerZYZ, rotZ, rotY, pole, Matrix.mulVec, dotProduct, Fin.sum_univ_three, Matrix.mul_apply]
    show eulerZYZ 0 (arccos (max (-1) (min (p 2) 1))) (arctan2 (p 1) (p 0)) *ᵥ pole = p
    rw [he, min_eq_left h1, max_eq_right h2, cos_arccos h2 h1, sin_arccos]
    funext i
    fin_cases i
    · show cos (arctan2 (p 1) (p 0)) * √(1 - p 2 ^ 2) = p 0
      rw [mul_comm]; exact hc
    · show sin (arctan2 (p 1) (p 0)) * √(1 - p 2 ^ 2) = p 1
      rw [mul_comm]; exact hs
    · rfl

/-- **C87** `find_rotation_pole2point` gives for each point but the origin a rotation which takes the pole to the direction of the point. -/
theorem C87_pole2point {point : V3} (h : point ≠ 0) : ∃ R, pole2point point = .ok R ∧ IsRot R ∧ √(point ⬝ᵥ point) • (R *ᵥ pole) = point := by
  have hn : norm point ≠ 0 := fun e => h (dot_self_zero ((sqrt_eq_zero (dot_nonneg _)).1 e))
  set p := (norm point)⁻¹ • point with hpdef
  have hp : p ⬝ᵥ p = 1 := by
    rw [hpdef, smul_dotProduct, dotProduct_smul, ← (sq_sqrt (dot_nonneg point)), smul_eq_mul, smul_eq_mul]
    change (norm point)⁻¹ * ((norm point)⁻¹ * norm point ^ 2) = 1
    field_simp
  obtain ⟨y, hy⟩ : ∃ y : V3, y = if |![0, 0, 1] ⬝ᵥ p| = 1 then ![1, 0, 0] else ![0, 0, 1] := ⟨_, rfl⟩
  have hpc := hp
  simp only [dotProduct, Fin.sum_univ_three] at hpc
  have h0 : norm (y - (y ⬝ᵥ p) • p) ≠ 0 := fun e => by
    have e1 := dot_self_zero ((sqrt_eq_zero (dot_nonneg _)).1 e)
    have q0 := congrFun e1 0
    have q1 := congrFun e1 1
    have q2 := congrFun e1 2
    have hz : (![0, 0, 1] : V3) ⬝ᵥ p = p 2 := by simp [dotProduct, Fin.sum_univ_three]
    rw [hz] at hy
    split_ifs at hy with hab
    · subst hy
      have h2 : p 2 ^ 2 = 1 := by rw [← sq_abs, hab, one_pow]
      have h3 : p 0 * p 0 = 0 := by nlinarith [mul_self_nonneg (p 0), mul_self_nonneg (p 1)]
      simp [dotProduct, Fin.sum_univ_three] at q0
      linarith
    · subst hy
      simp [dotProduct, Fin.sum_univ_three] at q2
      refine hab ?_
      have : p 2 ^ 2 = 1 := by nlinarith
      rw [← sq_abs] at this
      nlinarith [abs_nonneg (p 2)]
  obtain ⟨c1, hc1, hd, hst⟩ := frame (y := y) hp h0
  obtain ⟨h1, h2⟩ := hst (-1) 1 (by norm_num) (by norm_num)
  rw [one_smul] at h1 h2
  refine ⟨ofCols ((-1 : ℝ) • crossProduct p c1) c1 p, ?_, ⟨h1, by rw [h2]; norm_num⟩, ?_⟩
  · rw [pole2point, if_neg hn]
    simp only
    rw [← hpdef, ← hy, if_neg h0, ← hc1, hd, if_pos (by rw [h2]; norm_num)]
  · rw [ofCols_pole, hpdef]
    exact smul_inv_smul₀ hn point

/-- The HEALPix grid of 12 points turned around the Z axis, and the representatives of two points. -/
example : (∃ ps, sphereGrid (.healpix 1) (rotZ 1) = .ok ps ∧ ps.length = 12) ∧ ∃ Rs, so3SphereGrid (.rand [![1, 0, 0], ![0, 3, 4]]) 1 (fun _ => ![1, 1, 0]) = .ok Rs ∧ Rs.length = 2 := by
  constructor
  · obtain ⟨ps, h, hg, -⟩ := C87_healpix (N := 1) (by norm_num)
    refine ⟨ps.map fun p => rotZ 1 *ᵥ p, ?_, by rw [List.length_map, hg.length]; norm_num⟩
    rw [sphereGrid, Kind.points, h]
    exact if_pos (by rw [(isRot_rotZ 1).2, abs_one])
  · have h1 : norm ![1, 0, 0] = 1 := by simp [norm]
    have h2 : norm ![0, 3, 4] = 5 := by
      simp [norm, dotProduct, Fin.sum_univ_three]
      rw [show (3 * 3 + 4 * 4 : ℝ) = 5 ^ 2 by norm_num]; simp
    have hp : sphereGrid (.rand [![1, 0, 0], ![0, 3, 4]]) 1 = .ok [![1, 0, 0], (5 : ℝ)⁻¹ • ![0, 3, 4]] := by
      simp [sphereGrid, Kind.points, random, h1, h2, bind, Except.bind, pure, Except.pure]
    obtain ⟨Rs, e, hl⟩ := C87_so3_sphere_total (rnd := fun _ => ![1, 1, 0]) (by simp) (fun _ e => by cases e) hp fun i p hi s e => by
      match i, hi with
      | 0, hi => obtain rfl := Option.some.inj hi; simpa using congrFun e 1
      | 1, hi => obtain rfl := Option.some.inj hi; simpa using congrFun e 0
    exact ⟨Rs, e, hl⟩

end Escnn.Sphere
