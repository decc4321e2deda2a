import Verif.Model.SphereGrid
import Mathlib.Analysis.SpecialFunctions.Trigonometric.Angle
import Mathlib.Algebra.BigOperators.Intervals
import Mathlib.Tactic.FieldSimp

/-!
# Rows of points of equal latitude
-/

namespace Escnn.Sphere

open Real Matrix

theorem polar_unit {c : ℝ} (h : c ^ 2 ≤ 1) (φ : ℝ) : polar c φ ⬝ᵥ polar c φ = 1 := by
  have hs : √(1 - c ^ 2) ^ 2 = 1 - c ^ 2 := sq_sqrt (by linarith)
  simp only [polar, dotProduct, Fin.sum_univ_three, Matrix.cons_val_zero, Matrix.cons_val_one, Matrix.cons_val]
  nlinarith [sin_sq_add_cos_sq φ]

theorem polar_inj {c c' φ φ' : ℝ} (h : c ^ 2 < 1) (e : polar c φ = polar c' φ') : c = c' ∧ ∃ k : ℤ, φ = φ' + k * (2 * π) := by
  have e0 := congrFun e 0
  have e1 := congrFun e 1
  have e2 := congrFun e 2
  simp only [polar, Matrix.cons_val_zero, Matrix.cons_val_one, Matrix.cons_val] at e0 e1 e2
  subst e2
  have hs : √(1 - c ^ 2) ≠ 0 := (sqrt_pos.2 (by linarith)).ne'
  have := Real.Angle.cos_sin_inj (mul_right_cancel₀ hs e0) (mul_right_cancel₀ hs e1)
  obtain ⟨k, hk⟩ := Real.Angle.angle_eq_iff_two_pi_dvd_sub.1 this
  exact ⟨rfl, k, by linarith⟩

/-- A regular subdivision of the circle does not repeat. -/
theorem step_inj {n : ℕ} (hn : 0 < n) {a : ℝ} {j j' : ℕ} (hj : j < n) (hj' : j' < n) {k : ℤ} (e : 2 * π / n * j + a = 2 * π / n * j' + a + k * (2 * π)) : j = j' := by
  have hn' : (n : ℝ) ≠ 0 := by exact_mod_cast hn.ne'
  have : (j : ℝ) = j' + k * n := by
    have h2 : 2 * π * j = 2 * π * (j' + k * n) := by field_simp at e; linear_combination e
    exact mul_left_cancel₀ two_pi_pos.ne' h2
  have hz : (j : ℤ) = j' + k * n := by exact_mod_cast this
  have hk : k = 0 := by
    by_contra hk
    rcases lt_or_gt_of_ne hk with h | h
    · have : k * n ≤ -1 * n := by nlinarith
      omega
    · have : 1 * n ≤ k * n := by nlinarith
      omega
  subst hk
  omega

/-- Rows of points: the row `i` has `n i` points of the height `c i`. -/
noncomputable def rows (m : ℕ) (n : ℕ → ℕ) (c a : ℕ → ℝ) : List V3 := (List.range m).flatMap fun i : ℕ => (List.range (n i)).map fun j : ℕ => polar (c i) (2 * π / n i * j + a i)

variable {m : ℕ} {n : ℕ → ℕ} {c a : ℕ → ℝ}

theorem mem_rows {p : V3} : p ∈ rows m n c a ↔ ∃ i < m, ∃ j < n i, polar (c i) (2 * π / n i * j + a i) = p := by
  simp [rows]

theorem rows_length : (rows m n c a).length = ∑ i ∈ Finset.range m, n i := by
  rw [rows, List.length_flatMap, Finset.sum_range]
  simp [List.sum_range_succ, Finset.sum_range, ← List.sum_ofFn, List.ofFn_eq_map, ← List.map_coe_finRange_eq_range, Function.comp_def]

theorem rows_nodup (hc : ∀ i < m, c i ^ 2 < 1) (hinj : ∀ i < m, ∀ j < m, c i = c j → i = j) : (rows m n c a).Nodup := by
  rw [rows, List.nodup_flatMap]
  refine ⟨fun i hi => ?_, ?_⟩
  · have hi := List.mem_range.1 hi
    refine List.Nodup.map_on (fun j hj j' hj' e => ?_) List.nodup_range
    obtain ⟨-, k, hk⟩ := polar_inj (hc i hi) e
    exact step_inj (Nat.zero_lt_of_lt (List.mem_range.1 hj)) (List.mem_range.1 hj) (List.mem_range.1 hj') hk
  · refine List.nodup_range.pairwise_of_forall_ne fun i hi j hj hne => ?_
    intro p hp hp'
    obtain ⟨x, -, rfl⟩ := List.mem_map.1 hp
    obtain ⟨y, -, e⟩ := List.mem_map.1 hp'
    have hi := List.mem_range.1 hi
    have hj := List.mem_range.1 hj
    exact hne (hinj i hi j hj (polar_inj (hc j hj) e).1.symm)

theorem rows_unit (hc : ∀ i < m, c i ^ 2 ≤ 1) : ∀ p ∈ rows m n c a, p ⬝ᵥ p = 1 := fun p hp => by
  obtain ⟨i, hi, j, -, rfl⟩ := mem_rows.1 hp
  exact polar_unit (hc i hi) _

/-- The quarter turn around the Z axis. -/
def quarter (p : V3) : V3 := ![-p 1, p 0, p 2]

theorem quarter_polar (c φ : ℝ) : quarter (polar c φ) = polar c (φ + π / 2) := by
  simp [quarter, polar, cos_add_pi_div_two, sin_add_pi_div_two]

theorem polar_period (c φ : ℝ) : polar c (φ + 2 * π) = polar c φ := by simp [polar]

theorem rows_quarter {q : ℕ → ℕ} (hq : ∀ i < m, n i = 4 * q i) (hpos : ∀ i < m, 0 < q i) : ∀ p ∈ rows m n c a, quarter p ∈ rows m n c a := fun p hp => by
  obtain ⟨i, hi, j, hj, rfl⟩ := mem_rows.1 hp
  have hq' := hq i hi
  have hp := hpos i hi
  have hqr : (q i : ℝ) ≠ 0 := by exact_mod_cast hp.ne'
  rw [quarter_polar, mem_rows]
  have hnr : (n i : ℝ) = 4 * q i := by rw [hq']; push_cast; ring
  rcases Nat.lt_or_ge (j + q i) (n i) with h | h
  · refine ⟨i, hi, j + q i, h, ?_⟩
    congr 1
    rw [hnr]; push_cast; field_simp; ring
  · refine ⟨i, hi, j + q i - n i, by omega, ?_⟩
    rw [← polar_period]
    congr 1
    rw [Nat.cast_sub h, hnr]; push_cast; field_simp; ring

end Escnn.Sphere
