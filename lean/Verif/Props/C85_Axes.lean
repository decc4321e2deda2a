import Verif.Model.OctaAxis
import Verif.Props.C85_Subgroups
import Verif.Props.C90_IcoSubgroups

/-!
# C85: the rotation axes of the octahedron
-/

namespace Escnn

open Real Quaternion NpMat
open scoped Matrix

namespace Octa

open Ico (turnAbout)

/-- A rotation is an element exactly if its entries are integers. -/
theorem mem_of_int {q : UQuat} (hq : normSq q = 1) : (∃ e ∈ elements, mat e = rotOf q) ↔ ∀ i j, ∃ z : ℤ, rotOf q i j = z := by
  constructor
  · rintro ⟨e, -, h⟩ i j
    rw [← h]
    fin_cases i <;> fin_cases j <;> exact ⟨_, rfl⟩
  · intro h
    choose z hz using h
    have hm : mat ⟨z 0 0, z 0 1, z 0 2, z 1 0, z 1 1, z 1 2, z 2 0, z 2 1, z 2 2⟩ = rotOf q := by
      ext i j
      fin_cases i <;> fin_cases j <;> simp [mat, hz]
    exact ⟨_, (mem_iff _).2 ⟨by rw [hm]; exact rotOf_orth hq, by rw [hm]; exact rotOf_det hq⟩, hm⟩

theorem turn_int {a : Fin 3 → ℝ} (ha : a 0 ^ 2 + a 1 ^ 2 + a 2 ^ 2 = 1) (θ : ℝ) : (∃ e ∈ elements, mat e = turnAbout a θ) ↔ ∀ i j, ∃ z : ℤ, turnAbout a θ i j = z := by
  obtain ⟨h1, h2⟩ := Ico.rotOf_axis ha (θ / 2)
  rw [show 2 * (θ / 2) = θ by ring] at h2
  rw [← h2]
  exact mem_of_int h1

theorem abs_vec {a : Fin 3 → ℝ} {x y z : ℝ} : (fun i => |a i|) = ![x, y, z] ↔ |a 0| = x ∧ |a 1| = y ∧ |a 2| = z := by
  constructor
  · intro h
    exact ⟨congrFun h 0, congrFun h 1, congrFun h 2⟩
  · rintro ⟨h0, h1, h2⟩
    ext i
    fin_cases i <;> simpa

theorem abs_one {x : ℝ} : |x| = 1 ↔ x ^ 2 = 1 := by
  rw [← sq_abs, pow_eq_one_iff_of_nonneg (abs_nonneg x) two_ne_zero]

theorem abs_zero' {x : ℝ} : |x| = 0 ↔ x ^ 2 = 0 := by rw [abs_eq_zero, sq_eq_zero_iff]

theorem abs_inv_sqrt {x c : ℝ} (hc : 0 < c) : |x| = 1 / √c ↔ x ^ 2 = 1 / c := by
  have h1 : 1 / √c = √(1 / c) := by rw [Real.sqrt_div zero_le_one, Real.sqrt_one]
  rw [h1, ← Real.sqrt_sq_eq_abs, Real.sqrt_inj (sq_nonneg _) (by positivity)]


theorem one_or {x : ℝ} (h : x ^ 2 = 1) : x = 1 ∨ x = -1 := by
  have : (x - 1) * (x + 1) = 0 := by linear_combination h
  rcases mul_eq_zero.1 this with h | h
  · left; linarith
  · right; linarith

theorem int_of_sq {x : ℝ} (h : x ^ 2 = 0 ∨ x ^ 2 = 1 ∨ x ^ 2 = 4) : ∃ z : ℤ, x = z := by
  rcases h with h | h | h
  · exact ⟨0, by simpa using h⟩
  · rcases one_or h with h | h
    · exact ⟨1, by simpa using h⟩
    · exact ⟨-1, by simpa using h⟩
  · rcases one_or (x := x / 2) (by rw [div_pow, h]; norm_num) with h | h
    · exact ⟨2, by push_cast; linarith⟩
    · exact ⟨-2, by push_cast; linarith⟩

/-- Order 2: the products of the coordinates are half integers. -/
theorem turn_two {a : Fin 3 → ℝ} (ha : a 0 ^ 2 + a 1 ^ 2 + a 2 ^ 2 = 1) : (∀ i j, ∃ z : ℤ, turnAbout a (2 * π / 2) i j = z) ↔
    (a 0 ^ 2 = 1 ∧ a 1 ^ 2 = 0 ∧ a 2 ^ 2 = 0) ∨ (a 0 ^ 2 = 0 ∧ a 1 ^ 2 = 1 ∧ a 2 ^ 2 = 0) ∨ (a 0 ^ 2 = 0 ∧ a 1 ^ 2 = 0 ∧ a 2 ^ 2 = 1) ∨
    (a 0 ^ 2 = 1 / 2 ∧ a 1 ^ 2 = 0 ∧ a 2 ^ 2 = 1 / 2) ∨ (a 0 ^ 2 = 1 / 2 ∧ a 1 ^ 2 = 1 / 2 ∧ a 2 ^ 2 = 0) ∨ (a 0 ^ 2 = 0 ∧ a 1 ^ 2 = 1 / 2 ∧ a 2 ^ 2 = 1 / 2) := by
  have e : ∀ i j, turnAbout a (2 * π / 2) i j = 2 * (a i * a j) - if i = j then 1 else 0 := fun i j => by
    rw [show 2 * π / 2 = π by ring, turnAbout, cos_pi, sin_pi]
    fin_cases i <;> fin_cases j <;> simp <;> first | (ring1) | (left; norm_num; done)
  constructor
  · intro h
    obtain ⟨p, hp⟩ := h 0 0
    obtain ⟨q, hq⟩ := h 1 1
    obtain ⟨r, hr⟩ := h 2 2
    rw [e, if_pos rfl, ← pow_two] at hp hq hr
    have s0 := sq_nonneg (a 0); have s1 := sq_nonneg (a 1); have s2 := sq_nonneg (a 2)
    have hp' : -1 ≤ p := by have : (-1 : ℝ) ≤ p := by linarith
                            exact_mod_cast this
    have hq' : -1 ≤ q := by have : (-1 : ℝ) ≤ q := by linarith
                            exact_mod_cast this
    have hr' : -1 ≤ r := by have : (-1 : ℝ) ≤ r := by linarith
                            exact_mod_cast this
    have hs : p + q + r = -1 := by have : (p + q + r : ℝ) = -1 := by linarith
                                   exact_mod_cast this
    have hp2 : p ≤ 1 := by omega
    have hq2 : q ≤ 1 := by omega
    obtain rfl : r = -1 - p - q := by omega
    interval_cases p <;> interval_cases q <;> norm_num at hp hq hr hr' <;> grind
  · intro h i j
    rw [e]
    have : ∃ z : ℤ, 2 * (a i * a j) = z := by
      refine int_of_sq ?_
      rw [mul_pow, mul_pow]
      rcases h with h | h | h | h | h | h <;> obtain ⟨h0, h1, h2⟩ := h <;> fin_cases i <;> fin_cases j <;> simp only [Fin.zero_eta, Fin.mk_one, Fin.reduceFinMk, h0, h1, h2] <;> norm_num
    obtain ⟨z, hz⟩ := this
    exact ⟨z - if i = j then 1 else 0, by rw [hz]; push_cast; rfl⟩

/-- Order 4: a coordinate axis. -/
theorem turn_four {a : Fin 3 → ℝ} (ha : a 0 ^ 2 + a 1 ^ 2 + a 2 ^ 2 = 1) : (∀ i j, ∃ z : ℤ, turnAbout a (2 * π / 4) i j = z) ↔
    (a 0 ^ 2 = 1 ∧ a 1 ^ 2 = 0 ∧ a 2 ^ 2 = 0) ∨ (a 0 ^ 2 = 0 ∧ a 1 ^ 2 = 1 ∧ a 2 ^ 2 = 0) ∨ (a 0 ^ 2 = 0 ∧ a 1 ^ 2 = 0 ∧ a 2 ^ 2 = 1) := by
  have e : turnAbout a (2 * π / 4) = !![a 0 ^ 2, a 0 * a 1 - a 2, a 0 * a 2 + a 1; a 1 * a 0 + a 2, a 1 ^ 2, a 1 * a 2 - a 0; a 2 * a 0 - a 1, a 2 * a 1 + a 0, a 2 ^ 2] := by
    rw [show 2 * π / 4 = π / 2 by ring, turnAbout, cos_pi_div_two, sin_pi_div_two]
    ext i j
    fin_cases i <;> fin_cases j <;> simp <;> ring
  rw [e]
  constructor
  · intro h
    obtain ⟨p, hp⟩ := h 0 0
    obtain ⟨q, hq⟩ := h 1 1
    obtain ⟨r, hr⟩ := h 2 2
    change a 0 ^ 2 = _ at hp
    change a 1 ^ 2 = _ at hq
    change a 2 ^ 2 = _ at hr
    have hp' : 0 ≤ p := by have : (0 : ℝ) ≤ p := by rw [← hp]; positivity
                           exact_mod_cast this
    have hq' : 0 ≤ q := by have : (0 : ℝ) ≤ q := by rw [← hq]; positivity
                           exact_mod_cast this
    have hr' : 0 ≤ r := by have : (0 : ℝ) ≤ r := by rw [← hr]; positivity
                           exact_mod_cast this
    have hs : p + q + r = 1 := by have : (p + q + r : ℝ) = 1 := by linarith
                                  exact_mod_cast this
    have hp2 : p ≤ 1 := by omega
    have hq2 : q ≤ 1 := by omega
    obtain rfl : r = 1 - p - q := by omega
    interval_cases p <;> interval_cases q <;> norm_num at hp hq hr hr' <;> simp [hp, hq, hr]
  · intro h i j
    have z : ∀ {x : ℝ}, x ^ 2 = 0 → x = 0 := fun {x} hx => by simpa using hx
    rcases h with ⟨h0, h1, h2⟩ | ⟨h0, h1, h2⟩ | ⟨h0, h1, h2⟩
    · rcases one_or h0 with g0 | g0 <;> rw [g0, z h1, z h2] <;> fin_cases i <;> fin_cases j <;> first | (refine ⟨0, ?_⟩; norm_num; done) | (refine ⟨1, ?_⟩; norm_num; done) | (refine ⟨-1, ?_⟩; norm_num; done)
    · rcases one_or h1 with g0 | g0 <;> rw [g0, z h0, z h2] <;> fin_cases i <;> fin_cases j <;> first | (refine ⟨0, ?_⟩; norm_num; done) | (refine ⟨1, ?_⟩; norm_num; done) | (refine ⟨-1, ?_⟩; norm_num; done)
    · rcases one_or h2 with g0 | g0 <;> rw [g0, z h0, z h1] <;> fin_cases i <;> fin_cases j <;> first | (refine ⟨0, ?_⟩; norm_num; done) | (refine ⟨1, ?_⟩; norm_num; done) | (refine ⟨-1, ?_⟩; norm_num; done)

/-- Order 3: a diagonal of the cube. -/
theorem turn_three {a : Fin 3 → ℝ} (ha : a 0 ^ 2 + a 1 ^ 2 + a 2 ^ 2 = 1) : (∀ i j, ∃ z : ℤ, turnAbout a (2 * π / 3) i j = z) ↔ a 0 ^ 2 = 1 / 3 ∧ a 1 ^ 2 = 1 / 3 ∧ a 2 ^ 2 = 1 / 3 := by
  have h3 : √3 * √3 = (3 : ℝ) := Real.mul_self_sqrt (by norm_num)
  have h0' : √3 ≠ 0 := (Real.sqrt_pos.2 (by norm_num)).ne'
  set b : Fin 3 → ℝ := fun i => √3 * a i with hb
  have e : turnAbout a (2 * π / 3) = !![(b 0 ^ 2 - 1) / 2, (b 0 * b 1 - b 2) / 2, (b 0 * b 2 + b 1) / 2; (b 1 * b 0 + b 2) / 2, (b 1 ^ 2 - 1) / 2, (b 1 * b 2 - b 0) / 2;
      (b 2 * b 0 - b 1) / 2, (b 2 * b 1 + b 0) / 2, (b 2 ^ 2 - 1) / 2] := by
    rw [turnAbout, cos_two_thirds, sin_two_thirds]
    ext i j
    fin_cases i <;> fin_cases j <;> simp [hb] <;> grind
  have hsq : ∀ i, b i ^ 2 = 3 * a i ^ 2 := fun i => by rw [hb, mul_pow, pow_two √3, h3]
  rw [e]
  constructor
  · intro h
    obtain ⟨p, hp⟩ := h 0 0
    obtain ⟨q, hq⟩ := h 1 1
    obtain ⟨r, hr⟩ := h 2 2
    change (b 0 ^ 2 - 1) / 2 = _ at hp
    change (b 1 ^ 2 - 1) / 2 = _ at hq
    change (b 2 ^ 2 - 1) / 2 = _ at hr
    rw [hsq] at hp hq hr
    have s0 := sq_nonneg (a 0); have s1 := sq_nonneg (a 1); have s2 := sq_nonneg (a 2)
    have hp' : 0 ≤ p := by have : (-1 : ℝ) < p := by linarith
                           have : -1 < p := by exact_mod_cast this
                           omega
    have hq' : 0 ≤ q := by have : (-1 : ℝ) < q := by linarith
                           have : -1 < q := by exact_mod_cast this
                           omega
    have hr' : 0 ≤ r := by have : (-1 : ℝ) < r := by linarith
                           have : -1 < r := by exact_mod_cast this
                           omega
    have hs : p + q + r = 0 := by have : (p + q + r : ℝ) = 0 := by linarith
                                  exact_mod_cast this
    obtain rfl : p = 0 := by omega
    obtain rfl : q = 0 := by omega
    obtain rfl : r = 0 := by omega
    push_cast at hp hq hr
    exact ⟨by linarith, by linarith, by linarith⟩
  · rintro ⟨h0, h1, h2⟩ i j
    rcases one_or (x := b 0) (by rw [hsq, h0]; norm_num) with g0 | g0 <;> rcases one_or (x := b 1) (by rw [hsq, h1]; norm_num) with g1 | g1 <;>
      rcases one_or (x := b 2) (by rw [hsq, h2]; norm_num) with g2 | g2 <;> rw [g0, g1, g2] <;> fin_cases i <;> fin_cases j <;>
      first | (refine ⟨0, ?_⟩; norm_num; done) | (refine ⟨1, ?_⟩; norm_num; done) | (refine ⟨-1, ?_⟩; norm_num; done)

/-- **C85** `_is_axis_aligned(v, n)`, `n = 2, 3, 4`, is true exactly if the rotation by `2 π / n` around `v` is an element of the group. Other orders raise `ValueError`. -/
theorem C85_axis_aligned {v : Fin 3 → ℝ} (hv : v ≠ 0) (n : ℤ) :
    ((n = 2 ∨ n = 3 ∨ n = 4) → ∃ b, axisAligned v n = .ok b ∧ (b = true ↔ ∃ e ∈ elements, mat e = turnAbout (fun i => v i / √(v 0 ^ 2 + v 1 ^ 2 + v 2 ^ 2)) (2 * π / n))) ∧
    (¬ (n = 2 ∨ n = 3 ∨ n = 4) → axisAligned v n = .error .value) := by
  have hpos : 0 < v 0 ^ 2 + v 1 ^ 2 + v 2 ^ 2 := by
    obtain ⟨i, hi⟩ : ∃ i, v i ≠ 0 := by by_contra hc; push Not at hc; exact hv (funext hc)
    fin_cases i <;> simp at hi <;> positivity
  have ha : (fun i => v i / Ico.norm v) 0 ^ 2 + (fun i => v i / Ico.norm v) 1 ^ 2 + (fun i => v i / Ico.norm v) 2 ^ 2 = 1 := by
    simp only [Ico.norm, div_pow, Real.sq_sqrt hpos.le]
    field_simp
  refine ⟨fun hn => ?_, fun hn => ?_⟩
  · change ∃ b, axisAligned v n = .ok b ∧ (b = true ↔ ∃ e ∈ elements, mat e = turnAbout (fun i => v i / Ico.norm v) (2 * π / n))
    rw [turn_int (a := fun i => v i / Ico.norm v) ha]
    rcases hn with rfl | rfl | rfl
    · refine ⟨_, by rw [axisAligned, if_pos rfl], ?_⟩
      rw [decide_eq_true_eq]
      simp only [abs_vec (a := fun i => v i / Ico.norm v), abs_one, abs_zero', abs_inv_sqrt (c := 2) (by norm_num)]
      push_cast
      exact (turn_two (a := fun i => v i / Ico.norm v) ha).symm
    · refine ⟨_, by rw [axisAligned, if_neg (by norm_num), if_neg (by norm_num), if_pos rfl], ?_⟩
      rw [decide_eq_true_eq]
      have e : (fun _ : Fin 3 => 1 / √3) = ![1 / √3, 1 / √3, 1 / √3] := by ext i; fin_cases i <;> rfl
      rw [e]
      simp only [abs_vec (a := fun i => v i / Ico.norm v), abs_inv_sqrt (c := 3) (by norm_num)]
      push_cast
      exact (turn_three (a := fun i => v i / Ico.norm v) ha).symm
    · refine ⟨_, by rw [axisAligned, if_neg (by norm_num), if_pos rfl], ?_⟩
      rw [decide_eq_true_eq]
      simp only [abs_vec (a := fun i => v i / Ico.norm v), abs_one, abs_zero']
      push_cast
      exact (turn_four (a := fun i => v i / Ico.norm v) ha).symm
  · rw [axisAligned, if_neg (by tauto), if_neg (by tauto), if_neg (by tauto)]

/-- `(0, 1, -1)` is an axis of order 2 and not of order 4. -/
example : axisAligned ![0, 1, -1] 2 = .ok true ∧ axisAligned ![0, 1, -1] 4 = .ok false ∧ (![0, 1, -1] : Fin 3 → ℝ) ≠ 0 := by
  have hn : Ico.norm ![0, 1, -1] = √2 := by rw [Ico.norm]; congr 1; simp; norm_num
  have h2 : 1 / √2 ≠ 0 := by positivity
  refine ⟨?_, ?_, fun h => by simpa using congrFun h 1⟩
  · rw [axisAligned, if_pos rfl, hn]
    refine congrArg _ (decide_eq_true (.inr (.inr (.inr (.inr (.inr ?_))))))
    ext i
    fin_cases i <;> simp [abs_div]
  · rw [axisAligned, if_neg (by norm_num), if_pos rfl, hn]
    refine congrArg _ (decide_eq_false ?_)
    rintro (h | h | h)
    · simpa using congrFun h 0
    · have := congrFun h 2; simp [abs_div] at this
    · have := congrFun h 1; simp [abs_div] at this

end Octa

end Escnn
