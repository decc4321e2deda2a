import Verif.Spec.Octa
import Verif.Spec.FinGroup
import Verif.Lemmas.Rotation3
import Verif.Lemmas.SO3
import Mathlib.Tactic.FinCases
import Mathlib.Tactic.Linarith

/-!
# The octahedral group: the elements and their matrices
-/

namespace Escnn

open Real Quaternion NpMat
open scoped Matrix

namespace Octa

theorem combine_assoc (a b c : Elem) : combine (combine a b) c = combine a (combine b c) := by
  ext <;> simp only [combine] <;> ring

theorem identity_combine (a : Elem) : combine identity a = a := by
  ext <;> simp [combine, identity]

theorem combine_identity (a : Elem) : combine a identity = a := by
  ext <;> simp [combine, identity]

theorem finGroup : FinGroup elements combine inverse identity where
  nodup := by decide +kernel
  one_mem := by decide +kernel
  mul_mem := by decide +kernel
  inv_mem := by decide +kernel
  assoc a _ b _ c _ := combine_assoc a b c
  one_mul a _ := identity_combine a
  mul_one a _ := combine_identity a
  inv_mul := by decide +kernel
  mul_inv := by decide +kernel

theorem mat_combine (a b : Elem) : mat (combine a b) = mat a * mat b := by
  ext i j
  fin_cases i <;> fin_cases j <;> simp [mat, combine, Matrix.mul_apply, Fin.sum_univ_three]

theorem mat_inverse (a : Elem) : mat (inverse a) = (mat a)ᵀ := by
  ext i j
  fin_cases i <;> fin_cases j <;> simp [mat, inverse]

theorem mat_identity : mat identity = 1 := by
  ext i j
  fin_cases i <;> fin_cases j <;> simp [mat, identity]

theorem mat_inj {a b : Elem} (h : mat a = mat b) : a = b := by
  have e := fun i j => congrFun (congrFun h i) j
  have e00 := e 0 0; have e01 := e 0 1; have e02 := e 0 2
  have e10 := e 1 0; have e11 := e 1 1; have e12 := e 1 2
  have e20 := e 2 0; have e21 := e 2 1; have e22 := e 2 2
  simp [mat] at e00 e01 e02 e10 e11 e12 e20 e21 e22
  ext <;> assumption

/-- The six signed unit vectors. -/
def axes : List (ℤ × ℤ × ℤ) := [(1, 0, 0), (-1, 0, 0), (0, 1, 0), (0, -1, 0), (0, 0, 1), (0, 0, -1)]

theorem mat_det (e : Elem) : (mat e).det = (det e : ℝ) := by
  rw [Matrix.det_fin_three]
  simp [mat, det]
  ring

theorem axes_mem : ∀ r ∈ axes, ∀ s ∈ axes, ∀ t ∈ axes, det ⟨r.1, r.2.1, r.2.2, s.1, s.2.1, s.2.2, t.1, t.2.1, t.2.2⟩ = 1 →
    (⟨r.1, r.2.1, r.2.2, s.1, s.2.1, s.2.2, t.1, t.2.1, t.2.2⟩ : Elem) ∈ elements := by decide +kernel

theorem axes_of {a b c : ℤ} (h : a * a + b * b + c * c = 1) : (a, b, c) ∈ axes := by
  have ha : -1 ≤ a ∧ a ≤ 1 := ⟨by nlinarith, by nlinarith⟩
  have hb : -1 ≤ b ∧ b ≤ 1 := ⟨by nlinarith, by nlinarith⟩
  have hc : -1 ≤ c ∧ c ≤ 1 := ⟨by nlinarith, by nlinarith⟩
  obtain ⟨a1, a2⟩ := ha; obtain ⟨b1, b2⟩ := hb; obtain ⟨c1, c2⟩ := hc
  interval_cases a <;> interval_cases b <;> interval_cases c <;> simp_all [axes]

/-- The elements are the rotations with integer entries. -/
theorem mem_iff (e : Elem) : e ∈ elements ↔ mat e * (mat e)ᵀ = 1 ∧ (mat e).det = 1 := by
  constructor
  · intro h
    refine ⟨by rw [← mat_inverse, ← mat_combine, finGroup.mul_inv e h, mat_identity], ?_⟩
    rw [mat_det]
    have : ∀ e ∈ elements, det e = 1 := by decide +kernel
    rw [this e h]; norm_num
  · rintro ⟨h, hd⟩
    rw [mat_det] at hd
    have row : ∀ i, mat e i 0 * mat e i 0 + mat e i 1 * mat e i 1 + mat e i 2 * mat e i 2 = 1 := fun i => by
      have := congrFun (congrFun h i) i
      rw [Matrix.mul_apply, Fin.sum_univ_three] at this
      simpa using this
    have r0 := row 0; have r1 := row 1; have r2 := row 2
    simp [mat] at r0 r1 r2
    exact axes_mem _ (axes_of (by exact_mod_cast r0)) _ (axes_of (by exact_mod_cast r1)) _ (axes_of (by exact_mod_cast r2)) (by exact_mod_cast hd)

/-- The quaternion of an integer quaternion. -/
noncomputable def unitQ (q : ℤ × ℤ × ℤ × ℤ) : UQuat :=
  let r := √((q.1 * q.1 + q.2.1 * q.2.1 + q.2.2.1 * q.2.2.1 + q.2.2.2 * q.2.2.2 : ℤ) : ℝ)
  quat (q.1 / r) (q.2.1 / r) (q.2.2.1 / r) (q.2.2.2 / r)

theorem quats_int : ∀ q ∈ quats, 0 < q.1 * q.1 + q.2.1 * q.2.1 + q.2.2.1 * q.2.2.1 + q.2.2.2 * q.2.2.2 ∧
    (q.1 * q.1 + q.2.1 * q.2.1 + q.2.2.1 * q.2.2.1 + q.2.2.2 * q.2.2.2) * (ofQuat q).m₀₀ = q.2.2.2 * q.2.2.2 + q.1 * q.1 - q.2.1 * q.2.1 - q.2.2.1 * q.2.2.1 ∧
    (q.1 * q.1 + q.2.1 * q.2.1 + q.2.2.1 * q.2.2.1 + q.2.2.2 * q.2.2.2) * (ofQuat q).m₀₁ = 2 * (q.1 * q.2.1 - q.2.2.2 * q.2.2.1) ∧
    (q.1 * q.1 + q.2.1 * q.2.1 + q.2.2.1 * q.2.2.1 + q.2.2.2 * q.2.2.2) * (ofQuat q).m₀₂ = 2 * (q.1 * q.2.2.1 + q.2.2.2 * q.2.1) ∧
    (q.1 * q.1 + q.2.1 * q.2.1 + q.2.2.1 * q.2.2.1 + q.2.2.2 * q.2.2.2) * (ofQuat q).m₁₀ = 2 * (q.1 * q.2.1 + q.2.2.2 * q.2.2.1) ∧
    (q.1 * q.1 + q.2.1 * q.2.1 + q.2.2.1 * q.2.2.1 + q.2.2.2 * q.2.2.2) * (ofQuat q).m₁₁ = q.2.2.2 * q.2.2.2 - q.1 * q.1 + q.2.1 * q.2.1 - q.2.2.1 * q.2.2.1 ∧
    (q.1 * q.1 + q.2.1 * q.2.1 + q.2.2.1 * q.2.2.1 + q.2.2.2 * q.2.2.2) * (ofQuat q).m₁₂ = 2 * (q.2.1 * q.2.2.1 - q.2.2.2 * q.1) ∧
    (q.1 * q.1 + q.2.1 * q.2.1 + q.2.2.1 * q.2.2.1 + q.2.2.2 * q.2.2.2) * (ofQuat q).m₂₀ = 2 * (q.1 * q.2.2.1 - q.2.2.2 * q.2.1) ∧
    (q.1 * q.1 + q.2.1 * q.2.1 + q.2.2.1 * q.2.2.1 + q.2.2.2 * q.2.2.2) * (ofQuat q).m₂₁ = 2 * (q.2.1 * q.2.2.1 + q.2.2.2 * q.1) ∧
    (q.1 * q.1 + q.2.1 * q.2.1 + q.2.2.1 * q.2.2.1 + q.2.2.2 * q.2.2.2) * (ofQuat q).m₂₂ = q.2.2.2 * q.2.2.2 - q.1 * q.1 - q.2.1 * q.2.1 + q.2.2.1 * q.2.2.1 := by
  decide +kernel

theorem unitQ_unit {q : ℤ × ℤ × ℤ × ℤ} (hq : q ∈ quats) : normSq (unitQ q) = 1 := by
  obtain ⟨h0, -⟩ := quats_int q hq
  have hn : (0 : ℝ) < ((q.1 * q.1 + q.2.1 * q.2.1 + q.2.2.1 * q.2.2.1 + q.2.2.2 * q.2.2.2 : ℤ) : ℝ) := by exact_mod_cast h0
  rw [unitQ, SO3.normSq_quat]
  simp only [div_pow, Real.sq_sqrt hn.le]
  rw [← add_div, ← add_div, ← add_div, div_eq_one_iff_eq hn.ne']
  push_cast; ring

theorem rotOf_unitQ {q : ℤ × ℤ × ℤ × ℤ} (hq : q ∈ quats) : rotOf (unitQ q) = mat (ofQuat q) := by
  obtain ⟨h0, h1, h2, h3, h4, h5, h6, h7, h8, h9⟩ := quats_int q hq
  have hn : (0 : ℝ) < ((q.1 * q.1 + q.2.1 * q.2.1 + q.2.2.1 * q.2.2.1 + q.2.2.2 * q.2.2.2 : ℤ) : ℝ) := by exact_mod_cast h0
  have key : ∀ {a m : ℤ}, (q.1 * q.1 + q.2.1 * q.2.1 + q.2.2.1 * q.2.2.1 + q.2.2.2 * q.2.2.2) * m = a → ∀ {x : ℝ}, (√((q.1 * q.1 + q.2.1 * q.2.1 + q.2.2.1 * q.2.2.1 + q.2.2.2 * q.2.2.2 : ℤ) : ℝ)) ^ 2 * x = (a : ℝ) → x = m := by
    intro a m hm x hx
    rw [Real.sq_sqrt hn.le, ← hm, Int.cast_mul] at hx
    exact mul_left_cancel₀ hn.ne' hx
  have hr : √((q.1 * q.1 + q.2.1 * q.2.1 + q.2.2.1 * q.2.2.1 + q.2.2.2 * q.2.2.2 : ℤ) : ℝ) ≠ 0 := (Real.sqrt_pos.2 hn).ne'
  unfold unitQ
  dsimp only
  generalize √((q.1 * q.1 + q.2.1 * q.2.1 + q.2.2.1 * q.2.2.1 + q.2.2.2 * q.2.2.2 : ℤ) : ℝ) = r at key hr ⊢
  ext i j
  fin_cases i <;> fin_cases j
  · refine key h1 ?_; simp [rotOf, quat]; field_simp; try ring
  · refine key h2 ?_; simp [rotOf, quat]; field_simp; try ring
  · refine key h3 ?_; simp [rotOf, quat]; field_simp; try ring
  · refine key h4 ?_; simp [rotOf, quat]; field_simp; try ring
  · refine key h5 ?_; simp [rotOf, quat]; field_simp; try ring
  · refine key h6 ?_; simp [rotOf, quat]; field_simp; try ring
  · refine key h7 ?_; simp [rotOf, quat]; field_simp; try ring
  · refine key h8 ?_; simp [rotOf, quat]; field_simp; try ring
  · refine key h9 ?_; simp [rotOf, quat]; field_simp; try ring

theorem toQ_eq {e : Elem} (he : e ∈ elements) : ∃ q ∈ quats, ofQuat q = e ∧ toQ e = unitQ q := by
  obtain ⟨q, hq, rfl⟩ := List.mem_map.1 he
  rcases hf : quats.find? (fun p => ofQuat p = ofQuat q) with _ | p
  · exact absurd (List.find?_eq_none.1 hf q hq) (by simp)
  · refine ⟨p, List.mem_of_find?_eq_some hf, by simpa using List.find?_some hf, ?_⟩
    rw [toQ, hf]
    rfl

theorem toQ_unit {e : Elem} (he : e ∈ elements) : normSq (toQ e) = 1 := by
  obtain ⟨q, hq, -, h⟩ := toQ_eq he
  rw [h, unitQ_unit hq]

theorem rotOf_toQ {e : Elem} (he : e ∈ elements) : rotOf (toQ e) = mat e := by
  obtain ⟨q, hq, rfl, h⟩ := toQ_eq he
  rw [h, rotOf_unitQ hq]

theorem floor_cast (q : UQuat) (e : Elem) (h : rotOf q = mat e) : ofRot q = e := by
  rw [ofRot, h]
  ext <;> simp [mat]

theorem cast01 {z : ℤ} (h : |z| = 1 ∨ |z| = 0) : |(z : ℝ)| = 1 ∨ |(z : ℝ)| = 0 := by exact_mod_cast h

/-- `_is_element` accepts the quaternions of the elements. -/
theorem isElement_iff {q : UQuat} (hq : normSq q = 1) : IsElement q ↔ ∃ e ∈ elements, rotOf q = mat e := by
  constructor
  · rintro ⟨-, -, -, h⟩
    have hint : ∀ i j, ∃ z : ℤ, rotOf q i j = z := fun i j => by
      rcases h i j with h | h
      · rcases eq_or_eq_neg_of_abs_eq h with h | h
        · exact ⟨1, by rw [h]; norm_num⟩
        · exact ⟨-1, by rw [h]; norm_num⟩
      · exact ⟨0, by rw [abs_eq_zero.1 h]; norm_num⟩
    choose z hz using hint
    have e : rotOf q = mat ⟨z 0 0, z 0 1, z 0 2, z 1 0, z 1 1, z 1 2, z 2 0, z 2 1, z 2 2⟩ := by
      ext i j
      rw [hz]
      fin_cases i <;> fin_cases j <;> rfl
    exact ⟨_, (mem_iff _).2 (by rw [← e]; exact ⟨rotOf_orth hq, rotOf_det hq⟩), e⟩
  · rintro ⟨e, he, h⟩
    have key : ∀ e ∈ elements, |e.m₀₀| + |e.m₁₀| + |e.m₂₀| = 1 ∧ |e.m₀₁| + |e.m₁₁| + |e.m₂₁| = 1 ∧ |e.m₀₂| + |e.m₁₂| + |e.m₂₂| = 1 ∧
        |e.m₀₀| + |e.m₀₁| + |e.m₀₂| = 1 ∧ |e.m₁₀| + |e.m₁₁| + |e.m₁₂| = 1 ∧ |e.m₂₀| + |e.m₂₁| + |e.m₂₂| = 1 ∧
        (|e.m₀₀| = 1 ∨ |e.m₀₀| = 0) ∧ (|e.m₀₁| = 1 ∨ |e.m₀₁| = 0) ∧ (|e.m₀₂| = 1 ∨ |e.m₀₂| = 0) ∧
        (|e.m₁₀| = 1 ∨ |e.m₁₀| = 0) ∧ (|e.m₁₁| = 1 ∨ |e.m₁₁| = 0) ∧ (|e.m₁₂| = 1 ∨ |e.m₁₂| = 0) ∧
        (|e.m₂₀| = 1 ∨ |e.m₂₀| = 0) ∧ (|e.m₂₁| = 1 ∨ |e.m₂₁| = 0) ∧ (|e.m₂₂| = 1 ∨ |e.m₂₂| = 0) := by decide +kernel
    obtain ⟨c0, c1, c2, r0, r1, r2, k⟩ := key e he
    refine ⟨hq, fun j => ?_, fun i => ?_, fun i j => ?_⟩
    · rw [h]; fin_cases j
      · simp [mat]; exact_mod_cast c0
      · simp [mat]; exact_mod_cast c1
      · simp [mat]; exact_mod_cast c2
    · rw [h]; fin_cases i
      · simp [mat]; exact_mod_cast r0
      · simp [mat]; exact_mod_cast r1
      · simp [mat]; exact_mod_cast r2
    · obtain ⟨k0, k1, k2, k3, k4, k5, k6, k7, k8⟩ := k
      rw [h]
      fin_cases i <;> fin_cases j
      · exact cast01 k0
      · exact cast01 k1
      · exact cast01 k2
      · exact cast01 k3
      · exact cast01 k4
      · exact cast01 k5
      · exact cast01 k6
      · exact cast01 k7
      · exact cast01 k8

end Octa

end Escnn
