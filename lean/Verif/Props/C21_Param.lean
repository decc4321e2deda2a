import Verif.Model.Param
import Verif.Lemmas.Angle
import Verif.Lemmas.Cycle
import Verif.Props.C01_Cyclic
import Verif.Props.C02_Dihedral
import Mathlib.Analysis.Real.Pi.Bounds

/-!
# C21: changing the parametrisation and back

`G.element(g.to(p), p) == g`.  Holds for SO(2) and O(2) with every parametrisation, for C_N and D_N with `'int'` and `'radians'`;
the matrix parametrisation of C_N and D_N is wrong: the sine is computed as `(A[1,0] - A[1,0]) / 2 = 0`, and exactly the
rotations by 0 and π survive.
-/

namespace Escnn

open Real NpMat

theorem isRotMat_rotMat (x : ℝ) : IsRotMat (rotMat x) := by
  refine ⟨rfl, rfl, ?_, rfl, rfl, ?_⟩
  · simp only [rotMat, of2]
    norm_num
    nlinarith [sin_sq_add_cos_sq x]
  · intro i j hi hj
    have hi' : i < 2 := hi
    have hj' : j < 2 := hj
    have := sin_sq_add_cos_sq x
    interval_cases i <;> interval_cases j <;>
      simp only [mul, rotMat, of2, transpose, eye, Finset.sum_range_succ, Finset.sum_range_zero] <;> norm_num <;> nlinarith

theorem arctan2_spec (x : ℝ) : mod2pi (arctan2 (sin x) (cos x)) = mod2pi x := by
  rw [← angle_eq_iff]
  have h : (⟨cos x, sin x⟩ : ℂ) = Complex.exp (x * Complex.I) := by
    rw [Complex.exp_mul_I, ← Complex.ofReal_cos, ← Complex.ofReal_sin]
    apply Complex.ext
    · rw [Complex.add_re, Complex.ofReal_re, Complex.re_ofReal_mul]; simp
    · rw [Complex.add_im, Complex.ofReal_im, Complex.im_ofReal_mul]; simp
  rw [arctan2, h, Complex.arg_exp_mul_I]
  exact Real.Angle.coe_toIocMod x _

theorem round_radians {N : ℕ} (hN : 0 < N) {z : ℤ} (h0 : 0 ≤ z) (h1 : z < N) :
    round ((N : ℝ) * (z * (2 * π) / N) / (2 * π)) % N = z := by
  have hN' : (N : ℝ) ≠ 0 := by exact_mod_cast hN.ne'
  have : (N : ℝ) * (z * (2 * π) / N) / (2 * π) = z := by field_simp
  rw [this, round_intCast, Int.emod_eq_of_lt h0 h1]

theorem close_radians {N : ℕ} (hN : 0 < N) (z : ℤ) : cycleIsclose (z * (2 * π) / N) 0 (2 * π / N) := by
  have hN' : (0 : ℝ) < N := by exact_mod_cast hN
  refine cycleIsclose_of_eq (by positivity) z ?_
  ring

theorem Cyclic.toInt_radians {N : ℕ} {z : ℤ} (hz : isElement N z = true) :
    toInt N .radians (.rad (z * (2 * π) / N)) = .ok z := by
  rw [isElement_iff] at hz
  have hN : 0 < N := by omega
  simp only [toInt]
  rw [if_pos (close_radians hN z), round_radians hN hz.1 hz.2]

/-- The value read from the matrix of the rotation by `x` by C_N and D_N: `0` if `cos x ≥ 0`, `π` otherwise. -/
theorem arctan2_bug (x : ℝ) : arctan2 (((rotMat x).get 1 0 - (rotMat x).get 1 0) / 2) (((rotMat x).get 0 0 + (rotMat x).get 1 1) / 2) =
    if 0 ≤ cos x then 0 else π := by
  have h : (⟨((rotMat x).get 0 0 + (rotMat x).get 1 1) / 2, ((rotMat x).get 1 0 - (rotMat x).get 1 0) / 2⟩ : ℂ) = ((cos x : ℝ) : ℂ) := by
    apply Complex.ext
    · rw [Complex.ofReal_re]; simp only [rotMat, of2]; norm_num
    · rw [Complex.ofReal_im]; simp only [rotMat, of2]; norm_num
  rw [arctan2, h]
  split_ifs with hc
  · exact Complex.arg_ofReal_of_nonneg hc
  · exact Complex.arg_ofReal_of_neg (not_le.1 hc)

/-- What C_N and D_N read back from the matrix of `2πz/N`. -/
theorem Cyclic.toInt_mat {N : ℕ} (hN : 0 < N) (hN11 : N ≤ 10 ^ 11) (z : ℤ) :
    toInt N .mat (.mat (rotMat (z * (2 * π) / N))) =
      if 0 ≤ cos (z * (2 * π) / N) then .ok 0 else if N % 2 = 0 then .ok ((N / 2 : ℕ) : ℤ) else .error .value := by
  have hN' : (0 : ℝ) < N := by exact_mod_cast hN
  simp only [toInt]
  rw [if_pos (isRotMat_rotMat _), arctan2_bug]
  by_cases hc : 0 ≤ cos (z * (2 * π) / N)
  · rw [if_pos hc, if_pos (cycleIsclose_of_eq (by positivity) 0 (by push_cast; ring)), if_pos hc]
    simp
  · rw [if_neg hc, if_neg hc]
    by_cases h2 : N % 2 = 0
    · obtain ⟨m, rfl⟩ : ∃ m, N = 2 * m := ⟨N / 2, by omega⟩
      have hm : (0 : ℝ) < m := by exact_mod_cast (show 0 < m by omega)
      rw [if_pos h2, if_pos (cycleIsclose_of_eq (by positivity) m (by push_cast; field_simp; ring))]
      have : ((2 * m : ℕ) : ℝ) * π / (2 * π) = ((m : ℤ) : ℝ) := by push_cast; field_simp
      rw [this, round_intCast, Int.emod_eq_of_lt (by omega) (by push_cast; omega)]
      congr 2
      omega
    · rw [if_neg h2, if_neg]
      intro hcl
      obtain ⟨k, hk⟩ := cycleIsclose_imp (by positivity) hcl
      have hN11' : (N : ℝ) ≤ 10 ^ 11 := by exact_mod_cast hN11
      have e1 : π - 0 - k * (2 * π / N) = π / N * (N - 2 * k) := by field_simp; ring
      have e2 : (1 : ℝ) ≤ |((N : ℝ) - 2 * k)| := by
        have : (1 : ℤ) ≤ |(N : ℤ) - 2 * k| := Int.one_le_abs (by omega)
        have h3 : ((1 : ℤ) : ℝ) ≤ ((|(N : ℤ) - 2 * k| : ℤ) : ℝ) := by exact_mod_cast this
        push_cast at h3
        exact h3
      rw [e1, abs_mul, abs_of_pos (by positivity)] at hk
      have e3 : π / N ≤ π / N * |((N : ℝ) - 2 * k)| := by
        have : 0 < π / N := by positivity
        nlinarith
      have e4 : π / N ≤ max (1 / 10 ^ 9 * (2 * π / N)) (1 / 10 ^ 11) := e3.trans hk
      rcases le_max_iff.1 e4 with h | h
      · have : 0 < π / N := by positivity
        have e5 : (1 : ℝ) / 10 ^ 9 * (2 * π / N) = 2 / 10 ^ 9 * (π / N) := by ring
        rw [e5] at h
        norm_num at h
        nlinarith
      · rw [div_le_div_iff₀ hN' (by positivity)] at h
        nlinarith [pi_gt_three]

/-- C21 for C_N, parametrisations `'int'` and `'radians'`. Missing: `'MAT'` (violated below). -/
theorem C21_cyclic_partial (N : ℕ) (p : PName) (hp : p ≠ .mat) (z : ℤ) (hz : Cyclic.isElement N z = true) :
    ∃ r, Cyclic.changeParam N .int p (.int z) = .ok r ∧ Cyclic.elementOf N p r = .ok z := by
  refine ⟨_, rfl, ?_⟩
  cases p with
  | mat => exact absurd rfl hp
  | int =>
    simp only [Cyclic.elementOf, Cyclic.ofInt, Cyclic.toInt, bind, Except.bind]
    rw [if_pos hz]
  | radians =>
    simp only [Cyclic.elementOf, Cyclic.ofInt, bind, Except.bind]
    rw [Cyclic.toInt_radians hz]
    simp only
    rw [if_pos hz]

/-- Exactly the rotations by `0` and `π` come back from their matrix (for `N ≤ 10¹¹`; beyond that the tolerance of
`cycle_isclose` accepts every angle). -/
theorem C21_cyclic_mat_exact (N : ℕ) (hN11 : N ≤ 10 ^ 11) (z : ℤ) (hz : Cyclic.isElement N z = true) :
    (∃ r, Cyclic.changeParam N .int .mat (.int z) = .ok r ∧ Cyclic.elementOf N .mat r = .ok z) ↔ 2 * z % N = 0 := by
  have hz' := hz
  rw [Cyclic.isElement_iff] at hz'
  have hN : 0 < N := by omega
  have hN' : (0 : ℝ) < N := by exact_mod_cast hN
  have key : (∃ r, Cyclic.changeParam N .int .mat (.int z) = .ok r ∧ Cyclic.elementOf N .mat r = .ok z) ↔
      Cyclic.toInt N .mat (.mat (rotMat (z * (2 * π) / N))) = .ok z := by
    constructor
    · rintro ⟨r, h1, h2⟩
      cases h1
      simp only [Cyclic.elementOf, Cyclic.ofInt, bind, Except.bind] at h2
      split at h2
      · cases h2
      · rename_i v hv
        split at h2
        · rw [← h2]
        · cases h2
    · intro h
      refine ⟨_, rfl, ?_⟩
      simp only [Cyclic.elementOf, Cyclic.ofInt, bind, Except.bind]
      rw [h]
      simp only
      rw [if_pos hz]
  rw [key, Cyclic.toInt_mat hN hN11]
  have dvd : 2 * z % N = 0 ↔ z = 0 ∨ 2 * z = N := by
    constructor
    · intro h
      obtain ⟨c, hc⟩ := Int.dvd_of_emod_eq_zero h
      have h0 : 0 ≤ c := by by_contra h0; nlinarith
      have h1 : c < 2 := by by_contra h1; nlinarith
      interval_cases c
      · left; omega
      · right; omega
    · rintro (rfl | h)
      · simp
      · rw [h, Int.emod_self]
  rw [dvd]
  constructor
  · intro h
    split_ifs at h with h1 h2
    · left
      injection h with h
      exact h.symm
    · right
      injection h with h
      omega
  · rintro (rfl | h)
    · rw [if_pos (by simp)]
    · have hzr : (2 : ℝ) * z = N := by exact_mod_cast h
      have : z * (2 * π) / N = π := by rw [← hzr]; have : (z : ℝ) ≠ 0 := by intro h0; rw [h0] at hzr; linarith
                                       field_simp
      rw [this, cos_pi, if_neg (by norm_num), if_pos (by omega)]
      congr 1
      omega

/-- C21 is violated: the matrix of the rotation by 90° is read as the identity of C_4. -/
theorem C21_cyclic_violated :
    ¬ ∀ (N : ℕ) (p : PName) (z : ℤ), Cyclic.isElement N z = true →
      ∃ r, Cyclic.changeParam N .int p (.int z) = .ok r ∧ Cyclic.elementOf N p r = .ok z := by
  intro h
  have := (C21_cyclic_mat_exact 4 (by norm_num) 1 rfl).1 (h 4 .mat 1 rfl)
  norm_num at this

/-- C21 for D_N, parametrisations `'int'` and `'radians'`. Missing: `'MAT'` (violated below). -/
theorem C21_dihedral_partial (N : ℕ) (p : PName) (hp : p ≠ .mat) (e : Dihedral.Elem) (he : Dihedral.isElement N e = true) :
    ∃ r, Dihedral.changeParam N .int p (e.1, .int e.2) = .ok r ∧ Dihedral.elementOf N p r = .ok e := by
  obtain ⟨f, z⟩ := e
  have h2 := he
  rw [Dihedral.isElement_iff] at h2
  have hz : Cyclic.isElement N z = true := Cyclic.isElement_iff.2 h2.2
  have hf : pyAssert (decide (f = 0 ∨ f = 1)) = .ok () := by rw [decide_eq_true h2.1]; rfl
  refine ⟨(f, Cyclic.ofInt N p z), ?_, ?_⟩
  · simp only [Dihedral.changeParam, Dihedral.toInt, Cyclic.toInt, bind, Except.bind]
    rw [hf]
  have key : Dihedral.toInt N p (f, Cyclic.ofInt N p z) = .ok (f, z) := by
    simp only [Dihedral.toInt, bind, Except.bind]
    rw [hf]
    cases p with
    | mat => exact absurd rfl hp
    | int => rfl
    | radians => simp only [Cyclic.ofInt]; rw [Cyclic.toInt_radians hz]
  simp only [Dihedral.elementOf, bind, Except.bind]
  rw [key]
  simp only
  rw [if_pos he]

/-- C21 is violated for D_N as well: the matrix of the rotation by 90° is read as the identity of D_4. -/
theorem C21_dihedral_violated :
    Dihedral.isElement 4 (0, 1) = true ∧
    ∃ r, Dihedral.changeParam 4 .int .mat (0, .int 1) = .ok r ∧ Dihedral.elementOf 4 .mat r = .ok (0, 0) := by
  refine ⟨rfl, _, rfl, ?_⟩
  have h := Cyclic.toInt_mat (N := 4) (by norm_num) (by norm_num) 1
  have hc : ((1 : ℤ) : ℝ) * (2 * π) / ((4 : ℕ) : ℝ) = π / 2 := by push_cast; ring
  rw [hc, cos_pi_div_two, if_pos le_rfl] at h
  have h' : Dihedral.toInt 4 .mat (0, Cyclic.ofInt 4 .mat 1) = .ok (0, 0) := by
    simp only [Dihedral.toInt, bind, Except.bind, Cyclic.ofInt]
    rw [hc, h]
    rfl
  simp only [Dihedral.elementOf, bind, Except.bind]
  rw [h']
  rfl

/-- What SO(2) and O(2) read from the matrix of a rotation. -/
theorem SO2.toRad_mat (x : ℝ) : toRad .mat (.mat (rotMat x)) = .ok (mod2pi x) := by
  simp only [toRad]
  rw [if_pos (isRotMat_rotMat x)]
  have h1 : ((rotMat x).get 1 0 - (rotMat x).get 0 1) / 2 = sin x := by simp only [rotMat, of2]; norm_num
  have h2 : ((rotMat x).get 0 0 + (rotMat x).get 1 1) / 2 = cos x := by simp only [rotMat, of2]; norm_num
  rw [h1, h2, arctan2_spec]

/-- C21 for SO(2): both parametrisations (`'int'` is not one of its parametrisations). -/
theorem C21_so2 (p : PName) (hp : p ≠ .int) (x : ℝ) (hx : SO2.IsElement x) :
    ∃ r, SO2.changeParam .radians p (.rad x) = .ok r ∧ SO2.elementOf p r = .ok x := by
  have hm : mod2pi x = x := mod2pi_eq_self hx.1 hx.2
  cases p with
  | int => exact absurd rfl hp
  | radians =>
    refine ⟨.rad (mod2pi x), rfl, ?_⟩
    simp only [SO2.elementOf, SO2.toRad]
    rw [hm, hm]
  | mat =>
    refine ⟨.mat (rotMat (mod2pi x)), rfl, ?_⟩
    rw [SO2.elementOf, SO2.toRad_mat, hm, hm]

/-- C21 for O(2). -/
theorem C21_o2 (p : PName) (hp : p ≠ .int) (e : O2.Elem) (he : O2.IsElement e) :
    ∃ r, O2.changeParam .radians p (e.1, .rad e.2) = .ok r ∧ O2.elementOf p r = .ok e := by
  obtain ⟨f, x⟩ := e
  obtain ⟨r, h1, h2⟩ := C21_so2 p hp x he.2
  refine ⟨(f, r), ?_, ?_⟩
  · simp only [SO2.changeParam, bind, Except.bind] at h1
    simp only [O2.changeParam, O2.toRad, bind, Except.bind]
    cases h : SO2.toRad .radians (.rad x) with
    | error e => rw [h] at h1; cases h1
    | ok v => rw [h] at h1; simp only at h1 ⊢; rw [h1]
  · have key : O2.toRad p (f, r) = .ok (f, x) := by
      rw [SO2.elementOf] at h2
      simp only [O2.toRad, bind, Except.bind]
      rw [h2]
    simp only [O2.elementOf, bind, Except.bind]
    rw [key]
    simp only
    rw [if_pos he.1]

/-- The matrices are the ones of the rotations, so that `to('MAT')` is the standard representation. -/
theorem C21_mat_faithful (x y : ℝ) (h : rotMat x ≈ rotMat y) : mod2pi x = mod2pi y := by
  have hc : cos x = cos y := h.2.2 0 0 (Nat.lt_of_lt_of_le (by norm_num) (le_refl 2)) (Nat.lt_of_lt_of_le (by norm_num) (le_refl 2))
  have hs : sin x = sin y := h.2.2 1 0 (Nat.lt_of_lt_of_le (by norm_num) (le_refl 2)) (Nat.lt_of_lt_of_le (by norm_num) (le_refl 2))
  rw [← arctan2_spec x, hc, hs, arctan2_spec]

example : Cyclic.isElement 8 3 = true ∧ PName.radians ≠ .mat := by decide
example : Dihedral.isElement 8 (1, 3) = true := by decide
example : SO2.IsElement 1 ∧ O2.IsElement (1, 2) := by
  have := pi_gt_three
  refine ⟨⟨by norm_num, by linarith⟩, Or.inr rfl, by norm_num, ?_⟩
  show (2 : ℝ) < 2 * π
  linarith

end Escnn
