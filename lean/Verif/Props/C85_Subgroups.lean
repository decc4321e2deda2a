import Verif.Props.C85_Octahedral

/-!
# C85: the subgroups of the octahedral group
-/

namespace Escnn

open Real Quaternion NpMat
open scoped Matrix

namespace Octa

variable {aq : UQuat → UQuat}

/-- The rotation by `2 π h / n` around the axis of `(False, n)`: Z for `n = 2, 4`; for `n = 3` the axis `(1, 1, 1)` and `x ↦ y ↦ z ↦ x`. -/
noncomputable def turn (n h : ℤ) : Mat3 := if n = 3 then !![0, 0, 1; 1, 0, 0; 0, 1, 0] ^ h.toNat else rotZ (h * (2 * π) / n)

/-- The index of that rotation in the list of the elements. -/
def idx (n h : ℤ) : ℕ :=
  if h = 0 then 3 else if n = 2 then 2 else if n = 3 then (if h = 1 then 7 else 11) else if h = 1 then 14 else if h = 2 then 2 else 15

/-- The quaternion built by `cn_to_octa`. -/
noncomputable def cnQuat (n h : ℤ) : UQuat :=
  quat (axisOf n 0 * sin (Cyclic.radians n.toNat h / 2)) (axisOf n 1 * sin (Cyclic.radians n.toNat h / 2)) (axisOf n 2 * sin (Cyclic.radians n.toNat h / 2)) (cos (Cyclic.radians n.toNat h / 2))

theorem sq2 : √2 * √2 = (2 : ℝ) := Real.mul_self_sqrt (by norm_num)

theorem sin_two_thirds : sin (2 * π / 3) = √3 / 2 := by
  rw [show 2 * π / 3 = π - π / 3 by ring, sin_pi_sub, sin_pi_div_three]

theorem cos_two_thirds : cos (2 * π / 3) = -1 / 2 := by
  rw [show 2 * π / 3 = π - π / 3 by ring, cos_pi_sub, cos_pi_div_three]; ring

theorem sin_three_quarters : sin (3 * π / 4) = √2 / 2 := by
  rw [show 3 * π / 4 = π - π / 4 by ring, sin_pi_sub, sin_pi_div_four]

theorem cos_three_quarters : cos (3 * π / 4) = -(√2 / 2) := by
  rw [show 3 * π / 4 = π - π / 4 by ring, cos_pi_sub, cos_pi_div_four]

/-- The nine cases. -/
inductive Case : ℤ → ℤ → Prop
  | c20 : Case 2 0 | c21 : Case 2 1 | c30 : Case 3 0 | c31 : Case 3 1 | c32 : Case 3 2 | c40 : Case 4 0 | c41 : Case 4 1 | c42 : Case 4 2 | c43 : Case 4 3

theorem case_of {n h : ℤ} (hn : n = 2 ∨ n = 3 ∨ n = 4) (hh : Cyclic.isElement n.toNat h = true) : Case n h := by
  rw [Cyclic.isElement_iff] at hh
  obtain ⟨h1, h2⟩ := hh
  rcases hn with rfl | rfl | rfl <;> norm_num at h2 <;> interval_cases h <;> constructor

theorem cnQuat_eq {n h : ℤ} (c : Case n h) : cnQuat n h =
    if h = 0 then quat 0 0 0 1 else if n = 3 then quat (1 / 2) (1 / 2) (1 / 2) (if h = 1 then 1 / 2 else -1 / 2)
      else if n = 2 ∨ h = 2 then quat 0 0 1 0 else quat 0 0 (√2 / 2) (if h = 1 then √2 / 2 else -(√2 / 2)) := by
  have h3 : (√3)⁻¹ * (√3 / 2) = 1 / 2 := by
    have : √3 ≠ 0 := (Real.sqrt_pos.2 (by norm_num)).ne'
    field_simp
  cases c with
  | c20 | c30 | c40 => simp [cnQuat, Cyclic.radians, quat]; rfl
  | c21 =>
    have e : Cyclic.radians (2 : ℤ).toNat 1 / 2 = π / 2 := by change ((1 : ℤ) : ℝ) * (2 * π) / ((2 : ℕ) : ℝ) / 2 = _; push_cast; ring
    simp only [cnQuat, e, sin_pi_div_two, cos_pi_div_two]
    simp [axisOf]
  | c31 =>
    have e : Cyclic.radians (3 : ℤ).toNat 1 / 2 = π / 3 := by change ((1 : ℤ) : ℝ) * (2 * π) / ((3 : ℕ) : ℝ) / 2 = _; push_cast; ring
    simp only [cnQuat, e, sin_pi_div_three, cos_pi_div_three]
    norm_num [axisOf, h3]
  | c32 =>
    have e : Cyclic.radians (3 : ℤ).toNat 2 / 2 = 2 * π / 3 := by change ((2 : ℤ) : ℝ) * (2 * π) / ((3 : ℕ) : ℝ) / 2 = _; push_cast; ring
    simp only [cnQuat, e, sin_two_thirds, cos_two_thirds]
    norm_num [axisOf, h3]
  | c41 =>
    have e : Cyclic.radians (4 : ℤ).toNat 1 / 2 = π / 4 := by change ((1 : ℤ) : ℝ) * (2 * π) / ((4 : ℕ) : ℝ) / 2 = _; push_cast; ring
    simp only [cnQuat, e, sin_pi_div_four, cos_pi_div_four]
    simp [axisOf]
  | c42 =>
    have e : Cyclic.radians (4 : ℤ).toNat 2 / 2 = π / 2 := by change ((2 : ℤ) : ℝ) * (2 * π) / ((4 : ℕ) : ℝ) / 2 = _; push_cast; ring
    simp only [cnQuat, e, sin_pi_div_two, cos_pi_div_two]
    simp [axisOf]
  | c43 =>
    have e : Cyclic.radians (4 : ℤ).toNat 3 / 2 = 3 * π / 4 := by change ((3 : ℤ) : ℝ) * (2 * π) / ((4 : ℕ) : ℝ) / 2 = _; push_cast; ring
    simp only [cnQuat, e, sin_three_quarters, cos_three_quarters]
    simp [axisOf]

theorem nth2 : nth 2 = ⟨-1, 0, 0, 0, -1, 0, 0, 0, 1⟩ := by decide +kernel
theorem nth3 : nth 3 = ⟨1, 0, 0, 0, 1, 0, 0, 0, 1⟩ := by decide +kernel
theorem nth7 : nth 7 = ⟨0, 0, 1, 1, 0, 0, 0, 1, 0⟩ := by decide +kernel
theorem nth14 : nth 14 = ⟨0, -1, 0, 1, 0, 0, 0, 0, 1⟩ := by decide +kernel
theorem nth15 : nth 15 = ⟨0, 1, 0, -1, 0, 0, 0, 0, 1⟩ := by decide +kernel

theorem idx_lt {n h : ℤ} : idx n h < 24 := by
  unfold idx; split_ifs <;> norm_num

theorem cnQuat_spec {n h : ℤ} (c : Case n h) : normSq (cnQuat n h) = 1 ∧ rotOf (cnQuat n h) = mat (nth (idx n h)) := by
  have := sq2
  rw [cnQuat_eq c]
  cases c <;> simp only [idx] <;> norm_num <;> refine ⟨by rw [SO3.normSq_quat]; nlinarith, ?_⟩ <;> simp only [nth2, nth3, nth7, nth11, nth14, nth15] <;> ext i j <;> fin_cases i <;> fin_cases j <;>
    simp [rotOf, quat, mat] <;> nlinarith

theorem turn_eq {n h : ℤ} (c : Case n h) : turn n h = mat (nth (idx n h)) := by
  cases c with
  | c20 | c40 =>
    simp only [turn, idx]; norm_num
    rw [rotZ_zero, nth3, ← mat_identity]; rfl
  | c30 =>
    simp only [turn, idx]; norm_num
    rw [nth3, ← mat_identity]; rfl
  | c21 =>
    simp only [turn, idx]; norm_num
    rw [nth2]; ext i j
    fin_cases i <;> fin_cases j <;> simp [rotZ, mat]
  | c31 =>
    simp only [turn, idx]; norm_num
    rw [nth7]; ext i j
    fin_cases i <;> fin_cases j <;> simp [mat]
  | c32 =>
    simp only [turn, idx]; norm_num
    rw [nth11, show Int.toNat 2 = 2 from rfl, pow_two]; ext i j
    fin_cases i <;> fin_cases j <;> simp [mat, Matrix.mul_apply, Fin.sum_univ_three]
  | c41 =>
    simp only [turn, idx]; norm_num
    rw [nth14, show 2 * π / 4 = π / 2 by ring]; ext i j
    fin_cases i <;> fin_cases j <;> simp [rotZ, mat]
  | c42 =>
    simp only [turn, idx]; norm_num
    rw [nth2, show 2 * (2 * π) / 4 = π by ring]; ext i j
    fin_cases i <;> fin_cases j <;> simp [rotZ, mat]
  | c43 =>
    have e : 3 * (2 * π) / 4 = π / 2 + π := by ring
    simp only [turn, idx]; norm_num
    rw [nth15, e]; ext i j
    fin_cases i <;> fin_cases j <;> simp [rotZ, mat, sin_add, cos_add]

theorem idx_mul : ∀ n ∈ ([2, 3, 4] : List ℤ), ∀ h ∈ ([0, 1, 2, 3] : List ℤ), ∀ h' ∈ ([0, 1, 2, 3] : List ℤ), h < n → h' < n →
    nth (idx n ((h + h') % n)) = combine (nth (idx n h)) (nth (idx n h')) ∧ (nth (idx n h) = nth (idx n h') → h = h') := by decide +kernel

theorem conj_mem {adj : UQuat} (hadj : IsElement adj) {g : UQuat} (hg : normSq g = 1) {x : Elem} (hx : x ∈ elements) (h : rotOf g = (rotOf adj)ᵀ * mat x * rotOf adj) : IsElement g := by
  obtain ⟨a, ha, e⟩ := (isElement_iff hadj.1).1 hadj
  refine (isElement_iff hg).2 ⟨combine (combine (inverse a) x) a, finGroup.mul_mem _ (finGroup.mul_mem _ (finGroup.inv_mem a ha) _ hx) _ ha, ?_⟩
  rw [h, e, mat_combine, mat_combine, mat_inverse]

theorem parent_ok (haq : AsQuat aq) {adj : UQuat} (hadj : IsElement adj) {n h : ℤ} (c : Case n h) :
    ∃ g, cnToOcta aq (axisOf n) adj (Cyclic.radians n.toNat h) = .ok g ∧ IsElement g ∧ rotOf g = (rotOf adj)ᵀ * turn n h * rotOf adj := by
  obtain ⟨hu, hr⟩ := cnQuat_spec c
  have hE : IsElement (cnQuat n h) := (isElement_iff hu).2 ⟨_, mem_nth idx_lt, hr⟩
  obtain ⟨hg1, hg2⟩ := SO3.intoParent_spec haq hadj.1 _ hu
  refine ⟨SO3.intoParent aq adj (cnQuat n h), ?_, ?_, ?_⟩
  · rw [cnToOcta]
    change (element (cnQuat n h) >>= _) = _
    rw [element, if_pos hE]; rfl
  · exact conj_mem hadj hg1 (mem_nth idx_lt) (by rw [hg2, hr])
  · rw [hg2, hr, turn_eq c]

/-- **C85** The subgroups `(False, n, adj)`, `n = 2, 3, 4`, are cyclic groups of `n` rotations around the axis `adj⁻¹ Z` (for `n = 3`: `adj⁻¹ (1, 1, 1)`): the inclusion succeeds on every element, it is a homomorphism and
injective. -/
theorem C85_cyclic (haq : AsQuat aq) {adj : UQuat} (hadj : IsElement adj) {n : ℤ} (hn : n = 2 ∨ n = 3 ∨ n = 4) :
    ∃ P C, subgroup aq (.pair false n) adj = .ok ⟨ℤ, fun e => Cyclic.isElement n.toNat e = true, Cyclic.combine n.toNat, P, C⟩ ∧
      (∀ h, Cyclic.isElement n.toNat h = true → ∃ g, P h = .ok g ∧ IsElement g ∧ rotOf g = (rotOf adj)ᵀ * turn n h * rotOf adj) ∧
      (∀ h h' g g', Cyclic.isElement n.toNat h = true → Cyclic.isElement n.toNat h' = true → P h = .ok g → P h' = .ok g' →
        (∃ k, P (Cyclic.combine n.toNat h h') = .ok k ∧ rotOf k = rotOf g * rotOf g') ∧ (rotOf g = rotOf g' → h = h')) := by
  have hn1 : n ≠ 1 := by omega
  refine ⟨_, _, by rw [subgroup, if_neg hn1, if_pos hn], fun h hh => parent_ok haq hadj (case_of hn hh), fun h h' g g' hh hh' hg hg' => ?_⟩
  have c := case_of hn hh
  have c' := case_of hn hh'
  have hnat : ((n.toNat : ℕ) : ℤ) = n := by omega
  have hA := rotOf_orth hadj.1
  have hmod : Cyclic.isElement n.toNat (Cyclic.combine n.toNat h h') = true := by
    rw [Cyclic.isElement_iff, Cyclic.combine, hnat]
    exact ⟨Int.emod_nonneg _ (by omega), Int.emod_lt_of_pos _ (by omega)⟩
  have mem : ∀ {h}, Cyclic.isElement n.toNat h = true → h ∈ ([0, 1, 2, 3] : List ℤ) ∧ h < n := fun {h} hh => by
    rw [Cyclic.isElement_iff, hnat] at hh
    refine ⟨?_, hh.2⟩
    simp only [List.mem_cons, List.not_mem_nil, or_false]
    omega
  obtain ⟨hmul, hinj⟩ := idx_mul n (by simpa using hn) h (mem hh).1 h' (mem hh').1 (mem hh).2 (mem hh').2
  obtain ⟨p, hp, -, hpr⟩ := parent_ok haq hadj c
  obtain ⟨p', hp', -, hpr'⟩ := parent_ok haq hadj c'
  obtain ⟨k, hk, -, hkr⟩ := parent_ok haq hadj (case_of hn hmod)
  obtain rfl : g = p := Except.ok.inj (hg.symm.trans hp)
  obtain rfl : g' = p' := Except.ok.inj (hg'.symm.trans hp')
  rw [turn_eq c] at hpr
  rw [turn_eq c'] at hpr'
  refine ⟨⟨k, hk, ?_⟩, fun he => ?_⟩
  · rw [hkr, turn_eq (case_of hn hmod), Cyclic.combine, hnat, hmul, hpr, hpr', mat_combine]
    have e : (rotOf adj)ᵀ * mat (nth (idx n h)) * rotOf adj * ((rotOf adj)ᵀ * mat (nth (idx n h')) * rotOf adj) =
        (rotOf adj)ᵀ * mat (nth (idx n h)) * (rotOf adj * (rotOf adj)ᵀ) * mat (nth (idx n h')) * rotOf adj := by simp only [mul_assoc]
    rw [e, hA, mul_one]
    simp only [mul_assoc]
  · refine hinj (mat_inj ?_)
    rw [hpr, hpr'] at he
    have e2 : ∀ M : Mat3, rotOf adj * ((rotOf adj)ᵀ * M * rotOf adj) * (rotOf adj)ᵀ = M := fun M => by
      calc _ = (rotOf adj * (rotOf adj)ᵀ) * M * (rotOf adj * (rotOf adj)ᵀ) := by simp only [mul_assoc]
        _ = M := by rw [hA, one_mul, mul_one]
    rw [← e2 (mat (nth (idx n h))), he, e2]

theorem axis_unit (n : ℤ) : axisOf n 0 ^ 2 + axisOf n 1 ^ 2 + axisOf n 2 ^ 2 = 1 := by
  unfold axisOf
  split_ifs
  · simp only [div_pow, one_pow, Real.sq_sqrt (show (0 : ℝ) ≤ 3 by norm_num)]; norm_num
  · simp

theorem arctan2_angle {t : ℝ} (h0 : 0 < t) (h1 : t ≤ π) : arctan2 (sin t) (cos t) = t := by
  have e : (⟨cos t, sin t⟩ : ℂ) = Complex.cos t + Complex.sin t * Complex.I := by
    apply Complex.ext <;> simp [Complex.cos_ofReal_re, Complex.sin_ofReal_re]
  rw [arctan2, e, Complex.arg_cos_add_sin_mul_I ⟨by linarith, h1⟩]

theorem half_angle {n h : ℤ} (c : Case n h) (h0 : h ≠ 0) : 0 < Cyclic.radians n.toNat h / 2 ∧ Cyclic.radians n.toNat h / 2 < π := by
  have := pi_pos
  cases c <;> first | exact absurd rfl h0 | (simp only [Cyclic.radians, show Int.toNat 2 = 2 from rfl, show Int.toNat 3 = 3 from rfl, show Int.toNat 4 = 4 from rfl]; constructor <;> push_cast <;> linarith)

theorem child_pos {n h : ℤ} (c : Case n h) (hh : Cyclic.isElement n.toNat h = true) {adj e : UQuat} (he : SO3.intoChild aq adj e = cnQuat n h) : octaToCn aq n.toNat (axisOf n) adj e = .ok (some h) := by
  rw [octaToCn]
  simp only [he]
  have hs : (cnQuat n h).imI ^ 2 + (cnQuat n h).imJ ^ 2 + (cnQuat n h).imK ^ 2 = sin (Cyclic.radians n.toNat h / 2) ^ 2 := by
    simp only [cnQuat, quat]
    linear_combination sin (Cyclic.radians n.toNat h / 2) ^ 2 * axis_unit n
  rw [hs]
  by_cases h0 : h = 0
  · subst h0
    rw [if_pos (by simp [Cyclic.radians])]; rfl
  · obtain ⟨a1, a2⟩ := half_angle c h0
    have hp := sin_pos_of_pos_of_lt_pi a1 a2
    rw [Real.sqrt_sq hp.le, if_neg hp.ne', if_pos]
    · have : (cnQuat n h).re = cos (Cyclic.radians n.toNat h / 2) := rfl
      rw [this, arctan2_angle a1 a2.le, Cyclic.elementOf_turn hh 0 (by push_cast; ring)]
      rfl
    · refine ⟨?_, ?_, ?_⟩
      · change axisOf n 0 * sin _ / sin _ = _
        field_simp
      · change axisOf n 1 * sin _ / sin _ = _
        field_simp
      · change axisOf n 2 * sin _ / sin _ = _
        field_simp

theorem child_neg {n h : ℤ} (c : Case n h) (h0 : h ≠ 0) {adj e : UQuat} (he : SO3.intoChild aq adj e = -cnQuat n h) : octaToCn aq n.toNat (axisOf n) adj e = .ok none := by
  rw [octaToCn]
  simp only [he]
  have hs : (-cnQuat n h).imI ^ 2 + (-cnQuat n h).imJ ^ 2 + (-cnQuat n h).imK ^ 2 = sin (Cyclic.radians n.toNat h / 2) ^ 2 := by
    rw [imI_neg, imJ_neg, imK_neg]
    simp only [cnQuat, quat]
    linear_combination sin (Cyclic.radians n.toNat h / 2) ^ 2 * axis_unit n
  rw [hs]
  obtain ⟨a1, a2⟩ := half_angle c h0
  have hp := sin_pos_of_pos_of_lt_pi a1 a2
  rw [Real.sqrt_sq hp.le, if_neg hp.ne', if_neg]
  rintro ⟨-, -, h2⟩
  have e2 : (-cnQuat n h).imK / sin (Cyclic.radians n.toNat h / 2) = -axisOf n 2 := by
    change -(axisOf n 2 * sin _) / sin _ = _
    field_simp
  rw [e2] at h2
  have h3 : axisOf n 2 = 0 := by linarith
  unfold axisOf at h3
  split_ifs at h3
  · have : √3 ≠ 0 := (Real.sqrt_pos.2 (by norm_num)).ne'
    simp at h3
  · simp at h3

/-- The elements around an axis, up to sign. -/
theorem around : ∀ q ∈ quats, (q.1 = 0 → q.2.1 = 0 → ofQuat q = nth 3 ∨ ofQuat q = nth 2 ∨ (q = (0, 0, 1, 1) ∧ ofQuat q = nth 14 ∨ q = (0, 0, -1, 1) ∧ ofQuat q = nth 15)) ∧
    (q.1 = q.2.1 → q.2.1 = q.2.2.1 → ofQuat q = nth 3 ∨ ofQuat q = nth 7 ∨ ofQuat q = nth 11) := by decide +kernel

theorem elementOf_quarter (m : ℤ) : Cyclic.elementOf 2 .radians (.rad (π / 2 * (2 * m + 1 : ℤ))) = .error .value := by
  rcases Cyclic.toInt_tol (N := 2) (by norm_num) (π / 2 * (2 * m + 1 : ℤ)) with h | ⟨h, k, h1, h2, h3⟩
  · simp only [Cyclic.elementOf, h]; rfl
  · exfalso
    have e : π / 2 * ((2 * m + 1 : ℤ) : ℝ) - Cyclic.radians 2 h - k * (2 * π) = π / 2 * ((2 * m + 1 - 2 * h - 4 * k : ℤ) : ℝ) := by
      simp only [Cyclic.radians]; push_cast; ring
    rw [e, abs_mul, abs_of_pos (by positivity)] at h3
    have h4 : (1 : ℝ) ≤ |((2 * m + 1 - 2 * h - 4 * k : ℤ) : ℝ)| := by
      rw [← Int.cast_abs]
      exact_mod_cast Int.one_le_abs (by omega)
    have : (3 : ℝ) < π := pi_gt_three
    have : π / 2 * 1 ≤ π / 2 * |((2 * m + 1 - 2 * h - 4 * k : ℤ) : ℝ)| := mul_le_mul_of_nonneg_left h4 (by positivity)
    have h5 : π / 2 * 1 ≤ 1 / 10 ^ 8 := this.trans h3
    norm_num at h5
    linarith

theorem child_quarter {adj e : UQuat} {z w : ℝ} (hz : z = √2 / 2 ∨ z = -(√2 / 2)) (hw : w = √2 / 2 ∨ w = -(√2 / 2)) (he : SO3.intoChild aq adj e = quat 0 0 z w) :
    octaToCn aq 2 (axisOf 2) adj e = .ok none := by
  have h2 : 0 < √2 / 2 := by positivity
  have hs : (quat 0 0 z w).imI ^ 2 + (quat 0 0 z w).imJ ^ 2 + (quat 0 0 z w).imK ^ 2 = (√2 / 2) ^ 2 := by
    change (0 : ℝ) ^ 2 + 0 ^ 2 + z ^ 2 = _
    rcases hz with rfl | rfl <;> ring
  rw [octaToCn]
  simp only [he]
  rw [hs, Real.sqrt_sq h2.le, if_neg h2.ne']
  change (if _ then orNone (Cyclic.elementOf 2 .radians (.rad (2 * arctan2 (√2 / 2) w))) else _) = _
  have : arctan2 (√2 / 2) w = π / 4 ∨ arctan2 (√2 / 2) w = 3 * π / 4 := by
    have := pi_pos
    rcases hw with rfl | rfl
    · left
      have h := arctan2_angle (t := π / 4) (by linarith) (by linarith)
      rwa [sin_pi_div_four, cos_pi_div_four] at h
    · right
      have h := arctan2_angle (t := 3 * π / 4) (by linarith) (by linarith)
      rwa [sin_three_quarters, cos_three_quarters] at h
  have hE : orNone (Cyclic.elementOf 2 .radians (.rad (2 * arctan2 (√2 / 2) w))) = .ok none := by
    rcases this with h | h
    · rw [h, show 2 * (π / 4) = π / 2 * ((2 * 0 + 1 : ℤ) : ℝ) by push_cast; ring, elementOf_quarter]; rfl
    · rw [h, show 2 * (3 * π / 4) = π / 2 * ((2 * 1 + 1 : ℤ) : ℝ) by push_cast; ring, elementOf_quarter]; rfl
  rw [hE]
  split_ifs <;> rfl

theorem unitQ14 : unitQ (0, 0, 1, 1) = quat 0 0 (√2 / 2) (√2 / 2) := by
  have h1 : (√2)⁻¹ = √2 / 2 := by rw [inv_eq_one_div]; field_simp; exact (Real.sq_sqrt (by norm_num)).symm
  simp only [unitQ]
  norm_num
  rw [h1]

theorem unitQ15 : unitQ (0, 0, -1, 1) = quat 0 0 (-(√2 / 2)) (√2 / 2) := by
  have h1 : (√2)⁻¹ = √2 / 2 := by rw [inv_eq_one_div]; field_simp; exact (Real.sq_sqrt (by norm_num)).symm
  have h2 : -1 / √2 = -(√2 / 2) := by rw [← h1]; ring
  simp only [unitQ]
  norm_num
  rw [h1, h2]

theorem neg_quat {z w : ℝ} : -quat 0 0 z w = quat 0 0 (-z) (-w) := by
  apply Quaternion.ext
  · exact re_neg _
  · rw [imI_neg]; exact neg_zero
  · rw [imJ_neg]; exact neg_zero
  · exact imK_neg _

/-- An element of the group, in the frame of the subgroup, is in the subgroup or it is mapped to `None`. -/
theorem child_cases {n : ℤ} (hn : n = 2 ∨ n = 3 ∨ n = 4) {adj e : UQuat} (hu : normSq (SO3.intoChild aq adj e) = 1) {x : Elem} (hx : x ∈ elements) (hr : rotOf (SO3.intoChild aq adj e) = mat x) :
    (∃ h, Cyclic.isElement n.toNat h = true ∧ Case n h ∧ mat x = turn n h) ∨ octaToCn aq n.toNat (axisOf n) adj e = .ok none := by
  obtain ⟨q, hq, rfl, -⟩ := toQ_eq hx
  have hpos : (0 : ℝ) < ((q.1 * q.1 + q.2.1 * q.2.1 + q.2.2.1 * q.2.2.1 + q.2.2.2 * q.2.2.2 : ℤ) : ℝ) := by exact_mod_cast (quats_int q hq).1
  have hr0 : √((q.1 * q.1 + q.2.1 * q.2.1 + q.2.2.1 * q.2.2.1 + q.2.2.2 * q.2.2.2 : ℤ) : ℝ) ≠ 0 := (Real.sqrt_pos.2 hpos).ne'
  have hpm := (rotOf_eq_iff hu (unitQ_unit hq)).1 (hr.trans (rotOf_unitQ hq).symm)
  have key : ∃ s : ℝ, s ≠ 0 ∧ (SO3.intoChild aq adj e).imI = s * q.1 ∧ (SO3.intoChild aq adj e).imJ = s * q.2.1 ∧ (SO3.intoChild aq adj e).imK = s * q.2.2.1 := by
    rcases hpm with h | h
    · exact ⟨1 / √((q.1 * q.1 + q.2.1 * q.2.1 + q.2.2.1 * q.2.2.1 + q.2.2.2 * q.2.2.2 : ℤ) : ℝ), one_div_ne_zero hr0, by rw [h]; simp [unitQ, quat]; ring, by rw [h]; simp [unitQ, quat]; ring, by rw [h]; simp [unitQ, quat]; ring⟩
    · rw [neg_eq_iff_eq_neg] at h
      exact ⟨-(1 / √((q.1 * q.1 + q.2.1 * q.2.1 + q.2.2.1 * q.2.2.1 + q.2.2.2 * q.2.2.2 : ℤ) : ℝ)), neg_ne_zero.2 (one_div_ne_zero hr0), by rw [h, imI_neg]; simp [unitQ, quat]; ring, by rw [h, imJ_neg]; simp [unitQ, quat]; ring, by rw [h, imK_neg]; simp [unitQ, quat]; ring⟩
  by_cases hin : ∃ h, Cyclic.isElement n.toNat h = true ∧ Case n h ∧ mat (ofQuat q) = turn n h
  · exact .inl hin
  refine .inr ?_
  have hin' : ∀ {h : ℤ}, Case n h → Cyclic.isElement n.toNat h = true → ofQuat q = nth (idx n h) → False :=
    fun c hh h => hin ⟨_, hh, c, by rw [turn_eq c, h]⟩
  have hoff : ∀ {a : ℝ}, (∀ N : ℝ, N ≠ 0 → ¬((SO3.intoChild aq adj e).imI / N = axisOf n 0 ∧ (SO3.intoChild aq adj e).imJ / N = axisOf n 1 ∧ (SO3.intoChild aq adj e).imK / N = axisOf n 2)) →
      √((SO3.intoChild aq adj e).imI ^ 2 + (SO3.intoChild aq adj e).imJ ^ 2 + (SO3.intoChild aq adj e).imK ^ 2) ≠ 0 → octaToCn aq n.toNat (axisOf n) adj e = .ok none := by
    intro _ h1 h2
    unfold octaToCn
    change (if √((SO3.intoChild aq adj e).imI ^ 2 + (SO3.intoChild aq adj e).imJ ^ 2 + (SO3.intoChild aq adj e).imK ^ 2) = 0 then _ else _) = _
    rw [if_neg h2]
    exact if_neg (h1 _ h2)
  have hzero : √((SO3.intoChild aq adj e).imI ^ 2 + (SO3.intoChild aq adj e).imJ ^ 2 + (SO3.intoChild aq adj e).imK ^ 2) ≠ 0 := by
    intro h
    rw [Real.sqrt_eq_zero (by positivity)] at h
    have hI : (SO3.intoChild aq adj e).imI = 0 := by nlinarith [sq_nonneg (SO3.intoChild aq adj e).imI, sq_nonneg (SO3.intoChild aq adj e).imJ, sq_nonneg (SO3.intoChild aq adj e).imK]
    have hJ : (SO3.intoChild aq adj e).imJ = 0 := by nlinarith [sq_nonneg (SO3.intoChild aq adj e).imI, sq_nonneg (SO3.intoChild aq adj e).imJ, sq_nonneg (SO3.intoChild aq adj e).imK]
    have hK : (SO3.intoChild aq adj e).imK = 0 := by nlinarith [sq_nonneg (SO3.intoChild aq adj e).imI, sq_nonneg (SO3.intoChild aq adj e).imJ, sq_nonneg (SO3.intoChild aq adj e).imK]
    obtain ⟨s, hs, e1, e2, e3⟩ := key
    rw [hI] at e1; rw [hJ] at e2; rw [hK] at e3
    have z1 : q.1 = 0 := by exact_mod_cast (mul_eq_zero.1 e1.symm).resolve_left hs
    have z2 : q.2.1 = 0 := by exact_mod_cast (mul_eq_zero.1 e2.symm).resolve_left hs
    have z3 : q.2.2.1 = 0 := by exact_mod_cast (mul_eq_zero.1 e3.symm).resolve_left hs
    have : ∀ q ∈ quats, q.1 = 0 → q.2.1 = 0 → q.2.2.1 = 0 → ofQuat q = nth 3 := by decide +kernel
    have hid := this q hq z1 z2 z3
    rcases hn with rfl | rfl | rfl
    · exact hin' .c20 (by decide) hid
    · exact hin' .c30 (by decide) hid
    · exact hin' .c40 (by decide) hid
  obtain ⟨s, hs, e1, e2, e3⟩ := key
  rcases hn with rfl | rfl | rfl
  · by_cases hz : q.1 = 0 ∧ q.2.1 = 0
    · rcases (around q hq).1 hz.1 hz.2 with h | h | ⟨rfl, h⟩ | ⟨rfl, h⟩
      · exact (hin' .c20 (by decide) h).elim
      · exact (hin' .c21 (by decide) h).elim
      · rw [unitQ14] at hpm
        rcases hpm with h | h
        · exact child_quarter (.inl rfl) (.inl rfl) h
        · exact child_quarter (.inr rfl) (.inr rfl) ((neg_eq_iff_eq_neg.1 h).trans neg_quat)
      · rw [unitQ15] at hpm
        rcases hpm with h | h
        · exact child_quarter (.inr rfl) (.inl rfl) h
        · exact child_quarter (.inl (neg_neg _)) (.inr rfl) ((neg_eq_iff_eq_neg.1 h).trans neg_quat)
    · refine hoff (a := 0) (fun N hN ⟨a, b, _⟩ => hz ?_) hzero
      rw [e1, show axisOf 2 0 = 0 by simp [axisOf], div_eq_zero_iff, or_iff_left hN, mul_eq_zero, or_iff_right hs] at a
      rw [e2, show axisOf 2 1 = 0 by simp [axisOf], div_eq_zero_iff, or_iff_left hN, mul_eq_zero, or_iff_right hs] at b
      exact ⟨by exact_mod_cast a, by exact_mod_cast b⟩
  · refine hoff (a := 0) (fun N hN ⟨a, b, c⟩ => ?_) hzero
    have hab : q.1 = q.2.1 := by
      have := a.trans (show axisOf 3 0 = axisOf 3 1 by simp [axisOf]) |>.trans b.symm
      rw [div_left_inj' hN, e1, e2] at this
      exact_mod_cast mul_left_cancel₀ hs this
    have hbc : q.2.1 = q.2.2.1 := by
      have := b.trans (show axisOf 3 1 = axisOf 3 2 by simp [axisOf]) |>.trans c.symm
      rw [div_left_inj' hN, e2, e3] at this
      exact_mod_cast mul_left_cancel₀ hs this
    rcases (around q hq).2 hab hbc with h | h | h
    · exact hin' .c30 (by decide) h
    · exact hin' .c31 (by decide) h
    · exact hin' .c32 (by decide) h
  · refine hoff (a := 0) (fun N hN ⟨a, b, _⟩ => ?_) hzero
    rw [e1, show axisOf 4 0 = 0 by simp [axisOf], div_eq_zero_iff, or_iff_left hN, mul_eq_zero, or_iff_right hs] at a
    rw [e2, show axisOf 4 1 = 0 by simp [axisOf], div_eq_zero_iff, or_iff_left hN, mul_eq_zero, or_iff_right hs] at b
    rcases (around q hq).1 (by exact_mod_cast a) (by exact_mod_cast b) with h | h | ⟨-, h⟩ | ⟨-, h⟩
    · exact hin' .c40 (by decide) h
    · exact hin' .c42 (by decide) h
    · exact hin' .c41 (by decide) h
    · exact hin' .c43 (by decide) h

/-- **C85** The map from the group to the subgroup `(False, n, adj)`, `n = 2, 3, 4`, never fails; an element which it returns is mapped by the inclusion to the given rotation; an element outside of the subgroup gives `None`.
Missing: an element of the subgroup which is not the identity can give `None` (`C85_child_violation`). -/
theorem C85_child_partial (haq : AsQuat aq) {adj e : UQuat} (hadj : IsElement adj) (he : IsElement e) {n : ℤ} (hn : n = 2 ∨ n = 3 ∨ n = 4) :
    ∃ P C, subgroup aq (.pair false n) adj = .ok ⟨ℤ, fun e => Cyclic.isElement n.toNat e = true, Cyclic.combine n.toNat, P, C⟩ ∧
      (∃ r, C e = .ok r) ∧
      (∀ h, C e = .ok (some h) → Cyclic.isElement n.toNat h = true ∧ ∃ g, P h = .ok g ∧ rotOf g = rotOf e) ∧
      (∀ h g, Cyclic.isElement n.toNat h = true → P h = .ok g → rotOf g = rotOf e → C e = .ok (some h) ∨ h ≠ 0 ∧ C e = .ok none) := by
  have hn1 : n ≠ 1 := by omega
  refine ⟨_, _, by rw [subgroup, if_neg hn1, if_pos hn], ?_⟩
  obtain ⟨hu, hr⟩ := SO3.intoChild_spec haq hadj.1 e he.1
  have hA : rotOf adj * (rotOf adj)ᵀ = 1 := rotOf_orth hadj.1
  have hA' : (rotOf adj)ᵀ * rotOf adj = 1 := mul_eq_one_comm.1 hA
  obtain ⟨x, hx, hxe⟩ : ∃ x ∈ elements, rotOf (SO3.intoChild aq adj e) = mat x := by
    obtain ⟨a, ha, ea⟩ := (isElement_iff hadj.1).1 hadj
    obtain ⟨b, hb, eb⟩ := (isElement_iff he.1).1 he
    exact ⟨combine (combine a b) (inverse a), finGroup.mul_mem _ (finGroup.mul_mem _ ha _ hb) _ (finGroup.inv_mem a ha), by rw [hr, ea, eb, mat_combine, mat_combine, mat_inverse]⟩
  have back : ∀ {M : Mat3}, rotOf (SO3.intoChild aq adj e) = M → (rotOf adj)ᵀ * M * rotOf adj = rotOf e := fun {M} h => by
    rw [← h, hr]
    calc _ = ((rotOf adj)ᵀ * rotOf adj) * rotOf e * ((rotOf adj)ᵀ * rotOf adj) := by noncomm_ring
      _ = _ := by rw [hA', Matrix.one_mul, Matrix.mul_one]
  have inside : ∀ {h}, Cyclic.isElement n.toNat h = true → rotOf (SO3.intoChild aq adj e) = turn n h →
      octaToCn aq n.toNat (axisOf n) adj e = .ok (some h) ∨ h ≠ 0 ∧ octaToCn aq n.toNat (axisOf n) adj e = .ok none := fun {h} hh ht => by
    have c := case_of hn hh
    obtain ⟨c1, c2⟩ := cnQuat_spec c
    rcases (rotOf_eq_iff hu c1).1 (by rw [ht, c2, turn_eq c]) with k | k
    · exact .inl (child_pos c hh k)
    · by_cases h0 : h = 0
      · subst h0
        left
        rw [neg_eq_iff_eq_neg] at k
        unfold octaToCn
        refine (if_pos ?_).trans rfl
        rw [k, imI_neg, imJ_neg, imK_neg]
        simp [cnQuat, quat, Cyclic.radians]
      · exact .inr ⟨h0, child_neg c h0 (neg_eq_iff_eq_neg.1 k)⟩
  rcases child_cases hn hu hx hxe with ⟨h, hh, c, hc⟩ | hnone
  · have hin := inside hh (hxe.trans hc)
    refine ⟨by rcases hin with k | ⟨-, k⟩ <;> exact ⟨_, k⟩, fun h' hC => ?_, fun h' g hh' hg hge => ?_⟩
    · have : h' = h := by
        rcases hin with k | ⟨-, k⟩ <;> rw [k] at hC <;> simp at hC
        exact hC.symm
      subst this
      obtain ⟨g, g1, -, g3⟩ := parent_ok haq hadj c
      exact ⟨hh, g, g1, by rw [g3]; exact back (hxe.trans hc)⟩
    · obtain ⟨g', g1, -, g3⟩ := parent_ok haq hadj (case_of hn hh')
      have : g' = g := Except.ok.inj (g1.symm.trans hg)
      subst this
      refine inside hh' ?_
      rw [hr, ← hge, g3]
      calc _ = (rotOf adj * (rotOf adj)ᵀ) * turn n h' * (rotOf adj * (rotOf adj)ᵀ) := by noncomm_ring
        _ = _ := by rw [hA, Matrix.one_mul, Matrix.mul_one]
  · refine ⟨⟨_, hnone⟩, fun h hC => ?_, fun h g hh hg hge => ?_⟩
    · rw [hnone] at hC; simp at hC
    · obtain ⟨g', g1, -, g3⟩ := parent_ok haq hadj (case_of hn hh)
      have : g' = g := Except.ok.inj (g1.symm.trans hg)
      subst this
      refine inside hh ?_
      rw [hr, ← hge, g3]
      calc _ = (rotOf adj * (rotOf adj)ᵀ) * turn n h * (rotOf adj * (rotOf adj)ᵀ) := by noncomm_ring
        _ = _ := by rw [hA, Matrix.one_mul, Matrix.mul_one]

/-- **C85** (violated) With quaternions kept as they are, the fifteenth element of the group's own list, the rotation by `-π / 2` around Z, is in the subgroup `(False, 4)` (it is the image of 3), but the map to the subgroup gives
`None`. -/
theorem C85_child_violation : ∃ P C, subgroup id (.pair false 4) SO3.identity = .ok ⟨ℤ, fun e => Cyclic.isElement 4 e = true, Cyclic.combine 4, P, C⟩ ∧
    nth 15 ∈ elements ∧ IsElement (toQ (nth 15)) ∧ (∃ g, P 3 = .ok g ∧ rotOf g = rotOf (toQ (nth 15))) ∧ C (toQ (nth 15)) = .ok none := by
  refine ⟨_, _, by rw [subgroup, if_neg (by norm_num), if_pos (by norm_num)]; rfl, mem_nth (by norm_num), ?_⟩
  have hm : nth 15 ∈ elements := mem_nth (by norm_num)
  have hE : IsElement (toQ (nth 15)) := (isElement_iff (toQ_unit hm)).2 ⟨_, hm, rotOf_toQ hm⟩
  have h1 : normSq SO3.identity = 1 := by rw [SO3.identity, SO3.normSq_quat]; norm_num
  have hid : SO3.identity = 1 := rfl
  have hI : IsElement SO3.identity := (isElement_iff h1).2 ⟨identity, by decide +kernel, by rw [hid, rotOf_one, mat_identity]⟩
  have haq : AsQuat id := fun q => .inl rfl
  refine ⟨hE, ?_, ?_⟩
  · obtain ⟨g, g1, -, g3⟩ := parent_ok haq hI .c43
    exact ⟨g, g1, by rw [g3, turn_eq .c43, hid, rotOf_one, rotOf_toQ hm]; simp [idx]⟩
  · refine child_neg .c43 (by norm_num) ?_
    have hq : toQ (nth 15) = unitQ (0, 0, -1, 1) := by
      have : quats.find? (fun q => ofQuat q = nth 15) = some (0, 0, -1, 1) := by decide +kernel
      rw [toQ, this]; rfl
    rw [hq, unitQ15, cnQuat_eq .c43]
    simp only [SO3.intoChild, SO3.combine, SO3.inverse, id, hid, star_one, one_mul, mul_one]
    norm_num
    rw [neg_quat, neg_neg]

theorem fix_axis : ∀ x ∈ elements,
    (x.m₀₀ + x.m₀₁ + x.m₀₂ = 1 ∧ x.m₁₀ + x.m₁₁ + x.m₁₂ = 1 ∧ x.m₂₀ + x.m₂₁ + x.m₂₂ = 1 ↔ x = nth 3 ∨ x = nth 7 ∨ x = nth 11) ∧
    (x.m₀₂ = 0 ∧ x.m₁₂ = 0 ∧ x.m₂₂ = 1 ↔ x = nth 3 ∨ x = nth 14 ∨ x = nth 2 ∨ x = nth 15) := by decide +kernel

/-- **C85** The cosets of `(False, 3)` are the vertices of the cube and those of `(False, 4)` are its faces, as `cube_vertices_representation` and `cube_faces_representation` say: the subgroup is the stabiliser of the vertex `(1, 1, 1)`,
and of the face with centre `(0, 0, 1)`. -/
theorem C85_vertices_faces (haq : AsQuat aq) {e : UQuat} (he : IsElement e) :
    (∃ P C, subgroup aq (.pair false 3) SO3.identity = .ok ⟨ℤ, fun e => Cyclic.isElement 3 e = true, Cyclic.combine 3, P, C⟩ ∧
      (rotOf e *ᵥ ![1, 1, 1] = ![1, 1, 1] ↔ ∃ h g, Cyclic.isElement 3 h = true ∧ P h = .ok g ∧ rotOf g = rotOf e)) ∧
    ∃ P C, subgroup aq (.pair false 4) SO3.identity = .ok ⟨ℤ, fun e => Cyclic.isElement 4 e = true, Cyclic.combine 4, P, C⟩ ∧
      (rotOf e *ᵥ ![0, 0, 1] = ![0, 0, 1] ↔ ∃ h g, Cyclic.isElement 4 h = true ∧ P h = .ok g ∧ rotOf g = rotOf e) := by
  have hid : SO3.identity = 1 := rfl
  have h1 : normSq SO3.identity = 1 := by rw [SO3.identity, SO3.normSq_quat]; norm_num
  have hI : IsElement SO3.identity := (isElement_iff h1).2 ⟨identity, by decide +kernel, by rw [hid, rotOf_one, mat_identity]⟩
  obtain ⟨x, hx, ex⟩ := (isElement_iff he.1).1 he
  have conv : ∀ {n : ℤ}, n = 2 ∨ n = 3 ∨ n = 4 → ((∃ h g, Cyclic.isElement n.toNat h = true ∧ cnToOcta aq (axisOf n) SO3.identity (Cyclic.radians n.toNat h) = .ok g ∧ rotOf g = rotOf e) ↔
      ∃ h, Cyclic.isElement n.toNat h = true ∧ x = nth (idx n h)) := fun {n} hn => by
    constructor
    · rintro ⟨h, g, hh, hg, hge⟩
      obtain ⟨g', g1, -, g3⟩ := parent_ok haq hI (case_of hn hh)
      obtain rfl : g' = g := Except.ok.inj (g1.symm.trans hg)
      rw [hge, ex, hid, rotOf_one, turn_eq (case_of hn hh), Matrix.transpose_one, Matrix.one_mul, Matrix.mul_one] at g3
      exact ⟨h, hh, mat_inj g3⟩
    · rintro ⟨h, hh, hxe⟩
      obtain ⟨g, g1, -, g3⟩ := parent_ok haq hI (case_of hn hh)
      rw [hid, rotOf_one, turn_eq (case_of hn hh), Matrix.transpose_one, Matrix.one_mul, Matrix.mul_one, ← hxe, ← ex] at g3
      exact ⟨h, g, hh, g1, g3⟩
  constructor
  · refine ⟨_, _, by rw [subgroup, if_neg (by norm_num), if_pos (by norm_num)]; rfl, ?_⟩
    refine Iff.trans ?_ (conv (n := 3) (by norm_num)).symm
    rw [ex]
    trans x = nth 3 ∨ x = nth 7 ∨ x = nth 11
    · rw [← (fix_axis x hx).1]
      constructor
      · intro h
        have a0 := congrFun h 0; have a1 := congrFun h 1; have a2 := congrFun h 2
        simp [mat, Matrix.mulVec, dotProduct, Fin.sum_univ_three] at a0 a1 a2
        exact ⟨by exact_mod_cast a0, by exact_mod_cast a1, by exact_mod_cast a2⟩
      · rintro ⟨a0, a1, a2⟩
        ext i
        fin_cases i <;> simp [mat, Matrix.mulVec, dotProduct, Fin.sum_univ_three] <;> assumption_mod_cast
    · constructor
      · rintro (h | h | h)
        · exact ⟨0, by decide, h⟩
        · exact ⟨1, by decide, h⟩
        · exact ⟨2, by decide, h⟩
      · rintro ⟨h, hh, hxe⟩
        cases case_of (n := 3) (by norm_num) hh
        · exact .inl hxe
        · exact .inr (.inl hxe)
        · exact .inr (.inr hxe)
  · refine ⟨_, _, by rw [subgroup, if_neg (by norm_num), if_pos (by norm_num)]; rfl, ?_⟩
    refine Iff.trans ?_ (conv (n := 4) (by norm_num)).symm
    rw [ex]
    trans x = nth 3 ∨ x = nth 14 ∨ x = nth 2 ∨ x = nth 15
    · rw [← (fix_axis x hx).2]
      constructor
      · intro h
        have a0 := congrFun h 0; have a1 := congrFun h 1; have a2 := congrFun h 2
        simp [mat, Matrix.mulVec, dotProduct, Fin.sum_univ_three] at a0 a1 a2
        exact ⟨by exact_mod_cast a0, by exact_mod_cast a1, by exact_mod_cast a2⟩
      · rintro ⟨a0, a1, a2⟩
        ext i
        fin_cases i <;> simp [mat, Matrix.mulVec, dotProduct, Fin.sum_univ_three] <;> assumption_mod_cast
    · constructor
      · rintro (h | h | h | h)
        · exact ⟨0, by decide, h⟩
        · exact ⟨1, by decide, h⟩
        · exact ⟨2, by decide, h⟩
        · exact ⟨3, by decide, h⟩
      · rintro ⟨h, hh, hxe⟩
        cases case_of (n := 4) (by norm_num) hh
        · exact .inl hxe
        · exact .inr (.inl hxe)
        · exact .inr (.inr (.inl hxe))
        · exact .inr (.inr (.inr hxe))

/-- The midpoints of the edges of the cube. -/
def edges : List (ℤ × ℤ × ℤ) :=
  [(1, 1, 0), (1, -1, 0), (-1, 1, 0), (-1, -1, 0), (1, 0, 1), (1, 0, -1), (-1, 0, 1), (-1, 0, -1), (0, 1, 1), (0, 1, -1), (0, -1, 1), (0, -1, -1)]

theorem edges_moved : ∀ x ∈ elements, ∀ v ∈ edges, let y := combine (combine (inverse x) (nth 2)) x
    ¬(y.m₀₀ * v.1 + y.m₀₁ * v.2.1 + y.m₀₂ * v.2.2 = v.1 ∧ y.m₁₀ * v.1 + y.m₁₁ * v.2.1 + y.m₁₂ * v.2.2 = v.2.1 ∧ y.m₂₀ * v.1 + y.m₂₁ * v.2.1 + y.m₂₂ * v.2.2 = v.2.2) := by
  decide +kernel

theorem changeAxis_eq : changeAxis = quat (1 / 2) (1 / 2) (-1 / 2) (1 / 2) := by
  have h3 : √3 ≠ 0 := (Real.sqrt_pos.2 (by norm_num)).ne'
  rw [changeAxis, sin_pi_div_three, cos_pi_div_three]
  congr 1 <;> field_simp

/-- **C85** (violated) `cube_edges_representation` is the quotient by `(True, 1)`, "the action on the 12 edges". The subgroup is generated by a half turn around a coordinate axis, which leaves no edge where it is: it is the stabiliser of no
edge, whichever conjugate is taken. -/
theorem C85_edges_violation (haq : AsQuat aq) {adj : UQuat} (hadj : IsElement adj) : ∃ id' adj' P C, processId aq (.pair true 1) adj = .ok (id', adj') ∧
    subgroup aq id' adj' = .ok ⟨ℤ, fun e => Cyclic.isElement 2 e = true, Cyclic.combine 2, P, C⟩ ∧
    ∃ g, P 1 = .ok g ∧ ∀ v ∈ edges, rotOf g *ᵥ ![(v.1 : ℝ), v.2.1, v.2.2] ≠ ![(v.1 : ℝ), v.2.1, v.2.2] := by
  have hc : changeAxis = unitQ (1, 1, -1, 1) := by
    have : √4 = (2 : ℝ) := by rw [show (4 : ℝ) = 2 ^ 2 by norm_num, Real.sqrt_sq (by norm_num)]
    rw [changeAxis_eq, unitQ]; norm_num [this]
  have hm : (1, 1, -1, 1) ∈ quats := by decide
  have hcu := unitQ_unit hm
  have hcr := rotOf_unitQ hm
  rw [← hc] at hcu hcr
  have hme : ofQuat (1, 1, -1, 1) ∈ elements := List.mem_map_of_mem hm
  have hcE : IsElement changeAxis := (isElement_iff hcu).2 ⟨_, hme, hcr⟩
  obtain ⟨a, ha, ea⟩ := (isElement_iff hadj.1).1 hadj
  have hu' := SO3.combine_unit haq hcu hadj.1
  have hr' : rotOf (SO3.combine aq changeAxis adj) = mat (combine (ofQuat (1, 1, -1, 1)) a) := by rw [SO3.combine_spec haq, hcr, ea, mat_combine]
  have hx : combine (ofQuat (1, 1, -1, 1)) a ∈ elements := finGroup.mul_mem _ hme _ ha
  have hadj' : IsElement (SO3.combine aq changeAxis adj) := (isElement_iff hu').2 ⟨_, hx, hr'⟩
  obtain ⟨g, g1, -, g3⟩ := parent_ok haq hadj' .c21
  refine ⟨.pair false 2, SO3.combine aq changeAxis adj, _, _, ?_, by rw [subgroup, if_neg (by norm_num), if_pos (by norm_num)]; rfl, g, g1, fun v hv h => ?_⟩
  · rw [processId, if_neg (by simp), if_pos (by simp), element, if_pos hcE]; rfl
  · rw [g3, turn_eq .c21, show nth (idx 2 1) = nth 2 from rfl, hr', ← mat_inverse, ← mat_combine, ← mat_combine] at h
    have k := edges_moved _ hx v hv
    dsimp only at k
    generalize combine (combine (inverse (combine (ofQuat (1, 1, -1, 1)) a)) (nth 2)) (combine (ofQuat (1, 1, -1, 1)) a) = y at h k
    refine k ⟨?_, ?_, ?_⟩
    · have := congrFun h 0
      simp [mat, Matrix.mulVec, dotProduct, Fin.sum_univ_three] at this
      exact_mod_cast this
    · have := congrFun h 1
      simp [mat, Matrix.mulVec, dotProduct, Fin.sum_univ_three] at this
      exact_mod_cast this
    · have := congrFun h 2
      simp [mat, Matrix.mulVec, dotProduct, Fin.sum_univ_three] at this
      exact_mod_cast this

/-- **C85** (violated) The restriction of an irrep to the trivial subgroup names the irrep 1 of `C_1`, which does not exist. -/
theorem C85_restrict_trivial_violation {size : ℕ} (hs : 0 < size) (A : NpMat ℝ) : ∃ i ∈ (restrictTrivial size A).2, (Cyclic.table 1).ok i = false := by
  exact ⟨1, List.mem_replicate.2 ⟨hs.ne', rfl⟩, by decide⟩

/-- **C85** The ids which name no subgroup, and those which are not implemented. -/
theorem C85_id_errors (adj : UQuat) :
    (∀ s, s ≠ "octa" → subgroup aq (.str s) adj = .error (if s = "tetra" then .notImplemented else .value)) ∧
    (∀ f n, n ≠ 1 → n ≠ 2 → n ≠ 3 → n ≠ 4 → processId aq (.pair f n) adj = .error .assertion) ∧
    (∀ n, n = 2 ∨ n = 3 ∨ n = 4 → processId aq (.pair true n) adj = .ok (.pair true n, adj) ∧ subgroup aq (.pair true n) adj = .error .notImplemented) := by
  refine ⟨fun s hs => ?_, fun f n h1 h2 h3 h4 => ?_, fun n hn => ⟨?_, ?_⟩⟩
  · rw [subgroup, if_neg hs]; split_ifs <;> rfl
  · rw [processId, if_pos (by simp [h1, h2, h3, h4])]
  · rw [processId, if_neg (by rcases hn with rfl | rfl | rfl <;> simp), if_neg (by rcases hn with rfl | rfl | rfl <;> simp)]
  · rw [subgroup, if_pos hn]

/-- **C85** The trivial subgroup `(False, 1)` and the whole group `('octa', adj)`: the maps of the first are the identity, restricted to rotations which are the identity; the ones of the second are conjugation by `adj` and
its inverse. -/
theorem C85_trivial_whole (haq : AsQuat aq) (adj : UQuat) :
    (∃ P C, subgroup aq (.pair false 1) adj = .ok ⟨ℤ, fun e => Cyclic.isElement 1 e = true, Cyclic.combine 1, P, C⟩ ∧ (∀ h, ∃ g, P h = .ok g ∧ rotOf g = 1) ∧
      ∀ e, IsElement e → (rotOf e = 1 → C e = .ok (some 0)) ∧ (rotOf e ≠ 1 → C e = .ok none)) ∧
    ∃ P C, subgroup aq (.str "octa") adj = .ok ⟨UQuat, IsElement, SO3.combine aq, P, C⟩ ∧
      ∀ e, IsElement e → (∃ g, P e = .ok g ∧ rotOf g = (rotOf adj)ᵀ * rotOf e * rotOf adj) ∧ ∃ g, C e = .ok (some g) ∧ rotOf g = rotOf adj * rotOf e * (rotOf adj)ᵀ := by
  have hid : rotOf SO3.identity = 1 := by rw [show SO3.identity = 1 from rfl, rotOf_one]
  have hidu : normSq SO3.identity = 1 := by rw [SO3.identity, SO3.normSq_quat]; norm_num
  have hrot : ∀ q, rotOf (aq q) = rotOf q := fun q => by rcases haq q with h | h <;> rw [h]; rw [rotOf_neg]
  have hstar : ∀ q : UQuat, rotOf (star q) = (rotOf q)ᵀ := fun q => by
    ext i j
    fin_cases i <;> fin_cases j <;> simp [rotOf] <;> ring
  refine ⟨⟨_, _, by rw [subgroup, if_pos rfl], fun h => ⟨_, rfl, hid⟩, fun e he => ?_⟩, _, _, by rw [subgroup, if_pos rfl], fun e he => ⟨⟨_, rfl, ?_⟩, _, rfl, ?_⟩⟩
  · have hiff : SO3.Equal e SO3.identity ↔ rotOf e = 1 := by rw [← hid, rotOf_eq_iff he.1 hidu]; rfl
    exact ⟨fun h => congrArg Except.ok (if_pos (hiff.2 h)), fun h => congrArg Except.ok (if_neg fun h' => h (hiff.1 h'))⟩
  · simp only [SO3.adjointMap, SO3.combine, SO3.inverse, hrot, rotOf_mul, hstar, Matrix.transpose_transpose]
  · simp only [SO3.adjointMap, SO3.combine, SO3.inverse, hrot, rotOf_mul, hstar]

/-- The rotation by `2 π / 3` around the diagonal is sent to no element of the trivial subgroup. -/
example : ∃ P C, subgroup id (.pair false 1) SO3.identity = .ok ⟨ℤ, fun e => Cyclic.isElement 1 e = true, Cyclic.combine 1, P, C⟩ ∧ C (unitQ (1, 1, 1, 1)) = .ok none := by
  obtain ⟨⟨P, C, h, -, hC⟩, -⟩ := C85_trivial_whole (aq := id) (fun _ => .inl rfl) SO3.identity
  have he : IsElement (unitQ (1, 1, 1, 1)) := (isElement_iff (unitQ_unit (by decide))).2 ⟨_, List.mem_map_of_mem (by decide), rotOf_unitQ (by decide)⟩
  refine ⟨P, C, h, (hC _ he).2 fun h1 => ?_⟩
  rw [rotOf_unitQ (by decide), ← mat_identity] at h1
  exact absurd (mat_inj h1) (by decide)

/-- The hypotheses are met by quaternions kept as they are and by the rotation by `2 π / 3` around the diagonal. -/
example : AsQuat id ∧ IsElement (unitQ (1, 1, 1, 1)) ∧ Cyclic.isElement 4 3 = true :=
  ⟨fun _ => .inl rfl, (isElement_iff (unitQ_unit (by decide))).2 ⟨_, List.mem_map_of_mem (by decide), rotOf_unitQ (by decide)⟩, by decide⟩

end Octa

end Escnn
