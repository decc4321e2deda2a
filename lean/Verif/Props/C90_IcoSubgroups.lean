import Verif.Model.IcoSubgroups
import Verif.Props.C85_Subgroups
import Verif.Props.C89_Icosahedral

/-!
# C90: the subgroups of the icosahedral group
-/

namespace Escnn

open Real Quaternion NpMat
open scoped Matrix

namespace Ico

open Gold
open Octa (arctan2_angle)

variable {aq : UQuat → UQuat}

/-- The axis of `(False, n)`: the Z axis for `n = 2`, `(1, 1, 1)` for `n = 3`, `(φ, 0, 1)` for `n = 5`, of length 1. -/
noncomputable def pole (n : ℤ) : Fin 3 → ℝ :=
  if n = 3 then ![1 / √3, 1 / √3, 1 / √3] else if n = 5 then ![phi / √(phi + 2), 0, 1 / √(phi + 2)] else ![0, 0, 1]

/-- The rotation by `θ` around the axis `a` of length 1 (formula of Rodrigues). -/
noncomputable def turnAbout (a : Fin 3 → ℝ) (θ : ℝ) : Mat3 :=
  cos θ • 1 + sin θ • !![0, -a 2, a 1; a 2, 0, -a 0; -a 1, a 0, 0] + (1 - cos θ) • Matrix.of fun i j => a i * a j

theorem rotOf_axis {a : Fin 3 → ℝ} (ha : a 0 ^ 2 + a 1 ^ 2 + a 2 ^ 2 = 1) (t : ℝ) :
    normSq (quat (a 0 * sin t) (a 1 * sin t) (a 2 * sin t) (cos t)) = 1 ∧ rotOf (quat (a 0 * sin t) (a 1 * sin t) (a 2 * sin t) (cos t)) = turnAbout a (2 * t) := by
  have h := sin_sq_add_cos_sq t
  refine ⟨by rw [SO3.normSq_quat]; linear_combination h + sin t ^ 2 * ha, ?_⟩
  unfold turnAbout
  rw [cos_two_mul, sin_two_mul]
  ext i j
  fin_cases i <;> fin_cases j <;> simp [rotOf, quat] <;> grind

theorem axis_eq (n : ℤ) : axisOf n = pole n := by
  unfold axisOf pole
  split_ifs
  · ext i; fin_cases i <;> simp
  · ext i; fin_cases i <;> simp [unit, norm, phi_sq] <;> ring_nf
  · rfl

theorem pole_unit (n : ℤ) : pole n 0 ^ 2 + pole n 1 ^ 2 + pole n 2 ^ 2 = 1 := by
  have hp := one_lt_phi
  unfold pole
  split_ifs
  · simp only [Matrix.cons_val_zero, Matrix.cons_val_one, Matrix.cons_val, div_pow, one_pow, Real.sq_sqrt (show (0 : ℝ) ≤ 3 by norm_num)]; norm_num
  · simp only [Matrix.cons_val_zero, Matrix.cons_val_one, Matrix.cons_val, div_pow, one_pow, Real.sq_sqrt (show (0 : ℝ) ≤ phi + 2 by linarith)]
    have := phi_sq
    field_simp
    linarith
  · simp

/-- The quaternion of the rotation `h` of `(False, n)`. -/
def gq (n h : ℤ) : Gold × Gold × Gold × Gold :=
  if h = 0 then (0, 0, 0, 1) else if n = 2 then (0, 0, 1, 0) else if n = 3 then (hA, hA, hA, if h = 1 then hA else -hA)
  else if h = 1 then (hA, 0, hB, hC) else if h = 2 then (hC, 0, hA, hB) else if h = 3 then (hC, 0, hA, -hB) else (hA, 0, hB, -hC)

/-- The ten cases. -/
inductive Case : ℤ → ℤ → Prop
  | c20 : Case 2 0 | c21 : Case 2 1 | c30 : Case 3 0 | c31 : Case 3 1 | c32 : Case 3 2
  | c50 : Case 5 0 | c51 : Case 5 1 | c52 : Case 5 2 | c53 : Case 5 3 | c54 : Case 5 4

theorem case_of {n h : ℤ} (hn : n = 2 ∨ n = 3 ∨ n = 5) (hh : Cyclic.isElement n.toNat h = true) : Case n h := by
  rw [Cyclic.isElement_iff] at hh
  obtain ⟨h1, h2⟩ := hh
  rcases hn with rfl | rfl | rfl <;> norm_num at h2 <;> interval_cases h <;> constructor

/-- The quaternion built by `cn_to_ico`. -/
noncomputable def cnQuat (n h : ℤ) : UQuat :=
  quat (axisOf n 0 * sin (Cyclic.radians n.toNat h / 2)) (axisOf n 1 * sin (Cyclic.radians n.toNat h / 2)) (axisOf n 2 * sin (Cyclic.radians n.toNat h / 2)) (cos (Cyclic.radians n.toNat h / 2))

theorem cnQuat_spec (n h : ℤ) : normSq (cnQuat n h) = 1 ∧ rotOf (cnQuat n h) = turnAbout (pole n) (Cyclic.radians n.toNat h) := by
  have := rotOf_axis (pole_unit n) (Cyclic.radians n.toNat h / 2)
  rw [mul_div_cancel₀ _ two_ne_zero] at this
  rw [cnQuat, axis_eq]
  exact this

theorem phi_over : phi / √(phi + 2) * (nu * (phi - 1) / 2) = 1 / 2 ∧ 1 / √(phi + 2) * (nu * (phi - 1) / 2) = (phi - 1) / 2 ∧
    phi / √(phi + 2) * (nu / 2) = phi / 2 ∧ 1 / √(phi + 2) * (nu / 2) = 1 / 2 := by
  have hp := one_lt_phi
  have h2 := phi_sq
  change phi / nu * (nu * (phi - 1) / 2) = 1 / 2 ∧ 1 / nu * (nu * (phi - 1) / 2) = (phi - 1) / 2 ∧ phi / nu * (nu / 2) = phi / 2 ∧ 1 / nu * (nu / 2) = 1 / 2
  have hn : nu ≠ 0 := (Real.sqrt_pos.2 (by linarith)).ne'
  refine ⟨?_, ?_, ?_, ?_⟩ <;> field_simp
  linarith

theorem cnQuat_eq {n h : ℤ} (c : Case n h) : cnQuat n h = goldQ (gq n h) := by
  have h3 : (√3)⁻¹ * (√3 / 2) = 1 / 2 := by
    have : √3 ≠ 0 := (Real.sqrt_pos.2 (by norm_num)).ne'
    field_simp
  have c1 : sin (2 * π / 5) = nu / 2 ∧ cos (2 * π / 5) = (phi - 1) / 2 := ⟨by rw [← sin72]; congr 1; ring, by rw [← cos72]; congr 1; ring⟩
  have c2 : sin (3 * π / 5) = nu / 2 ∧ cos (3 * π / 5) = -((phi - 1) / 2) := by
    rw [show 3 * π / 5 = π - 2 * π / 5 by ring, sin_pi_sub, cos_pi_sub, c1.1, c1.2]; exact ⟨rfl, rfl⟩
  have c3 : sin (4 * π / 5) = nu * (phi - 1) / 2 ∧ cos (4 * π / 5) = -(phi / 2) := by
    rw [show 4 * π / 5 = π - π / 5 by ring, sin_pi_sub, cos_pi_sub, sin36, cos36]; exact ⟨rfl, rfl⟩
  obtain ⟨p1, p2, p3, p4⟩ := phi_over
  have e0 : ∀ N : ℕ, Cyclic.radians N 0 / 2 = 0 := fun N => by simp [Cyclic.radians]
  have a2 : pole 2 = ![0, 0, 1] := by simp [pole]
  have a3 : pole 3 = ![1 / √3, 1 / √3, 1 / √3] := by simp [pole]
  have a5 : pole 5 = ![phi / √(phi + 2), 0, 1 / √(phi + 2)] := by simp [pole]
  cases c with
  | c20 | c30 | c50 => simp [cnQuat, e0, goldQ, gq]
  | c21 =>
    have e : Cyclic.radians (2 : ℤ).toNat 1 / 2 = π / 2 := by change ((1 : ℤ) : ℝ) * (2 * π) / ((2 : ℕ) : ℝ) / 2 = _; push_cast; ring
    simp only [cnQuat, e, sin_pi_div_two, cos_pi_div_two, axis_eq, a2]
    simp [goldQ, gq]
  | c31 =>
    have e : Cyclic.radians (3 : ℤ).toNat 1 / 2 = π / 3 := by change ((1 : ℤ) : ℝ) * (2 * π) / ((3 : ℕ) : ℝ) / 2 = _; push_cast; ring
    simp only [cnQuat, e, sin_pi_div_three, cos_pi_div_three, axis_eq, a3, Matrix.cons_val_zero, Matrix.cons_val_one, Matrix.cons_val]
    norm_num [goldQ, gq, h3, val_hA]
  | c32 =>
    have e : Cyclic.radians (3 : ℤ).toNat 2 / 2 = 2 * π / 3 := by change ((2 : ℤ) : ℝ) * (2 * π) / ((3 : ℕ) : ℝ) / 2 = _; push_cast; ring
    simp only [cnQuat, e, Octa.sin_two_thirds, Octa.cos_two_thirds, axis_eq, a3, Matrix.cons_val_zero, Matrix.cons_val_one, Matrix.cons_val]
    norm_num [goldQ, gq, h3, val_hA]
  | c51 =>
    have e : Cyclic.radians (5 : ℤ).toNat 1 / 2 = π / 5 := by change ((1 : ℤ) : ℝ) * (2 * π) / ((5 : ℕ) : ℝ) / 2 = _; push_cast; ring
    simp only [cnQuat, e, sin36, cos36, axis_eq, a5, Matrix.cons_val_zero, Matrix.cons_val_one, Matrix.cons_val, p1, p2, zero_mul]
    norm_num [goldQ, gq, val_hA, val_hB, val_hC]
  | c52 =>
    have e : Cyclic.radians (5 : ℤ).toNat 2 / 2 = 2 * π / 5 := by change ((2 : ℤ) : ℝ) * (2 * π) / ((5 : ℕ) : ℝ) / 2 = _; push_cast; ring
    simp only [cnQuat, e, c1, axis_eq, a5, Matrix.cons_val_zero, Matrix.cons_val_one, Matrix.cons_val, p3, p4, zero_mul]
    norm_num [goldQ, gq, val_hA, val_hB, val_hC]
  | c53 =>
    have e : Cyclic.radians (5 : ℤ).toNat 3 / 2 = 3 * π / 5 := by change ((3 : ℤ) : ℝ) * (2 * π) / ((5 : ℕ) : ℝ) / 2 = _; push_cast; ring
    simp only [cnQuat, e, c2, axis_eq, a5, Matrix.cons_val_zero, Matrix.cons_val_one, Matrix.cons_val, p3, p4, zero_mul]
    norm_num [goldQ, gq, val_hA, val_hB, val_hC]
  | c54 =>
    have e : Cyclic.radians (5 : ℤ).toNat 4 / 2 = 4 * π / 5 := by change ((4 : ℤ) : ℝ) * (2 * π) / ((5 : ℕ) : ℝ) / 2 = _; push_cast; ring
    simp only [cnQuat, e, c3, axis_eq, a5, Matrix.cons_val_zero, Matrix.cons_val_one, Matrix.cons_val, p1, p2, zero_mul]
    norm_num [goldQ, gq, val_hA, val_hB, val_hC]

theorem gq_mem {n h : ℤ} (c : Case n h) : gq n h ∈ quats ∨ opp (gq n h) ∈ quats := by cases c <;> decide +kernel

/-- The element `h` of `(False, n)`. -/
def el (n h : ℤ) : Elem := ofQuat (gq n h)

theorem el_mem {n h : ℤ} (c : Case n h) : el n h ∈ elements := by cases c <;> decide +kernel

theorem el_opp {n h : ℤ} (c : Case n h) : ofQuat (opp (gq n h)) = el n h := by cases c <;> decide +kernel

theorem rot_el {n h : ℤ} (c : Case n h) : rotOf (cnQuat n h) = mat (el n h) := by
  rw [cnQuat_eq c]
  rcases gq_mem c with h | h
  · exact rotOf_goldQ h
  · rw [← el_opp c, ← rotOf_goldQ h, goldQ_opp, rotOf_neg]

theorem turn_el {n h : ℤ} (c : Case n h) : turnAbout (pole n) (Cyclic.radians n.toNat h) = mat (el n h) := by rw [← rot_el c, (cnQuat_spec n h).2]

theorem el_mul : ∀ n ∈ ([2, 3, 5] : List ℤ), ∀ h ∈ ([0, 1, 2, 3, 4] : List ℤ), ∀ h' ∈ ([0, 1, 2, 3, 4] : List ℤ), h < n → h' < n →
    el n ((h + h') % n) = combine (el n h) (el n h') ∧ (el n h = el n h' → h = h') := by decide +kernel

theorem conj_mem {adj : UQuat} (hadj : IsElement adj) {g : UQuat} (hg : normSq g = 1) {x : Elem} (hx : x ∈ elements) (h : rotOf g = (rotOf adj)ᵀ * mat x * rotOf adj) : IsElement g := by
  obtain ⟨a, ha, e⟩ := (isElement_iff hadj.1).1 hadj
  refine (isElement_iff hg).2 ⟨combine (combine (inverse a) x) a, combine_mem _ (combine_mem _ (inverse_mem a ha) _ hx) _ ha, ?_⟩
  rw [h, e, mat_combine (combine_mem _ (inverse_mem a ha) _ hx) ha, mat_combine (inverse_mem a ha) hx, mat_inverse]

theorem parent_ok (haq : AsQuat aq) {adj : UQuat} (hadj : IsElement adj) {n h : ℤ} (c : Case n h) :
    ∃ g, cnToIco aq (axisOf n) adj (Cyclic.radians n.toNat h) = .ok g ∧ IsElement g ∧ rotOf g = (rotOf adj)ᵀ * mat (el n h) * rotOf adj := by
  have hu := (cnQuat_spec n h).1
  have hE : IsElement (cnQuat n h) := (isElement_iff hu).2 ⟨_, el_mem c, rot_el c⟩
  obtain ⟨hg1, hg2⟩ := SO3.intoParent_spec haq hadj.1 _ hu
  rw [rot_el c] at hg2
  refine ⟨SO3.intoParent aq adj (cnQuat n h), ?_, conj_mem hadj hg1 (el_mem c) hg2, hg2⟩
  rw [cnToIco]
  change (element (cnQuat n h) >>= _) = _
  rw [element, if_pos hE]; rfl

/-- The assertions on the axes hold. -/
theorem axis_ok {n : ℤ} (hn : n = 2 ∨ n = 3 ∨ n = 5) : norm (axisOf n) = 1 ∧ AxisAligned (axisOf n) n.toNat := by
  have hp := one_lt_phi
  have hu := pole_unit n
  have hr : ∀ {t : Fin 3 → ℝ}, ((∀ i, i ≠ 0 → t i < t 0) ∨ ∀ i, t i = t 0) → (∃ m, ∀ i, |pole n (i + m)| = t i) → rolled (pole n) = t := fun {t} ht hm => by
    have := (rolled_iff (u := pole n) (t := t) (c := t) one_pos (by rw [hu]; norm_num) (fun i => one_mul _) ht).2 hm
    simpa only [div_one] using this
  rw [axis_eq]
  refine ⟨by rw [norm, hu, Real.sqrt_one], ?_⟩
  rcases hn with rfl | rfl | rfl
  · change AxisAligned _ 2
    rw [AxisAligned, if_pos rfl]
    refine .inl (hr (.inl fun i hi => ?_) ⟨2, fun i => ?_⟩)
    · fin_cases i <;> simp at hi ⊢
    · fin_cases i <;> simp [pole]
  · change AxisAligned _ 3
    rw [AxisAligned, if_neg (by norm_num), if_pos rfl]
    have : unit ![1, 1, 1] = pole 3 := by ext i; fin_cases i <;> simp [unit, norm, pole] <;> norm_num
    rw [this]
    refine .inl (hr (.inr fun i => ?_) ⟨0, fun i => ?_⟩)
    · fin_cases i <;> simp [pole]
    · fin_cases i <;> simp [pole]
  · change AxisAligned _ 5
    rw [AxisAligned, if_neg (by norm_num), if_neg (by norm_num)]
    have : unit ![phi, 0, 1] = pole 5 := by rw [← axis_eq]; simp [axisOf]
    have h0 : 0 < √(phi + 2) := Real.sqrt_pos.2 (by linarith)
    rw [this]
    refine hr (.inl fun i hi => ?_) ⟨0, fun i => ?_⟩
    · fin_cases i <;> simp [pole] at hi ⊢
      · positivity
      · rw [inv_eq_one_div]; exact div_lt_div_of_pos_right hp h0
    · fin_cases i <;> simp [pole]
      · positivity

/-- **C90** The subgroups `(False, n, adj)`, `n = 2, 3, 5`, are the cyclic groups of the rotations by `2 π h / n` around the axis `adj⁻¹ a`, where `a` is the Z axis, `(1, 1, 1)`, `(φ, 0, 1)`: the assertions hold, the inclusion
succeeds on every element and gives elements of the group, it is a homomorphism and injective. -/
theorem C90_cyclic (haq : AsQuat aq) {adj : UQuat} (hadj : IsElement adj) {n : ℤ} (hn : n = 2 ∨ n = 3 ∨ n = 5) :
    ∃ P C, subgroup aq (.pair false n) adj = .ok ⟨ℤ, fun e => Cyclic.isElement n.toNat e = true, Cyclic.combine n.toNat, P, C⟩ ∧
      (∀ h, Cyclic.isElement n.toNat h = true → ∃ g, P h = .ok g ∧ IsElement g ∧ rotOf g = (rotOf adj)ᵀ * turnAbout (pole n) (2 * π * h / n) * rotOf adj) ∧
      (∀ h h' g g', Cyclic.isElement n.toNat h = true → Cyclic.isElement n.toNat h' = true → P h = .ok g → P h' = .ok g' →
        (∃ k, P (Cyclic.combine n.toNat h h') = .ok k ∧ rotOf k = rotOf g * rotOf g') ∧ (rotOf g = rotOf g' → h = h')) := by
  have hn1 : n ≠ 1 := by omega
  have hnat : ((n.toNat : ℕ) : ℤ) = n := by omega
  have hrad : ∀ h : ℤ, Cyclic.radians n.toNat h = 2 * π * h / n := fun h => by
    have : ((n.toNat : ℕ) : ℝ) = (n : ℝ) := by exact_mod_cast hnat
    rw [Cyclic.radians, this]; ring
  refine ⟨_, _, by rw [subgroup, if_neg hn1, if_pos hn, if_pos (axis_ok hn)], fun h hh => ?_, fun h h' g g' hh hh' hg hg' => ?_⟩
  · have c := case_of hn hh
    rw [← hrad, turn_el c]
    exact parent_ok haq hadj c
  have c := case_of hn hh
  have c' := case_of hn hh'
  have hA := rotOf_orth hadj.1
  have hmod : Cyclic.isElement n.toNat (Cyclic.combine n.toNat h h') = true := by
    rw [Cyclic.isElement_iff, Cyclic.combine, hnat]
    exact ⟨Int.emod_nonneg _ (by omega), Int.emod_lt_of_pos _ (by omega)⟩
  have mem : ∀ {h}, Cyclic.isElement n.toNat h = true → h ∈ ([0, 1, 2, 3, 4] : List ℤ) ∧ h < n := fun {h} hh => by
    rw [Cyclic.isElement_iff, hnat] at hh
    refine ⟨?_, hh.2⟩
    simp only [List.mem_cons, List.not_mem_nil, or_false]
    omega
  obtain ⟨hmul, hinj⟩ := el_mul n (by simpa using hn) h (mem hh).1 h' (mem hh').1 (mem hh).2 (mem hh').2
  obtain ⟨p, hp, -, hpr⟩ := parent_ok haq hadj c
  obtain ⟨p', hp', -, hpr'⟩ := parent_ok haq hadj c'
  obtain ⟨k, hk, -, hkr⟩ := parent_ok haq hadj (case_of hn hmod)
  obtain rfl : g = p := Except.ok.inj (hg.symm.trans hp)
  obtain rfl : g' = p' := Except.ok.inj (hg'.symm.trans hp')
  refine ⟨⟨k, hk, ?_⟩, fun he => ?_⟩
  · rw [hkr, Cyclic.combine, hnat, hmul, hpr, hpr', mat_combine (el_mem c) (el_mem c')]
    have e : (rotOf adj)ᵀ * mat (el n h) * rotOf adj * ((rotOf adj)ᵀ * mat (el n h') * rotOf adj) =
        (rotOf adj)ᵀ * mat (el n h) * (rotOf adj * (rotOf adj)ᵀ) * mat (el n h') * rotOf adj := by simp only [mul_assoc]
    rw [e, hA, mul_one]
    simp only [mul_assoc]
  · refine hinj (mat_inj ?_)
    rw [hpr, hpr'] at he
    have e2 : ∀ M : Mat3, rotOf adj * ((rotOf adj)ᵀ * M * rotOf adj) * (rotOf adj)ᵀ = M := fun M => by
      calc _ = (rotOf adj * (rotOf adj)ᵀ) * M * (rotOf adj * (rotOf adj)ᵀ) := by simp only [mul_assoc]
        _ = M := by rw [hA, one_mul, mul_one]
    rw [← e2 (mat (el n h)), he, e2]

theorem half_angle {n h : ℤ} (c : Case n h) (h0 : h ≠ 0) : 0 < Cyclic.radians n.toNat h / 2 ∧ Cyclic.radians n.toNat h / 2 < π := by
  have := pi_pos
  cases c <;> first | exact absurd rfl h0 | (simp only [Cyclic.radians, show Int.toNat 2 = 2 from rfl, show Int.toNat 3 = 3 from rfl, show Int.toNat 5 = 5 from rfl]; constructor <;> push_cast <;> linarith)

theorem axis_unit (n : ℤ) : axisOf n 0 ^ 2 + axisOf n 1 ^ 2 + axisOf n 2 ^ 2 = 1 := by rw [axis_eq, pole_unit]

theorem axis_last (n : ℤ) : 0 < axisOf n 2 := by
  have hp := one_lt_phi
  rw [axis_eq, pole]
  split_ifs
  · simp
  · simp; linarith
  · simp

theorem child_pos {n h : ℤ} (c : Case n h) (hh : Cyclic.isElement n.toNat h = true) {adj e : UQuat} (he : SO3.intoChild aq adj e = cnQuat n h) : icoToCn aq n.toNat (axisOf n) adj e = .ok (some h) := by
  rw [icoToCn]
  simp only [he]
  have hs : (cnQuat n h).imI ^ 2 + (cnQuat n h).imJ ^ 2 + (cnQuat n h).imK ^ 2 = sin (Cyclic.radians n.toNat h / 2) ^ 2 := by
    simp only [cnQuat, quat]
    linear_combination sin (Cyclic.radians n.toNat h / 2) ^ 2 * axis_unit n
  rw [hs]
  by_cases h0 : h = 0
  · subst h0
    rw [if_pos (by simp [Cyclic.radians])]; rfl
  · obtain ⟨a1, a2⟩ := half_angle c h0
    have hp := sin_pos_of_pos_of_lt_pi a1 a2
    rw [Real.sqrt_sq hp.le, if_neg hp.ne', if_pos]
    · have : (cnQuat n h).re = cos (Cyclic.radians n.toNat h / 2) := rfl
      rw [this, arctan2_angle a1 a2.le, Cyclic.elementOf_turn hh 0 (by push_cast; ring)]
      rfl
    · refine ⟨?_, ?_, ?_⟩
      · change axisOf n 0 * sin _ / sin _ = _
        field_simp
      · change axisOf n 1 * sin _ / sin _ = _
        field_simp
      · change axisOf n 2 * sin _ / sin _ = _
        field_simp

theorem child_neg {n h : ℤ} (c : Case n h) (h0 : h ≠ 0) {adj e : UQuat} (he : SO3.intoChild aq adj e = -cnQuat n h) : icoToCn aq n.toNat (axisOf n) adj e = .ok none := by
  rw [icoToCn]
  simp only [he]
  have hs : (-cnQuat n h).imI ^ 2 + (-cnQuat n h).imJ ^ 2 + (-cnQuat n h).imK ^ 2 = sin (Cyclic.radians n.toNat h / 2) ^ 2 := by
    rw [imI_neg, imJ_neg, imK_neg]
    simp only [cnQuat, quat]
    linear_combination sin (Cyclic.radians n.toNat h / 2) ^ 2 * axis_unit n
  rw [hs]
  obtain ⟨a1, a2⟩ := half_angle c h0
  have hp := sin_pos_of_pos_of_lt_pi a1 a2
  rw [Real.sqrt_sq hp.le, if_neg hp.ne', if_neg]
  rintro ⟨-, -, h2⟩
  have e2 : (-cnQuat n h).imK / sin (Cyclic.radians n.toNat h / 2) = -axisOf n 2 := by
    change -(axisOf n 2 * sin _) / sin _ = _
    field_simp
  rw [e2] at h2
  linarith [axis_last n]

/-- The elements around the axes. -/
theorem around : ∀ p ∈ quats, (p.1 = 0 → p.2.1 = 0 → ofQuat p = el 2 0 ∨ ofQuat p = el 2 1) ∧
    (p.1 = p.2.1 → p.2.1 = p.2.2.1 → ofQuat p = el 3 0 ∨ ofQuat p = el 3 1 ∨ ofQuat p = el 3 2) ∧
    (p.2.1 = 0 → p.1 = mul2 hC p.2.2.1 → ofQuat p = el 5 0 ∨ ofQuat p = el 5 1 ∨ ofQuat p = el 5 2 ∨ ofQuat p = el 5 3 ∨ ofQuat p = el 5 4) := by decide +kernel

/-- An element of the group, in the frame of the subgroup, is in the subgroup or it is mapped to `None`. -/
theorem child_cases {n : ℤ} (hn : n = 2 ∨ n = 3 ∨ n = 5) {adj e : UQuat} (hu : normSq (SO3.intoChild aq adj e) = 1) {x : Elem} (hx : x ∈ elements) (hr : rotOf (SO3.intoChild aq adj e) = mat x) :
    (∃ h, Cyclic.isElement n.toNat h = true ∧ Case n h ∧ x = el n h) ∨ icoToCn aq n.toNat (axisOf n) adj e = .ok none := by
  obtain ⟨p, hp, rfl, -⟩ := toQ_eq hx
  have hpm := (rotOf_eq_iff hu (goldQ_unit hp)).1 (hr.trans (rotOf_goldQ hp).symm)
  obtain ⟨s, hs, e1, e2, e3⟩ : ∃ s : ℝ, s ≠ 0 ∧ (SO3.intoChild aq adj e).imI = s * p.1.val ∧ (SO3.intoChild aq adj e).imJ = s * p.2.1.val ∧ (SO3.intoChild aq adj e).imK = s * p.2.2.1.val := by
    rcases hpm with h | h
    · exact ⟨1, one_ne_zero, by rw [h, one_mul]; rfl, by rw [h, one_mul]; rfl, by rw [h, one_mul]; rfl⟩
    · rw [neg_eq_iff_eq_neg] at h
      exact ⟨-1, by norm_num, by rw [h, neg_one_mul]; rfl, by rw [h, neg_one_mul]; rfl, by rw [h, neg_one_mul]; rfl⟩
  by_cases hin : ∃ h, Cyclic.isElement n.toNat h = true ∧ Case n h ∧ ofQuat p = el n h
  · exact .inl hin
  refine .inr ?_
  have hin' : ∀ {h : ℤ}, Case n h → Cyclic.isElement n.toNat h = true → ofQuat p = el n h → False := fun c hh h => hin ⟨_, hh, c, h⟩
  have cancel : ∀ {x y : Gold}, s * x.val = s * y.val → x = y := fun h => val_inj (mul_left_cancel₀ hs h)
  have a2 : pole 2 = ![0, 0, 1] := by simp [pole]
  have a3 : pole 3 = ![1 / √3, 1 / √3, 1 / √3] := by simp [pole]
  have a5 : pole 5 = ![phi / √(phi + 2), 0, 1 / √(phi + 2)] := by simp [pole]
  have off : ∀ r : ℝ, ¬((SO3.intoChild aq adj e).imI = r * pole n 0 ∧ (SO3.intoChild aq adj e).imJ = r * pole n 1 ∧ (SO3.intoChild aq adj e).imK = r * pole n 2) := by
    rintro r ⟨b1, b2, b3⟩
    rw [e1] at b1; rw [e2] at b2; rw [e3] at b3
    rcases hn with rfl | rfl | rfl
    · rw [a2] at b1 b2
      simp only [Matrix.cons_val_zero, Matrix.cons_val_one, mul_zero] at b1 b2
      rcases (around p hp).1 (cancel (by rw [b1, val_zero, mul_zero])) (cancel (by rw [b2, val_zero, mul_zero])) with h | h
      · exact hin' .c20 (by decide) h
      · exact hin' .c21 (by decide) h
    · rw [a3] at b1 b2 b3
      rcases (around p hp).2.1 (cancel (b1.trans b2.symm)) (cancel (b2.trans b3.symm)) with h | h | h
      · exact hin' .c30 (by decide) h
      · exact hin' .c31 (by decide) h
      · exact hin' .c32 (by decide) h
    · rw [a5] at b1 b2 b3
      simp only [Matrix.cons_val_zero, Matrix.cons_val_one, Matrix.cons_val, mul_zero] at b1 b2 b3
      rcases (around p hp).2.2 (cancel (by rw [b2, val_zero, mul_zero])) (cancel (by rw [val_mul2, val_hC, b1]; linear_combination -phi * b3)) with h | h | h | h | h
      · exact hin' .c50 (by decide) h
      · exact hin' .c51 (by decide) h
      · exact hin' .c52 (by decide) h
      · exact hin' .c53 (by decide) h
      · exact hin' .c54 (by decide) h
  unfold icoToCn
  dsimp only
  generalize SO3.intoChild aq adj e = q at off
  have hN : √(q.imI ^ 2 + q.imJ ^ 2 + q.imK ^ 2) ≠ 0 := fun h => by
    rw [Real.sqrt_eq_zero (by positivity)] at h
    have hI : q.imI = 0 := by nlinarith [sq_nonneg q.imI, sq_nonneg q.imJ, sq_nonneg q.imK]
    have hJ : q.imJ = 0 := by nlinarith [sq_nonneg q.imI, sq_nonneg q.imJ, sq_nonneg q.imK]
    have hK : q.imK = 0 := by nlinarith [sq_nonneg q.imI, sq_nonneg q.imJ, sq_nonneg q.imK]
    exact off 0 ⟨by rw [hI, zero_mul], by rw [hJ, zero_mul], by rw [hK, zero_mul]⟩
  rw [if_neg hN, if_neg]
  rintro ⟨b1, b2, b3⟩
  rw [axis_eq] at b1 b2 b3
  refine off √(q.imI ^ 2 + q.imJ ^ 2 + q.imK ^ 2) ⟨?_, ?_, ?_⟩
  · rw [← b1]; field_simp
  · rw [← b2]; field_simp
  · rw [← b3]; field_simp

/-- **C90** The map from the group to the subgroup `(False, n, adj)`, `n = 2, 3, 5`, never fails; an element which it returns is mapped by the inclusion to the given rotation; an element outside of the subgroup gives `None`.
Missing: an element of the subgroup which is not the identity can give `None` (`C90_child_violation`). -/
theorem C90_child_partial (haq : AsQuat aq) {adj e : UQuat} (hadj : IsElement adj) (he : IsElement e) {n : ℤ} (hn : n = 2 ∨ n = 3 ∨ n = 5) :
    ∃ P C, subgroup aq (.pair false n) adj = .ok ⟨ℤ, fun e => Cyclic.isElement n.toNat e = true, Cyclic.combine n.toNat, P, C⟩ ∧
      (∃ r, C e = .ok r) ∧
      (∀ h, C e = .ok (some h) → Cyclic.isElement n.toNat h = true ∧ ∃ g, P h = .ok g ∧ rotOf g = rotOf e) ∧
      (∀ h g, Cyclic.isElement n.toNat h = true → P h = .ok g → rotOf g = rotOf e → C e = .ok (some h) ∨ h ≠ 0 ∧ C e = .ok none) := by
  have hn1 : n ≠ 1 := by omega
  refine ⟨_, _, by rw [subgroup, if_neg hn1, if_pos hn, if_pos (axis_ok hn)], ?_⟩
  obtain ⟨hu, hr⟩ := SO3.intoChild_spec haq hadj.1 e he.1
  have hA : rotOf adj * (rotOf adj)ᵀ = 1 := rotOf_orth hadj.1
  have hA' : (rotOf adj)ᵀ * rotOf adj = 1 := mul_eq_one_comm.1 hA
  obtain ⟨x, hx, hxe⟩ : ∃ x ∈ elements, rotOf (SO3.intoChild aq adj e) = mat x := by
    obtain ⟨a, ha, ea⟩ := (isElement_iff hadj.1).1 hadj
    obtain ⟨b, hb, eb⟩ := (isElement_iff he.1).1 he
    exact ⟨combine (combine a b) (inverse a), combine_mem _ (combine_mem _ ha _ hb) _ (inverse_mem a ha), by
      rw [hr, ea, eb, mat_combine (combine_mem _ ha _ hb) (inverse_mem a ha), mat_combine ha hb, mat_inverse]⟩
  have back : ∀ {M : Mat3}, rotOf (SO3.intoChild aq adj e) = M → (rotOf adj)ᵀ * M * rotOf adj = rotOf e := fun {M} h => by
    rw [← h, hr]
    calc _ = ((rotOf adj)ᵀ * rotOf adj) * rotOf e * ((rotOf adj)ᵀ * rotOf adj) := by noncomm_ring
      _ = _ := by rw [hA', Matrix.one_mul, Matrix.mul_one]
  have forth : ∀ {h g}, Case n h → cnToIco aq (axisOf n) adj (Cyclic.radians n.toNat h) = .ok g → rotOf g = rotOf e → rotOf (SO3.intoChild aq adj e) = mat (el n h) := fun {h g} c hg hge => by
    obtain ⟨g', g1, -, g3⟩ := parent_ok haq hadj c
    obtain rfl : g' = g := Except.ok.inj (g1.symm.trans hg)
    rw [hr, ← hge, g3]
    calc _ = (rotOf adj * (rotOf adj)ᵀ) * mat (el n h) * (rotOf adj * (rotOf adj)ᵀ) := by noncomm_ring
      _ = _ := by rw [hA, Matrix.one_mul, Matrix.mul_one]
  have inside : ∀ {h}, Cyclic.isElement n.toNat h = true → rotOf (SO3.intoChild aq adj e) = mat (el n h) →
      icoToCn aq n.toNat (axisOf n) adj e = .ok (some h) ∨ h ≠ 0 ∧ icoToCn aq n.toNat (axisOf n) adj e = .ok none := fun {h} hh ht => by
    have c := case_of hn hh
    rcases (rotOf_eq_iff hu (cnQuat_spec n h).1).1 (by rw [ht, rot_el c]) with k | k
    · exact .inl (child_pos c hh k)
    · by_cases h0 : h = 0
      · subst h0
        left
        rw [neg_eq_iff_eq_neg] at k
        unfold icoToCn
        refine (if_pos ?_).trans rfl
        rw [k, imI_neg, imJ_neg, imK_neg]
        simp [cnQuat, quat, Cyclic.radians]
      · exact .inr ⟨h0, child_neg c h0 (neg_eq_iff_eq_neg.1 k)⟩
  rcases child_cases hn hu hx hxe with ⟨h, hh, c, rfl⟩ | hnone
  · have hin := inside hh hxe
    refine ⟨by rcases hin with k | ⟨-, k⟩ <;> exact ⟨_, k⟩, fun h' hC => ?_, fun h' g hh' hg hge => inside hh' (forth (case_of hn hh') hg hge)⟩
    have : h' = h := by
      rcases hin with k | ⟨-, k⟩ <;> rw [k] at hC <;> simp at hC
      exact hC.symm
    subst this
    obtain ⟨g, g1, -, g3⟩ := parent_ok haq hadj c
    exact ⟨hh, g, g1, by rw [g3]; exact back hxe⟩
  · refine ⟨⟨_, hnone⟩, fun h hC => ?_, fun h g hh hg hge => inside hh (forth (case_of hn hh) hg hge)⟩
    rw [hnone] at hC; simp at hC

theorem identity_el : IsElement SO3.identity :=
  (isElement_iff (by rw [SO3.identity, SO3.normSq_quat]; norm_num)).2 ⟨identity, identity_mem, by rw [show SO3.identity = 1 from rfl, rotOf_one, mat_identity]⟩

/-- **C90** (violated) With quaternions kept as they are, the image `g` of the element 1 of the subgroup `(False, 5)` is an element whose inverse, computed by the group, is in the subgroup (it is the image of 4), but the map to
the subgroup gives `None` for it. -/
theorem C90_child_violation : ∃ P C, subgroup id (.pair false 5) SO3.identity = .ok ⟨ℤ, fun e => Cyclic.isElement 5 e = true, Cyclic.combine 5, P, C⟩ ∧
    ∃ g g', P 1 = .ok g ∧ P 4 = .ok g' ∧ IsElement g ∧ IsElement (SO3.inverse id g) ∧ rotOf (SO3.inverse id g) = rotOf g' ∧ C g = .ok (some 1) ∧ C (SO3.inverse id g) = .ok none := by
  have haq : AsQuat id := fun q => .inl rfl
  obtain ⟨g, g1, g2, g3⟩ := parent_ok haq identity_el .c51
  obtain ⟨g', g1', -, g3'⟩ := parent_ok haq identity_el .c54
  have hid : SO3.identity = 1 := rfl
  have hE : element (cnQuat 5 1) = .ok (cnQuat 5 1) := if_pos ((isElement_iff (cnQuat_spec 5 1).1).2 ⟨_, el_mem .c51, rot_el .c51⟩)
  have hg : g = cnQuat 5 1 := by
    have : cnToIco id (axisOf 5) SO3.identity (Cyclic.radians (5 : ℤ).toNat 1) = .ok (cnQuat 5 1) := by
      rw [cnToIco]
      change (element (cnQuat 5 1) >>= _) = _
      rw [hE]
      change Except.ok (SO3.intoParent id SO3.identity (cnQuat 5 1)) = _
      simp only [SO3.intoParent, SO3.combine, SO3.inverse, id, hid, star_one, one_mul, mul_one]
    exact Except.ok.inj (g1.symm.trans this)
  have hinv : SO3.inverse id g = -cnQuat 5 4 := by
    rw [hg, cnQuat_eq .c51, cnQuat_eq .c54]
    simp only [SO3.inverse, id]
    have e0 : gq 5 1 = (hA, 0, hB, hC) := by decide
    have e1 : gq 5 4 = (hA, 0, hB, -hC) := by decide
    rw [e0, e1]
    apply Quaternion.ext
    · rw [re_star, re_neg]; simp [goldQ, quat]
    · rw [imI_star, imI_neg]; simp [goldQ, quat]
    · rw [imJ_star, imJ_neg]; simp [goldQ, quat]
    · rw [imK_star, imK_neg]; simp [goldQ, quat]
  have hrot : rotOf (SO3.inverse id g) = mat (el 5 4) := by rw [hinv, rotOf_neg, rot_el .c54]
  refine ⟨_, _, by rw [subgroup, if_neg (by norm_num), if_pos (by norm_num), if_pos (axis_ok (by norm_num))]; rfl, g, g', g1, g1', g2, ?_, ?_, ?_, ?_⟩
  · exact (isElement_iff (SO3.inverse_unit haq g2.1)).2 ⟨_, el_mem .c54, hrot⟩
  · rw [hrot, g3', hid, rotOf_one, Matrix.transpose_one, Matrix.one_mul, Matrix.mul_one]
  · refine child_pos .c51 (by decide) ?_
    rw [hg]
    simp only [SO3.intoChild, SO3.combine, SO3.inverse, id, hid, star_one, one_mul, mul_one]
  · refine child_neg .c54 (by norm_num) ?_
    rw [hinv]
    simp only [SO3.intoChild, SO3.combine, SO3.inverse, id, hid, star_one, one_mul, mul_one]

/-- **C90** The trivial subgroup `(False, 1)` and the whole group `('ico', adj)`: the maps of the first are the identity, restricted to rotations which are the identity; the ones of the second are conjugation by `adj` and
its inverse. -/
theorem C90_trivial_whole (haq : AsQuat aq) (adj : UQuat) :
    (∃ P C, subgroup aq (.pair false 1) adj = .ok ⟨ℤ, fun e => Cyclic.isElement 1 e = true, Cyclic.combine 1, P, C⟩ ∧ (∀ h, ∃ g, P h = .ok g ∧ rotOf g = 1) ∧
      ∀ e, IsElement e → (rotOf e = 1 → C e = .ok (some 0)) ∧ (rotOf e ≠ 1 → C e = .ok none)) ∧
    ∃ P C, subgroup aq (.str "ico") adj = .ok ⟨UQuat, IsElement, SO3.combine aq, P, C⟩ ∧
      ∀ e, IsElement e → (∃ g, P e = .ok g ∧ rotOf g = (rotOf adj)ᵀ * rotOf e * rotOf adj) ∧ ∃ g, C e = .ok (some g) ∧ rotOf g = rotOf adj * rotOf e * (rotOf adj)ᵀ := by
  have hid : rotOf SO3.identity = 1 := by rw [show SO3.identity = 1 from rfl, rotOf_one]
  refine ⟨⟨_, _, by rw [subgroup, if_pos rfl], fun h => ⟨_, rfl, hid⟩, fun e he => ?_⟩, _, _, by rw [subgroup, if_pos rfl], fun e he => ⟨⟨_, rfl, ?_⟩, _, rfl, ?_⟩⟩
  · have hiff : SO3.Equal e SO3.identity ↔ rotOf e = 1 := by rw [← hid, rotOf_eq_iff he.1 identity_el.1]; rfl
    exact ⟨fun h => congrArg Except.ok (if_pos (hiff.2 h)), fun h => congrArg Except.ok (if_neg fun h' => h (hiff.1 h'))⟩
  · simp only [SO3.adjointMap, SO3.combine, SO3.inverse, haq.rotOf, rotOf_mul, rotOf_star, Matrix.transpose_transpose]
  · simp only [SO3.adjointMap, SO3.combine, SO3.inverse, haq.rotOf, rotOf_mul, rotOf_star]

theorem changeAxis_eq : changeAxis = goldQ (hA, hA, -hA, hA) := by
  have : √3 ≠ 0 := (Real.sqrt_pos.2 (by norm_num)).ne'
  rw [changeAxis, sin_pi_div_three, cos_pi_div_three, goldQ]
  simp only [val_neg, val_hA]
  congr 1 <;> field_simp

/-- **C90** The id `(True, 1, adj)` names the subgroup of two rotations generated by the half turn around `adj⁻¹ X`, as the comment in the code says: processing the id never fails. -/
theorem C90_flip (haq : AsQuat aq) {adj : UQuat} (hadj : IsElement adj) :
    ∃ adj', processId aq (.pair true 1) adj = .ok (.pair false 2, adj') ∧ IsElement adj' ∧
      ∃ P C, subgroup aq (.pair false 2) adj' = .ok ⟨ℤ, fun e => Cyclic.isElement 2 e = true, Cyclic.combine 2, P, C⟩ ∧
        ∃ g, P 1 = .ok g ∧ rotOf g = (rotOf adj)ᵀ * !![1, 0, 0; 0, -1, 0; 0, 0, -1] * rotOf adj := by
  have hq : (hA, hA, -hA, hA) ∈ quats := by decide +kernel
  have hc : IsElement changeAxis := by rw [changeAxis_eq]; exact (isElement_iff (goldQ_unit hq)).2 ⟨_, List.mem_map_of_mem hq, rotOf_goldQ hq⟩
  have hrc : rotOf changeAxis = mat (ofQuat (hA, hA, -hA, hA)) := by rw [changeAxis_eq]; exact rotOf_goldQ hq
  have hu : normSq (SO3.combine aq changeAxis adj) = 1 := SO3.combine_unit haq hc.1 hadj.1
  have hrot : rotOf (SO3.combine aq changeAxis adj) = mat (ofQuat (hA, hA, -hA, hA)) * rotOf adj := by rw [SO3.combine_spec haq, hrc]
  have hE : IsElement (SO3.combine aq changeAxis adj) := by
    obtain ⟨a, ha, ea⟩ := (isElement_iff hadj.1).1 hadj
    exact (isElement_iff hu).2 ⟨_, combine_mem _ (List.mem_map_of_mem hq) _ ha, by rw [hrot, ea, mat_combine (List.mem_map_of_mem hq) ha]⟩
  refine ⟨_, ?_, hE, _, _, by rw [subgroup, if_neg (by norm_num), if_pos (by norm_num), if_pos (axis_ok (by norm_num))]; rfl, ?_⟩
  · rw [processId, if_neg (by simp), if_pos ⟨rfl, rfl⟩, element, if_pos hc]; rfl
  · obtain ⟨g, g1, -, g3⟩ := parent_ok haq hE .c21
    refine ⟨g, g1, ?_⟩
    have e1 : (mat (ofQuat (hA, hA, -hA, hA)))ᵀ * mat (el 2 1) * mat (ofQuat (hA, hA, -hA, hA)) = !![1, 0, 0; 0, -1, 0; 0, 0, -1] := by
      have m1 : ofQuat (hA, hA, -hA, hA) ∈ elements := List.mem_map_of_mem hq
      rw [← mat_inverse, ← mat_combine (inverse_mem _ m1) (el_mem .c21), ← mat_combine (combine_mem _ (inverse_mem _ m1) _ (el_mem .c21)) m1,
        show combine (combine (inverse (ofQuat (hA, hA, -hA, hA))) (el 2 1)) (ofQuat (hA, hA, -hA, hA)) = ⟨1, 0, 0, 0, -1, 0, 0, 0, -1⟩ by decide +kernel]
      ext i j; fin_cases i <;> fin_cases j <;> simp [mat]
    rw [g3, hrot, Matrix.transpose_mul, ← e1]
    simp only [Matrix.mul_assoc]

/-- **C90** The other ids: unknown names raise `ValueError`, `tetra` and the dihedral subgroups `NotImplementedError`, and orders other than 1, 2, 3, 5 fail an assertion. -/
theorem C90_id_errors (adj : UQuat) :
    (∀ s, s ≠ "ico" → subgroup aq (.str s) adj = .error (if s = "tetra" then .notImplemented else .value)) ∧
    (∀ f n, n ≠ 1 → n ≠ 2 → n ≠ 3 → n ≠ 5 → processId aq (.pair f n) adj = .error .assertion) ∧
    (∀ n, n = 2 ∨ n = 3 ∨ n = 5 → processId aq (.pair true n) adj = .ok (.pair true n, adj) ∧ subgroup aq (.pair true n) adj = .error .notImplemented) := by
  refine ⟨fun s hs => ?_, fun f n h1 h2 h3 h4 => ?_, fun n hn => ⟨?_, ?_⟩⟩
  · rw [subgroup, if_neg hs]; split_ifs <;> rfl
  · rw [processId, if_pos (by simp [h1, h2, h3, h4])]
  · rw [processId, if_neg (by rcases hn with rfl | rfl | rfl <;> simp), if_neg (by rcases hn with rfl | rfl | rfl <;> simp)]
  · rw [subgroup, if_pos hn]

/-- The elements which fix a vertex, the centre of a face, or preserve an edge; `mul2 hC x` is `φ x`. -/
theorem fix_axis : ∀ x ∈ elements,
    (mul2 hC x.m₀₀ + x.m₀₂ = hC + hC ∧ mul2 hC x.m₁₀ + x.m₁₂ = 0 ∧ mul2 hC x.m₂₀ + x.m₂₂ = 1 ↔ x = el 5 0 ∨ x = el 5 1 ∨ x = el 5 2 ∨ x = el 5 3 ∨ x = el 5 4) ∧
    (x.m₀₀ + x.m₀₁ + x.m₀₂ = 1 ∧ x.m₁₀ + x.m₁₁ + x.m₁₂ = 1 ∧ x.m₂₀ + x.m₂₁ + x.m₂₂ = 1 ↔ x = el 3 0 ∨ x = el 3 1 ∨ x = el 3 2) ∧
    ((x.m₀₁ + mul2 hC x.m₀₂ = 0 ∧ x.m₁₁ + mul2 hC x.m₁₂ = 1 ∧ x.m₂₁ + mul2 hC x.m₂₂ = hC + hC ∧ -x.m₀₁ + mul2 hC x.m₀₂ = 0 ∧ -x.m₁₁ + mul2 hC x.m₁₂ = -1 ∧ -x.m₂₁ + mul2 hC x.m₂₂ = hC + hC ∨
      x.m₀₁ + mul2 hC x.m₀₂ = 0 ∧ x.m₁₁ + mul2 hC x.m₁₂ = -1 ∧ x.m₂₁ + mul2 hC x.m₂₂ = hC + hC ∧ -x.m₀₁ + mul2 hC x.m₀₂ = 0 ∧ -x.m₁₁ + mul2 hC x.m₁₂ = 1 ∧ -x.m₂₁ + mul2 hC x.m₂₂ = hC + hC) ↔
      x = el 2 0 ∨ x = el 2 1) := by decide +kernel

theorem val_eq {x y : Gold} : x = y ↔ x.val = y.val := ⟨fun h => by rw [h], val_inj⟩

theorem vec_eq (x : Elem) (a b c a' b' c' : ℝ) : mat x *ᵥ ![a, b, c] = ![a', b', c'] ↔
    x.m₀₀.val * a + x.m₀₁.val * b + x.m₀₂.val * c = a' ∧ x.m₁₀.val * a + x.m₁₁.val * b + x.m₁₂.val * c = b' ∧ x.m₂₀.val * a + x.m₂₁.val * b + x.m₂₂.val * c = c' := by
  constructor
  · intro h
    have a0 := congrFun h 0; have a1 := congrFun h 1; have a2 := congrFun h 2
    simp [mat, Matrix.mulVec, dotProduct, Fin.sum_univ_three] at a0 a1 a2
    exact ⟨a0, a1, a2⟩
  · rintro ⟨h0, h1, h2⟩
    ext i
    fin_cases i <;> simp [mat, Matrix.mulVec, dotProduct, Fin.sum_univ_three] <;> assumption

/-- **C90** The cosets of `(False, 5)` are the vertices of the icosahedron, those of `(False, 3)` its faces and those of `(False, 2)` its edges, as `ico_vertices_representation`, `ico_faces_representation` and
`ico_edges_representation` say: the subgroup is the stabiliser of the vertex `(φ, 0, 1)`, of the face with vertices `(φ, 0, 1)`, `(1, φ, 0)`, `(0, 1, φ)` (through its centre), and of the edge between `(0, 1, φ)` and
`(0, -1, φ)`. -/
theorem C90_vertices_faces_edges (haq : AsQuat aq) {e : UQuat} (he : IsElement e) :
    (∃ P C, subgroup aq (.pair false 5) SO3.identity = .ok ⟨ℤ, fun e => Cyclic.isElement 5 e = true, Cyclic.combine 5, P, C⟩ ∧
      (rotOf e *ᵥ ![phi, 0, 1] = ![phi, 0, 1] ↔ ∃ h g, Cyclic.isElement 5 h = true ∧ P h = .ok g ∧ rotOf g = rotOf e)) ∧
    (∃ P C, subgroup aq (.pair false 3) SO3.identity = .ok ⟨ℤ, fun e => Cyclic.isElement 3 e = true, Cyclic.combine 3, P, C⟩ ∧
      (rotOf e *ᵥ ![1, 1, 1] = ![1, 1, 1] ↔ ∃ h g, Cyclic.isElement 3 h = true ∧ P h = .ok g ∧ rotOf g = rotOf e)) ∧
    ∃ P C, subgroup aq (.pair false 2) SO3.identity = .ok ⟨ℤ, fun e => Cyclic.isElement 2 e = true, Cyclic.combine 2, P, C⟩ ∧
      ((rotOf e *ᵥ ![0, 1, phi] = ![0, 1, phi] ∧ rotOf e *ᵥ ![0, -1, phi] = ![0, -1, phi] ∨ rotOf e *ᵥ ![0, 1, phi] = ![0, -1, phi] ∧ rotOf e *ᵥ ![0, -1, phi] = ![0, 1, phi]) ↔
        ∃ h g, Cyclic.isElement 2 h = true ∧ P h = .ok g ∧ rotOf g = rotOf e) := by
  have hid : SO3.identity = 1 := rfl
  obtain ⟨x, hx, ex⟩ := (isElement_iff he.1).1 he
  have conv : ∀ {n : ℤ}, n = 2 ∨ n = 3 ∨ n = 5 → ((∃ h g, Cyclic.isElement n.toNat h = true ∧ cnToIco aq (axisOf n) SO3.identity (Cyclic.radians n.toNat h) = .ok g ∧ rotOf g = rotOf e) ↔
      ∃ h, Cyclic.isElement n.toNat h = true ∧ x = el n h) := fun {n} hn => by
    constructor
    · rintro ⟨h, g, hh, hg, hge⟩
      obtain ⟨g', g1, -, g3⟩ := parent_ok haq identity_el (case_of hn hh)
      obtain rfl : g' = g := Except.ok.inj (g1.symm.trans hg)
      rw [hge, ex, hid, rotOf_one, Matrix.transpose_one, Matrix.one_mul, Matrix.mul_one] at g3
      exact ⟨h, hh, mat_inj g3⟩
    · rintro ⟨h, hh, hxe⟩
      obtain ⟨g, g1, -, g3⟩ := parent_ok haq identity_el (case_of hn hh)
      rw [hid, rotOf_one, Matrix.transpose_one, Matrix.one_mul, Matrix.mul_one, ← hxe, ← ex] at g3
      exact ⟨h, g, hh, g1, g3⟩
  obtain ⟨f5, f3, f2⟩ := fix_axis x hx
  simp only [val_eq (x := _ + _), val_add, val_mul2, val_hC, val_zero, val_one, val_neg] at f5 f3 f2
  refine ⟨⟨_, _, by rw [subgroup, if_neg (by norm_num), if_pos (by norm_num), if_pos (axis_ok (by norm_num))]; rfl, ?_⟩, ⟨_, _, by rw [subgroup, if_neg (by norm_num), if_pos (by norm_num), if_pos (axis_ok (by norm_num))]; rfl, ?_⟩,
    _, _, by rw [subgroup, if_neg (by norm_num), if_pos (by norm_num), if_pos (axis_ok (by norm_num))]; rfl, ?_⟩
  · refine Iff.trans ?_ (conv (n := 5) (by norm_num)).symm
    rw [ex, vec_eq]
    refine Iff.trans ?_ (f5.trans ⟨?_, ?_⟩)
    · constructor <;> rintro ⟨h0, h1, h2⟩ <;> exact ⟨by linarith, by linarith, by linarith⟩
    · rintro (h | h | h | h | h)
      · exact ⟨0, by decide, h⟩
      · exact ⟨1, by decide, h⟩
      · exact ⟨2, by decide, h⟩
      · exact ⟨3, by decide, h⟩
      · exact ⟨4, by decide, h⟩
    · rintro ⟨h, hh, hxe⟩
      cases case_of (n := 5) (by norm_num) hh <;> simp [hxe]
  · refine Iff.trans ?_ (conv (n := 3) (by norm_num)).symm
    rw [ex, vec_eq]
    refine Iff.trans ?_ (f3.trans ⟨?_, ?_⟩)
    · simp only [mul_one]
    · rintro (h | h | h)
      · exact ⟨0, by decide, h⟩
      · exact ⟨1, by decide, h⟩
      · exact ⟨2, by decide, h⟩
    · rintro ⟨h, hh, hxe⟩
      cases case_of (n := 3) (by norm_num) hh <;> simp [hxe]
  · refine Iff.trans ?_ (conv (n := 2) (by norm_num)).symm
    rw [ex, vec_eq, vec_eq, vec_eq, vec_eq]
    refine Iff.trans ?_ (f2.trans ⟨?_, ?_⟩)
    · refine or_congr ⟨?_, ?_⟩ ⟨?_, ?_⟩
      · rintro ⟨⟨h0, h1, h2⟩, h3, h4, h5⟩; exact ⟨by linarith, by linarith, by linarith, by linarith, by linarith, by linarith⟩
      · rintro ⟨h0, h1, h2, h3, h4, h5⟩; exact ⟨⟨by linarith, by linarith, by linarith⟩, by linarith, by linarith, by linarith⟩
      · rintro ⟨⟨h0, h1, h2⟩, h3, h4, h5⟩; exact ⟨by linarith, by linarith, by linarith, by linarith, by linarith, by linarith⟩
      · rintro ⟨h0, h1, h2, h3, h4, h5⟩; exact ⟨⟨by linarith, by linarith, by linarith⟩, by linarith, by linarith, by linarith⟩
    · rintro (h | h)
      · exact ⟨0, by decide, h⟩
      · exact ⟨1, by decide, h⟩
    · rintro ⟨h, hh, hxe⟩
      cases case_of (n := 2) (by norm_num) hh <;> simp [hxe]

/-- The hypotheses are met by quaternions kept as they are and by the rotation by `2 π / 5` around `(φ, 0, 1)`, which fixes a vertex. -/
example : AsQuat id ∧ IsElement (goldQ (hA, 0, hB, hC)) ∧ Cyclic.isElement 5 4 = true ∧ mat (el 5 1) *ᵥ ![phi, 0, 1] = ![phi, 0, 1] := by
  refine ⟨fun _ => .inl rfl, (isElement_iff (goldQ_unit (by decide +kernel))).2 ⟨_, List.mem_map_of_mem (by decide +kernel), rotOf_goldQ (by decide +kernel)⟩, by decide, ?_⟩
  have h := ((fix_axis _ (el_mem .c51)).1).2 (.inr (.inl rfl))
  simp only [val_eq (x := _ + _), val_add, val_mul2, val_hC, val_zero, val_one] at h
  rw [vec_eq]
  exact ⟨by linarith, by linarith, by linarith⟩

end Ico

end Escnn
