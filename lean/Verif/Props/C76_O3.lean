import Verif.Lemmas.O3
import Verif.Props.C75_SO3

/-!
# C76 — O(3) and its subgroups
-/

namespace Escnn

open Real Matrix Quaternion

namespace O3

variable {aq : UQuat → UQuat}

/-- **C76** the elements of O(3) compose and invert as their orthogonal matrices, the inversion is the matrix `-1`, and `==`
holds exactly for equal matrices. -/
theorem C76_group (haq : AsQuat aq) :
    (∀ e, element e = .ok e ↔ O3El e) ∧
    (∀ e, O3El e → act3 e * (act3 e)ᵀ = 1 ∧ (act3 e).det = (-1) ^ e.1.toNat) ∧
    (∀ e e', O3El e → O3El e' → element (combine aq e e') = .ok (combine aq e e') ∧
      act3 (combine aq e e') = act3 e * act3 e') ∧
    (∀ e, O3El e → element (inverse aq e) = .ok (inverse aq e) ∧ act3 (inverse aq e) = (act3 e)ᵀ) ∧
    element identity = .ok identity ∧ act3 identity = 1 ∧ element inversion = .ok inversion ∧ act3 inversion = -1 ∧
    (∀ e e', O3El e → O3El e' → (Equal e e' ↔ act3 e = act3 e')) := by
  refine ⟨fun e => ?_, fun e he => ⟨(orth he).1, ?_⟩, fun e e' he he' => ?_, fun e he => ?_, ?_, identity_act, ?_, ?_, ?_⟩
  · unfold element O3El
    split <;> simp [*]
  · rw [act3, Matrix.det_smul, rotOf_det he.2]
    rcases sign_cases he.1 with ⟨-, h⟩ | ⟨-, h⟩ <;> rw [h] <;> norm_num
  · exact ⟨element_ok (combine_el haq he he'), combine_act haq he he'⟩
  · exact ⟨element_ok (inverse_el haq he), inverse_act haq e⟩
  · exact element_ok identity_el
  · exact element_ok ⟨.inr rfl, identity_el.2⟩
  · have h := identity_act
    simp only [act3, identity, Int.toNat_zero, pow_zero, one_smul] at h
    simp only [act3, inversion, Int.toNat_one, pow_one, h, neg_smul, one_smul]
  · intro e e' he he'
    constructor
    · rintro ⟨h1, h2⟩
      rw [act3, act3, h1, (rotOf_eq_iff he.2 he'.2).2 h2]
    · intro h
      obtain ⟨h1, h2⟩ := act_split he he'.1 (rotOf_det he'.2) h
      exact ⟨h1, (rotOf_eq_iff he.2 he'.2).1 h2⟩

/-! ### Subgroups of rotations -/

theorem zero_el {q : UQuat} (h : normSq q = 1) : O3El (0, q) := ⟨.inl rfl, h⟩

theorem zero_act (q : UQuat) : act3 (0, q) = rotOf q := by simp [act3]

/-- The adjoint of rotations around Z. -/
theorem so2_of {H : Type} (haq : AsQuat aq) {adj : Elem} (hadj : O3El adj) {El : H → Prop} {mul : H → H → H}
    {θ : H → ℝ} {mk : ℝ → Except Err H} (hC : Circle El mul θ mk) :
    RealisesAs O3El act3 El Eq mul (act3 adj) (fun h => rotZ (θ h)) (fun h => so2ToO3 aq adj (θ h)) (o3ToSo2 aq mk adj) ∧
    TightChild O3El act3 El (act3 adj) (fun h => rotZ (θ h)) (o3ToSo2 aq mk adj) := by
  constructor
  · refine RealisesAs.of (orth hadj).1 (orth hadj).2 (intoParent_spec haq hadj) (intoChild_spec haq hadj) hC.el ?_ ?_
      ?_ (core := fun e => if e.1 = 1 then .ok none else if e.2.imI = 0 ∧ e.2.imJ = 0 then
        orNone (mk (2 * arctan2 e.2.imK e.2.re)) else .ok none) ?_
    · intro h _
      refine ⟨(0, quat 0 0 (sin (θ h / 2)) (cos (θ h / 2))), ?_, zero_el (SO3.unit_z _), ?_⟩
      · simp only [so2ToO3, element_ok (zero_el (SO3.unit_z _)), Except.bind, bind]
      · rw [zero_act]; exact rotOf_z _
    · intro h h' hh hh'
      obtain ⟨k, hk⟩ := hC.mul h h' hh hh'
      rw [hk, rotZ_periodic, rotZ_add]
    · intro h h' hh hh' he
      obtain ⟨k, hk⟩ := rotZ_inj.1 he
      exact hC.inj h h' k hh hh' hk
    · intro e h he hh hr
      obtain ⟨h0, hr⟩ := act_rot he (rotZ_det _) hr
      obtain ⟨hz, hm⟩ := SO3.circle_core hC he.2 hh hr
      exact ⟨h, by rw [if_neg (by omega), if_pos hz, hm]; rfl, rfl⟩
  · refine TightChild.of (orth hadj).2 (intoChild_spec haq hadj)
      (core := fun e => if e.1 = 1 then .ok none else if e.2.imI = 0 ∧ e.2.imJ = 0 then
        orNone (mk (2 * arctan2 e.2.imK e.2.re)) else .ok none) ?_
    intro e he
    by_cases h1 : e.1 = 1
    · exact .inl (if_pos h1)
    have h0 : e.1 = 0 := by have := he.1; omega
    have ha : act3 e = rotOf e.2 := by rw [act3, h0]; simp
    by_cases hz : e.2.imI = 0 ∧ e.2.imJ = 0
    · rcases SO3.circle_core_tol hC he.2 hz with h | ⟨h, t, h3, h4, h5, h6⟩
      · exact .inl (by rw [if_neg h1, if_pos hz, h]; rfl)
      · exact .inr ⟨h, t, by rw [if_neg h1, if_pos hz, h3]; rfl, h4, h5, ha.trans h6⟩
    · exact .inl (by rw [if_neg h1, if_neg hz])

/-- The adjoint of rotations around Z and flips. -/
theorem dih_of {H : Type} (haq : AsQuat aq) {adj : Elem} (hadj : O3El adj) {El : H → Prop} {mul : H → H → H}
    {r : H → ℤ × ℝ} {mk : ℤ × ℝ → Except Err H} (hP : Plane El mul r mk) :
    RealisesAs O3El act3 El Eq mul (act3 adj) (fun h => rotZ (r h).2 * flipX ^ (r h).1.toNat)
      (fun h => dihToO3 aq adj (r h)) (o3ToDih aq mk adj) ∧
    TightChild O3El act3 El (act3 adj) (fun h => rotZ (r h).2 * flipX ^ (r h).1.toNat) (o3ToDih aq mk adj) := by
  constructor
  · refine RealisesAs.of (orth hadj).1 (orth hadj).2 (intoParent_spec haq hadj) (intoChild_spec haq hadj) hP.el ?_
      (fun h h' hh hh' => hP.rot_mul flipX_flipX flipX_rotZ hh hh') (fun h h' hh hh' he => SO3.plane_inj hP hh hh' he)
      (core := fun e => if e.1 = 1 then .ok none else
        if e.2.imI = 0 ∧ e.2.imJ = 0 then orNone (mk (0, 2 * arctan2 e.2.imK e.2.re))
        else if e.2.imK = 0 ∧ e.2.re = 0 then orNone (mk (1, 2 * arctan2 e.2.imJ e.2.imI)) else .ok none) ?_
    · intro h hh
      rcases hP.flip h hh with h0 | h1
      · refine ⟨(0, quat 0 0 (sin ((r h).2 / 2)) (cos ((r h).2 / 2))), ?_, zero_el (SO3.unit_z _), ?_⟩
        · simp only [dihToO3, h0, if_true, element_ok (zero_el (SO3.unit_z _)), Except.bind, bind]
        · rw [h0, zero_act]; exact (rotOf_z (r h).2).trans (by simp)
      · refine ⟨(0, quat (cos ((r h).2 / 2)) (sin ((r h).2 / 2)) 0 0), ?_, zero_el (SO3.unit_xy _), ?_⟩
        · simp only [dihToO3, h1, one_ne_zero, if_false, if_true, element_ok (zero_el (SO3.unit_xy _)), Except.bind, bind]
        · rw [h1, zero_act]; exact (rotOf_flip (r h).2).trans (by simp)
    · intro e h he hh hr
      obtain ⟨h0, hr⟩ := act_rot he (rotZ_flip_det _ _) hr
      refine ⟨h, ?_, rfl⟩
      rw [if_neg (by omega)]
      rcases SO3.plane_core hP he.2 hh hr with ⟨hz, hm⟩ | ⟨hz, hz', hm⟩
      · rw [if_pos hz, hm]; rfl
      · rw [if_neg hz, if_pos hz', hm]; rfl
  · refine TightChild.of (orth hadj).2 (intoChild_spec haq hadj)
      (core := fun e => if e.1 = 1 then .ok none else
        if e.2.imI = 0 ∧ e.2.imJ = 0 then orNone (mk (0, 2 * arctan2 e.2.imK e.2.re))
        else if e.2.imK = 0 ∧ e.2.re = 0 then orNone (mk (1, 2 * arctan2 e.2.imJ e.2.imI)) else .ok none) ?_
    intro e he
    by_cases h1 : e.1 = 1
    · exact .inl (if_pos h1)
    have h0 : e.1 = 0 := by have := he.1; omega
    have ha : act3 e = rotOf e.2 := by rw [act3, h0]; simp
    by_cases hz : e.2.imI = 0 ∧ e.2.imJ = 0
    · rcases (SO3.plane_core_tol hP he.2).1 hz with h | ⟨h, t, h3, h4, h5, h6⟩
      · exact .inl (by rw [if_neg h1, if_pos hz, h]; rfl)
      · exact .inr ⟨h, t, by rw [if_neg h1, if_pos hz, h3]; rfl, h4, h5, ha.trans h6⟩
    by_cases hz' : e.2.imK = 0 ∧ e.2.re = 0
    · rcases (SO3.plane_core_tol hP he.2).2 hz' with h | ⟨h, t, h3, h4, h5, h6⟩
      · exact .inl (by rw [if_neg h1, if_neg hz, if_pos hz', h]; rfl)
      · exact .inr ⟨h, t, by rw [if_neg h1, if_neg hz, if_pos hz', h3]; rfl, h4, h5, ha.trans h6⟩
    · exact .inl (by rw [if_neg h1, if_neg hz, if_neg hz'])

/-! ### Products with the inversion -/

theorem pair_el {f : ℤ} {q : UQuat} (hf : Cyclic.isElement 2 f = true) (hq : normSq q = 1) : O3El (f, q) :=
  ⟨isElement_two.1 hf, hq⟩

theorem pair_mul_el {H : Type} {El : H → Prop} {mul : H → H → H} (hel : ∀ h h', El h → El h' → El (mul h h'))
    (a b : ℤ × H) (ha : Cyclic.isElement 2 a.1 = true ∧ El a.2) (hb : Cyclic.isElement 2 b.1 = true ∧ El b.2) :
    Cyclic.isElement 2 (pairMul mul a b).1 = true ∧ El (pairMul mul a b).2 := by
  refine ⟨?_, hel _ _ ha.2 hb.2⟩
  have h1 := isElement_two.1 ha.1
  have h2 := isElement_two.1 hb.1
  rw [isElement_two]
  simp only [pairMul, Cyclic.combine]
  push_cast
  omega

theorem pair_mul_act {H : Type} {El : H → Prop} {mul : H → H → H} {ρ : H → Mat3}
    (hmul : ∀ h h', El h → El h' → ρ (mul h h') = ρ h * ρ h')
    (a b : ℤ × H) (ha : Cyclic.isElement 2 a.1 = true ∧ El a.2) (hb : Cyclic.isElement 2 b.1 = true ∧ El b.2) :
    (-1 : ℝ) ^ (pairMul mul a b).1.toNat • ρ (pairMul mul a b).2 =
      ((-1 : ℝ) ^ a.1.toNat • ρ a.2) * ((-1 : ℝ) ^ b.1.toNat • ρ b.2) := by
  have h1 := isElement_two.1 ha.1
  have h2 := isElement_two.1 hb.1
  have := sign_add h1 h2
  simp only [pairMul, Cyclic.combine]
  push_cast
  rw [this, hmul _ _ ha.2 hb.2, Matrix.smul_mul, Matrix.mul_smul, smul_smul]

theorem pair_inj {f f' : ℤ} {M M' : Mat3} (hf : Cyclic.isElement 2 f = true) (hf' : Cyclic.isElement 2 f' = true)
    (hM : M.det = 1) (hM' : M'.det = 1) (h : (-1 : ℝ) ^ f.toNat • M = (-1 : ℝ) ^ f'.toNat • M') : f = f' ∧ M = M' := by
  have hd := congrArg Matrix.det h
  rw [Matrix.det_smul, Matrix.det_smul, hM, hM'] at hd
  rcases sign_cases (isElement_two.1 hf) with ⟨h1, h2⟩ | ⟨h1, h2⟩ <;>
    rcases sign_cases (isElement_two.1 hf') with ⟨h3, h4⟩ | ⟨h3, h4⟩ <;>
    rw [h2, h4] at h hd <;> norm_num at hd
  · exact ⟨by omega, by simpa using h⟩
  · exact ⟨by omega, by simpa using h⟩

theorem pairOf_ok {H : Type} {f : ℤ} (hf : f = 0 ∨ f = 1) {r : Except Err H} {h : H} (hr : r = .ok h) :
    orNone (pairOf f r) = .ok (some (f, h)) := by
  rw [pairOf, if_pos (isElement_two.2 hf), hr]; rfl

theorem pairOf_err {H : Type} {f : ℤ} {r : Except Err H} (hr : r = .error .value) :
    orNone (pairOf f r) = .ok none := by
  rw [pairOf, hr]
  split <;> rfl

/-- The product of the inversion with rotations around Z. -/
theorem cyl_of {H : Type} (haq : AsQuat aq) {adj : Elem} (hadj : O3El adj) {El : H → Prop} {mul : H → H → H}
    {θ : H → ℝ} {mk : ℝ → Except Err H} (hC : Circle El mul θ mk) :
    RealisesAs O3El act3 (fun e => Cyclic.isElement 2 e.1 = true ∧ El e.2) Eq (pairMul mul) (act3 adj)
      (fun e => (-1 : ℝ) ^ e.1.toNat • rotZ (θ e.2)) (fun e => cylToO3 aq adj (e.1, θ e.2)) (o3ToCyl aq mk adj) ∧
    TightChild O3El act3 (fun e => Cyclic.isElement 2 e.1 = true ∧ El e.2) (act3 adj)
      (fun e => (-1 : ℝ) ^ e.1.toNat • rotZ (θ e.2)) (o3ToCyl aq mk adj) := by
  constructor
  · refine RealisesAs.of (orth hadj).1 (orth hadj).2 (intoParent_spec haq hadj) (intoChild_spec haq hadj)
      (pair_mul_el hC.el) ?_ (pair_mul_act (ρ := fun h => rotZ (θ h)) ?_) ?_
      (core := fun e => if e.2.imI = 0 ∧ e.2.imJ = 0 then
        orNone (pairOf e.1 (mk (2 * arctan2 e.2.imK e.2.re))) else .ok none) ?_
    · intro h hh
      have hel := pair_el hh.1 (SO3.unit_z (θ h.2 / 2))
      refine ⟨(h.1, quat 0 0 (sin (θ h.2 / 2)) (cos (θ h.2 / 2))), ?_, hel, ?_⟩
      · simp only [cylToO3, element_ok hel, Except.bind, bind]
      · rw [act3]; congr 1; exact rotOf_z _
    · intro h h' hh hh'
      obtain ⟨k, hk⟩ := hC.mul h h' hh hh'
      rw [hk, rotZ_periodic, rotZ_add]
    · intro h h' hh hh' he
      obtain ⟨h1, h2⟩ := pair_inj hh.1 hh'.1 (rotZ_det _) (rotZ_det _) he
      obtain ⟨k, hk⟩ := rotZ_inj.1 h2
      exact Prod.ext h1 (hC.inj h.2 h'.2 k hh.2 hh'.2 hk)
    · intro e h he hh hr
      obtain ⟨h0, hr⟩ := act_split he (isElement_two.1 hh.1) (rotZ_det _) hr
      obtain ⟨hz, hm⟩ := SO3.circle_core hC he.2 hh.2 hr
      exact ⟨h, by rw [if_pos hz, pairOf_ok he.1 hm, h0], rfl⟩
  · refine TightChild.of (orth hadj).2 (intoChild_spec haq hadj)
      (core := fun e => if e.2.imI = 0 ∧ e.2.imJ = 0 then
        orNone (pairOf e.1 (mk (2 * arctan2 e.2.imK e.2.re))) else .ok none) ?_
    intro e he
    by_cases hz : e.2.imI = 0 ∧ e.2.imJ = 0
    · rcases SO3.circle_core_tol hC he.2 hz with h | ⟨h, t, h3, h4, h5, h6⟩
      · exact .inl (by rw [if_pos hz, pairOf_err h])
      · refine .inr ⟨(e.1, h), t, by rw [if_pos hz, pairOf_ok he.1 h3], ⟨isElement_two.2 he.1, h4⟩, h5, ?_⟩
        rw [act3, h6, Matrix.mul_smul]
    · exact .inl (if_neg hz)

/-- The product of the inversion with rotations around Z and flips. -/
theorem fullcyl_of {H : Type} (haq : AsQuat aq) {adj : Elem} (hadj : O3El adj) {El : H → Prop} {mul : H → H → H}
    {r : H → ℤ × ℝ} {mk : ℤ × ℝ → Except Err H} (hP : Plane El mul r mk) :
    RealisesAs O3El act3 (fun e => Cyclic.isElement 2 e.1 = true ∧ El e.2) Eq (pairMul mul) (act3 adj)
      (fun e => (-1 : ℝ) ^ e.1.toNat • (rotZ (r e.2).2 * flipX ^ (r e.2).1.toNat))
      (fun e => fullcylToO3 aq adj e.1 (r e.2)) (o3ToFullcyl aq mk adj) ∧
    TightChild O3El act3 (fun e => Cyclic.isElement 2 e.1 = true ∧ El e.2) (act3 adj)
      (fun e => (-1 : ℝ) ^ e.1.toNat • (rotZ (r e.2).2 * flipX ^ (r e.2).1.toNat)) (o3ToFullcyl aq mk adj) := by
  constructor
  · refine RealisesAs.of (orth hadj).1 (orth hadj).2 (intoParent_spec haq hadj) (intoChild_spec haq hadj)
      (pair_mul_el hP.el) ?_ (pair_mul_act (ρ := fun h => rotZ (r h).2 * flipX ^ (r h).1.toNat)
        (fun h h' hh hh' => hP.rot_mul flipX_flipX flipX_rotZ hh hh')) ?_
      (core := fun e => if e.2.imI = 0 ∧ e.2.imJ = 0 then orNone (pairOf e.1 (mk (0, 2 * arctan2 e.2.imK e.2.re)))
        else if e.2.imK = 0 ∧ e.2.re = 0 then orNone (pairOf e.1 (mk (1, 2 * arctan2 e.2.imJ e.2.imI))) else .ok none) ?_
    · intro h hh
      rcases hP.flip h.2 hh.2 with h0 | h1
      · have hel := pair_el hh.1 (SO3.unit_z ((r h.2).2 / 2))
        refine ⟨(h.1, quat 0 0 (sin ((r h.2).2 / 2)) (cos ((r h.2).2 / 2))), ?_, hel, ?_⟩
        · simp only [fullcylToO3, h0, if_true, element_ok hel, Except.bind, bind]
        · rw [h0, act3]; congr 1; exact (rotOf_z (r h.2).2).trans (by simp)
      · have hel := pair_el hh.1 (SO3.unit_xy ((r h.2).2 / 2))
        refine ⟨(h.1, quat (cos ((r h.2).2 / 2)) (sin ((r h.2).2 / 2)) 0 0), ?_, hel, ?_⟩
        · simp only [fullcylToO3, h1, one_ne_zero, if_false, if_true, element_ok hel, Except.bind, bind]
        · rw [h1, act3]; congr 1; exact (rotOf_flip (r h.2).2).trans (by simp)
    · intro h h' hh hh' he
      obtain ⟨h1, h2⟩ := pair_inj hh.1 hh'.1 (rotZ_flip_det _ _) (rotZ_flip_det _ _) he
      exact Prod.ext h1 (SO3.plane_inj hP hh.2 hh'.2 h2)
    · intro e h he hh hr
      obtain ⟨h0, hr⟩ := act_split he (isElement_two.1 hh.1) (rotZ_flip_det _ _) hr
      refine ⟨h, ?_, rfl⟩
      rcases SO3.plane_core hP he.2 hh.2 hr with ⟨hz, hm⟩ | ⟨hz, hz', hm⟩
      · rw [if_pos hz, pairOf_ok he.1 hm, h0]
      · rw [if_neg hz, if_pos hz', pairOf_ok he.1 hm, h0]
  · refine TightChild.of (orth hadj).2 (intoChild_spec haq hadj)
      (core := fun e => if e.2.imI = 0 ∧ e.2.imJ = 0 then orNone (pairOf e.1 (mk (0, 2 * arctan2 e.2.imK e.2.re)))
        else if e.2.imK = 0 ∧ e.2.re = 0 then orNone (pairOf e.1 (mk (1, 2 * arctan2 e.2.imJ e.2.imI))) else .ok none) ?_
    intro e he
    by_cases hz : e.2.imI = 0 ∧ e.2.imJ = 0
    · rcases (SO3.plane_core_tol hP he.2).1 hz with h | ⟨h, t, h3, h4, h5, h6⟩
      · exact .inl (by rw [if_pos hz, pairOf_err h])
      · refine .inr ⟨(e.1, h), t, by rw [if_pos hz, pairOf_ok he.1 h3], ⟨isElement_two.2 he.1, h4⟩, h5, ?_⟩
        rw [act3, h6, Matrix.mul_smul]
    by_cases hz' : e.2.imK = 0 ∧ e.2.re = 0
    · rcases (SO3.plane_core_tol hP he.2).2 hz' with h | ⟨h, t, h3, h4, h5, h6⟩
      · exact .inl (by rw [if_neg hz, if_pos hz', pairOf_err h])
      · refine .inr ⟨(e.1, h), t, by rw [if_neg hz, if_pos hz', pairOf_ok he.1 h3], ⟨isElement_two.2 he.1, h4⟩, h5, ?_⟩
        rw [act3, h6, Matrix.mul_smul]
    · exact .inl (by rw [if_neg hz, if_neg hz'])

/-! ### Cones -/

theorem rotZ_mirror_det (a : ℝ) : (rotZ a * mirrorY).det = -1 := by
  rw [Matrix.det_mul, rotZ_det, mirrorY_det, one_mul]

/-- An element of determinant -1 composed with the reflection. -/
theorem refl_split (haq : AsQuat aq) {e : Elem} (he : O3El e) {M : Mat3} (hM : M.det = 1) :
    (e.1 = 1 ∧ rotOf (combine aq e (1, quat 0 1 0 0)).2 = M) ↔ act3 e = M * mirrorY := by
  have hel := combine_el haq he refl_el
  have hact := combine_act haq he refl_el
  rw [refl_act] at hact
  constructor
  · rintro ⟨h1, h2⟩
    have : act3 (combine aq e (1, quat 0 1 0 0)) = M := by
      rw [act3, h2]
      simp [combine, h1]
    rw [← this, hact, mul_assoc, mirrorY_mirrorY, mul_one]
  · intro h
    rw [h, mul_assoc, mirrorY_mirrorY, mul_one] at hact
    obtain ⟨h1, h2⟩ := act_rot hel hM hact
    refine ⟨?_, h2⟩
    have := he.1
    simp only [combine] at h1
    omega

/-- The adjoint of rotations around Z and reflections. -/
theorem con_of {H : Type} (haq : AsQuat aq) {adj : Elem} (hadj : O3El adj) {El : H → Prop} {mul : H → H → H}
    {r : H → ℤ × ℝ} {mk : ℤ × ℝ → Except Err H} (hP : Plane El mul r mk) :
    RealisesAs O3El act3 El Eq mul (act3 adj) (fun h => rotZ (r h).2 * mirrorY ^ (r h).1.toNat)
      (fun h => conToO3 aq adj (r h)) (o3ToCon aq mk adj) ∧
    TightChild O3El act3 El (act3 adj) (fun h => rotZ (r h).2 * mirrorY ^ (r h).1.toNat) (o3ToCon aq mk adj) := by
  obtain ⟨core, hcore⟩ : ∃ core : Elem → Except Err (Option H), ∀ e, core e =
      if e.1 = 0 ∧ e.2.imI = 0 ∧ e.2.imJ = 0 then orNone (mk (0, 2 * arctan2 e.2.imK e.2.re))
      else if e.1 = 1 ∧ (combine aq e (1, quat 0 1 0 0)).2.imI = 0 ∧ (combine aq e (1, quat 0 1 0 0)).2.imJ = 0 then
        orNone (mk (1, 2 * arctan2 (combine aq e (1, quat 0 1 0 0)).2.imK (combine aq e (1, quat 0 1 0 0)).2.re))
      else .ok none := ⟨_, fun _ => rfl⟩
  have hchild : o3ToCon aq mk adj = fun e => core (intoChild aq adj e) := by
    funext e
    simp only [o3ToCon, refl_ok, Except.bind, bind, hcore]
  have hu : ∀ {e : Elem}, O3El e → normSq (combine aq e (1, quat 0 1 0 0)).2 = 1 :=
    fun he => (combine_el haq he refl_el).2
  rw [hchild]
  constructor
  · refine RealisesAs.of (orth hadj).1 (orth hadj).2 (intoParent_spec haq hadj) (intoChild_spec haq hadj) hP.el ?_
      (ρ := fun h => rotZ (r h).2 * mirrorY ^ (r h).1.toNat)
      (fun h h' hh hh' => hP.rot_mul mirrorY_mirrorY mirrorY_rotZ hh hh') ?_ (core := core) ?_
    · intro h hh
      have hel := zero_el (SO3.unit_z ((r h).2 / 2))
      have hz : act3 (0, quat 0 0 (sin ((r h).2 / 2)) (cos ((r h).2 / 2))) = rotZ (r h).2 := by
        rw [zero_act]; exact rotOf_z _
      rcases hP.flip h hh with h0 | h1
      · refine ⟨_, by simp only [conToO3, refl_ok, h0, zero_ne_one, if_false, element_ok hel, Except.bind, bind], hel, ?_⟩
        rw [hz, h0]; simp
      · refine ⟨_, by simp only [conToO3, refl_ok, h1, if_true, element_ok hel, Except.bind, bind],
          combine_el haq hel (inverse_el haq refl_el), ?_⟩
        rw [combine_act haq hel (inverse_el haq refl_el), inverse_act haq, hz, refl_act, mirrorY_transpose, h1]
        simp
    · intro h h' hh hh' he
      have : (r h).1 = (r h').1 ∧ rotZ (r h).2 = rotZ (r h').2 := by
        rcases hP.flip h hh with h0 | h0 <;> rcases hP.flip h' hh' with h1 | h1 <;> rw [h0, h1] at he <;> simp at he <;>
          rw [h0, h1]
        · exact ⟨rfl, he⟩
        · have := congrArg Matrix.det he
          rw [rotZ_mirror_det, rotZ_det] at this
          norm_num at this
        · have := congrArg Matrix.det he
          rw [rotZ_mirror_det, rotZ_det] at this
          norm_num at this
        · exact ⟨rfl, rotZ_mirror_cancel he⟩
      obtain ⟨k, hk⟩ := rotZ_inj.1 this.2
      exact hP.inj h h' k hh hh' this.1 hk
    · intro e h he hh hr
      refine ⟨h, ?_, rfl⟩
      rw [hcore]
      rcases hP.flip h hh with h0 | h0 <;> rw [h0] at hr <;> simp at hr
      · obtain ⟨h1, h2⟩ := act_rot he (rotZ_det _) hr
        have hz := SO3.z_of he.2 h2
        rw [SO3.z_spec he.2 hz] at h2
        obtain ⟨k, hk⟩ := rotZ_inj.1 h2
        have := hP.mk_ok h k hh
        rw [h0] at this
        rw [if_pos ⟨h1, hz⟩, hk, this]; rfl
      · obtain ⟨h1, h2⟩ := (refl_split haq he (rotZ_det _)).2 hr
        have hz := SO3.z_of (hu he) h2
        rw [SO3.z_spec (hu he) hz] at h2
        obtain ⟨k, hk⟩ := rotZ_inj.1 h2
        have := hP.mk_ok h k hh
        rw [h0] at this
        rw [if_neg (by omega), if_pos ⟨h1, hz⟩, hk, this]; rfl
  · refine TightChild.of (orth hadj).2 (intoChild_spec haq hadj) (core := core) ?_
    intro e he
    rw [hcore]
    by_cases hz : e.1 = 0 ∧ e.2.imI = 0 ∧ e.2.imJ = 0
    · rcases hP.mk_tol 0 (2 * arctan2 e.2.imK e.2.re) (.inl rfl) with h | ⟨h, k, h1, h2, h3, h4⟩
      · exact .inl (by rw [if_pos hz, h]; rfl)
      · refine .inr ⟨h, _, by rw [if_pos hz, h1]; rfl, h2, h4, ?_⟩
        rw [act3, hz.1, h3, SO3.z_spec he.2 hz.2]
        simp only [Int.toNat_zero, pow_zero, one_smul, mul_one]
        exact rotZ_near
    by_cases hz' : e.1 = 1 ∧ (combine aq e (1, quat 0 1 0 0)).2.imI = 0 ∧ (combine aq e (1, quat 0 1 0 0)).2.imJ = 0
    · have hs := (refl_split haq he (rotZ_det _)).1 ⟨hz'.1, SO3.z_spec (hu he) hz'.2⟩
      rcases hP.mk_tol 1 (2 * arctan2 (combine aq e (1, quat 0 1 0 0)).2.imK (combine aq e (1, quat 0 1 0 0)).2.re)
        (.inr rfl) with h | ⟨h, k, h1, h2, h3, h4⟩
      · exact .inl (by rw [if_neg hz, if_pos hz', h]; rfl)
      · refine .inr ⟨h, _, by rw [if_neg hz, if_pos hz', h1]; rfl, h2, h4, ?_⟩
        rw [hs, h3, Int.toNat_one, pow_one, ← mul_assoc]
        congr 1
        exact rotZ_near
    · exact .inl (by rw [if_neg hz, if_neg hz'])

/-! ### The documented subgroups -/

theorem cyclic_ρ (n : ℕ) : (fun k : ℤ => rotZ (k * (2 * π / n))) = fun k => rotZ (Cyclic.radians n k) := by
  funext k; rw [Cyclic.radians]; congr 1; ring

theorem dihedral_ρ (n : ℕ) (F : Mat3) : (fun e : Dihedral.Elem => rotZ (e.2 * (2 * π / n)) * F ^ e.1.toNat) =
    fun e => rotZ ((e.1, Dihedral.radians n e) : ℤ × ℝ).2 * F ^ ((e.1, Dihedral.radians n e) : ℤ × ℝ).1.toNat := by
  funext e; simp only [Dihedral.radians]; congr 2; ring

theorem o2_ρ (F : Mat3) : (fun e : O2.Elem => rotZ e.2 * F ^ e.1.toNat) =
    fun e => rotZ (O2.reduce e).2 * F ^ (O2.reduce e).1.toNat := by
  funext e
  rw [← rotZ_mod2pi]; rfl

theorem so2_ρ : rotZ = fun k => rotZ (mod2pi k) := funext fun k => (rotZ_mod2pi k).symm

/-- **C76** `(False, False, n, adj)`: the rotations by multiples of `2π/n`. -/
theorem C76_cyclic (haq : AsQuat aq) (ico octa : RotGroup) {adj : Elem} (hadj : O3El adj) (n : ℕ) (hn : 0 < n) :
    ∃ P C, subgroup aq ico octa (.sub false (.pair false n)) adj =
        .ok ⟨ℤ, fun e => Cyclic.isElement n e = true, Cyclic.combine n, P, C⟩ ∧
      RealisesAs O3El act3 (fun e => Cyclic.isElement n e = true) Eq (Cyclic.combine n) (act3 adj)
        (fun k => rotZ (k * (2 * π / n))) P C ∧
      TightChild O3El act3 (fun e => Cyclic.isElement n e = true) (act3 adj) (fun k => rotZ (k * (2 * π / n))) C := by
  refine ⟨_, _, by
    rw [subgroup, if_neg (by simp), if_neg (by simp), if_pos (by simp; omega)]; rfl, ?_⟩
  rw [cyclic_ρ]
  exact so2_of haq hadj (circle_cyclic hn)

/-- **C76** `(False, False, -1, adj)`: all rotations around the axis. -/
theorem C76_so2 (haq : AsQuat aq) (ico octa : RotGroup) {adj : Elem} (hadj : O3El adj) :
    ∃ P C, subgroup aq ico octa (.sub false (.pair false (-1))) adj = .ok ⟨ℝ, SO2.IsElement, SO2.combine, P, C⟩ ∧
      RealisesAs O3El act3 SO2.IsElement Eq SO2.combine (act3 adj) rotZ P C ∧
      ExactChild O3El act3 SO2.IsElement (act3 adj) rotZ C := by
  refine ⟨_, _, by rw [subgroup, if_pos (by simp)], ?_, ?_⟩
  · rw [so2_ρ]
    exact (so2_of haq hadj circle_so2).1
  · refine ExactChild.of (orth hadj).2 (intoChild_spec haq hadj)
      (core := fun e => if e.1 = 1 then .ok none else if e.2.imI = 0 ∧ e.2.imJ = 0 then
        orNone (SO2.elementOf .radians (.rad (2 * arctan2 e.2.imK e.2.re))) else .ok none) ?_
    intro e he hn
    by_cases h1 : e.1 = 1
    · exact if_pos h1
    have h0 : e.1 = 0 := by have := he.1; omega
    have ha : act3 e = rotOf e.2 := by rw [act3, h0]; simp
    rw [if_neg h1]
    refine if_neg fun hz => hn ⟨mod2pi (2 * arctan2 e.2.imK e.2.re), ⟨mod2pi_nonneg _, mod2pi_lt _⟩, ?_⟩
    rw [ha, SO3.z_spec he.2 hz, rotZ_mod2pi]

/-- **C76** `(False, True, n, adj)`: rotations by multiples of `2π/n` and flips. -/
theorem C76_dihedral (haq : AsQuat aq) (ico octa : RotGroup) {adj : Elem} (hadj : O3El adj) (n : ℕ) (hn : 1 < n) :
    ∃ P C, subgroup aq ico octa (.sub false (.pair true n)) adj =
        .ok ⟨Dihedral.Elem, fun e => Dihedral.isElement n e = true, Dihedral.combine n, P, C⟩ ∧
      RealisesAs O3El act3 (fun e => Dihedral.isElement n e = true) Eq (Dihedral.combine n) (act3 adj)
        (fun e => rotZ (e.2 * (2 * π / n)) * flipX ^ e.1.toNat) P C ∧
      TightChild O3El act3 (fun e => Dihedral.isElement n e = true) (act3 adj)
        (fun e => rotZ (e.2 * (2 * π / n)) * flipX ^ e.1.toNat) C := by
  refine ⟨_, _, by
    rw [subgroup, if_neg (by simp), if_neg (by simp), if_neg (by simp), if_pos (by simp; omega)]; rfl, ?_⟩
  rw [dihedral_ρ]
  exact dih_of haq hadj (plane_dihedral (by omega))

/-- **C76** `(False, True, -1, adj)`: all rotations around the axis and all flips. -/
theorem C76_o2 (haq : AsQuat aq) (ico octa : RotGroup) {adj : Elem} (hadj : O3El adj) :
    ∃ P C, subgroup aq ico octa (.sub false (.pair true (-1))) adj = .ok ⟨O2.Elem, O2.IsElement, O2.combine, P, C⟩ ∧
      RealisesAs O3El act3 O2.IsElement Eq O2.combine (act3 adj) (fun e => rotZ e.2 * flipX ^ e.1.toNat) P C ∧
      ExactChild O3El act3 O2.IsElement (act3 adj) (fun e => rotZ e.2 * flipX ^ e.1.toNat) C := by
  refine ⟨_, _, by rw [subgroup, if_neg (by simp), if_pos (by simp)], ?_, ?_⟩
  · rw [o2_ρ]
    exact (dih_of haq hadj plane_o2).1
  · refine ExactChild.of (orth hadj).2 (intoChild_spec haq hadj)
      (core := fun e => if e.1 = 1 then .ok none else if e.2.imI = 0 ∧ e.2.imJ = 0 then
        orNone (O2.elementOf .radians (0, .rad (2 * arctan2 e.2.imK e.2.re)))
        else if e.2.imK = 0 ∧ e.2.re = 0 then orNone (O2.elementOf .radians (1, .rad (2 * arctan2 e.2.imJ e.2.imI)))
        else .ok none) ?_
    intro e he hn
    by_cases h1 : e.1 = 1
    · exact if_pos h1
    have h0 : e.1 = 0 := by have := he.1; omega
    have ha : act3 e = rotOf e.2 := by rw [act3, h0]; simp
    rw [if_neg h1]
    refine (if_neg fun hz => hn ⟨(0, mod2pi (2 * arctan2 e.2.imK e.2.re)), ⟨.inl rfl, mod2pi_nonneg _, mod2pi_lt _⟩,
      ?_⟩).trans
      (if_neg fun hz => hn ⟨(1, mod2pi (2 * arctan2 e.2.imJ e.2.imI)), ⟨.inr rfl, mod2pi_nonneg _, mod2pi_lt _⟩, ?_⟩)
    · rw [ha, SO3.z_spec he.2 hz, rotZ_mod2pi]; simp
    · rw [ha, SO3.xy_spec he.2 hz, rotZ_mod2pi]; simp

/-- **C76** `(True, False, n, adj)`: the same with the inversion. -/
theorem C76_cylinder_discrete (haq : AsQuat aq) (ico octa : RotGroup) {adj : Elem} (hadj : O3El adj) (n : ℕ) (hn : 1 < n) :
    ∃ P C, subgroup aq ico octa (.sub true (.pair false n)) adj =
        .ok ⟨ℤ × ℤ, fun e => Cyclic.isElement 2 e.1 = true ∧ Cyclic.isElement n e.2 = true, pairMul (Cyclic.combine n),
          P, C⟩ ∧
      RealisesAs O3El act3 (fun e => Cyclic.isElement 2 e.1 = true ∧ Cyclic.isElement n e.2 = true) Eq
        (pairMul (Cyclic.combine n)) (act3 adj) (fun e => (-1 : ℝ) ^ e.1.toNat • rotZ (e.2 * (2 * π / n))) P C ∧
      TightChild O3El act3 (fun e => Cyclic.isElement 2 e.1 = true ∧ Cyclic.isElement n e.2 = true) (act3 adj)
        (fun e => (-1 : ℝ) ^ e.1.toNat • rotZ (e.2 * (2 * π / n))) C := by
  refine ⟨_, _, by
    rw [subgroup, if_neg (by simp), if_neg (by simp), if_pos (by simp; omega), if_neg (by exact_mod_cast (by omega))]
    rfl, ?_⟩
  have hr : ∀ e : ℤ × ℤ, rotZ (e.2 * (2 * π / n)) = rotZ (Cyclic.radians n e.2) := fun e => congrFun (cyclic_ρ n) e.2
  simp only [hr]
  exact cyl_of haq hadj (circle_cyclic (by omega))

/-- **C76** `(True, False, -1, adj)`: the rotations around the axis and the inversion. -/
theorem C76_cylinder (haq : AsQuat aq) (ico octa : RotGroup) {adj : Elem} (hadj : O3El adj) :
    ∃ P C, subgroup aq ico octa (.sub true (.pair false (-1))) adj =
        .ok ⟨ℤ × ℝ, fun e => Cyclic.isElement 2 e.1 = true ∧ SO2.IsElement e.2, pairMul SO2.combine, P, C⟩ ∧
      RealisesAs O3El act3 (fun e => Cyclic.isElement 2 e.1 = true ∧ SO2.IsElement e.2) Eq (pairMul SO2.combine) (act3 adj)
        (fun e => (-1 : ℝ) ^ e.1.toNat • rotZ e.2) P C ∧
      ExactChild O3El act3 (fun e => Cyclic.isElement 2 e.1 = true ∧ SO2.IsElement e.2) (act3 adj)
        (fun e => (-1 : ℝ) ^ e.1.toNat • rotZ e.2) C := by
  refine ⟨_, _, by rw [subgroup, if_pos (by simp)], ?_, ?_⟩
  · have hr : ∀ e : ℤ × ℝ, rotZ e.2 = rotZ (mod2pi e.2) := fun e => (rotZ_mod2pi e.2).symm
    simp only [hr]
    exact (cyl_of haq hadj circle_so2).1
  · refine ExactChild.of (orth hadj).2 (intoChild_spec haq hadj)
      (core := fun e => if e.2.imI = 0 ∧ e.2.imJ = 0 then
        orNone (pairOf e.1 (SO2.elementOf .radians (.rad (2 * arctan2 e.2.imK e.2.re)))) else .ok none) ?_
    intro e he hn
    refine if_neg fun hz => hn ⟨(e.1, mod2pi (2 * arctan2 e.2.imK e.2.re)),
      ⟨isElement_two.2 he.1, mod2pi_nonneg _, mod2pi_lt _⟩, ?_⟩
    rw [act3, SO3.z_spec he.2 hz, rotZ_mod2pi]

/-- **C76** `(True, True, n, adj)`: rotations by multiples of `2π/n`, flips and the inversion. -/
theorem C76_fullcylinder_discrete (haq : AsQuat aq) (ico octa : RotGroup) {adj : Elem} (hadj : O3El adj) (n : ℕ)
    (hn : 1 < n) :
    ∃ P C, subgroup aq ico octa (.sub true (.pair true n)) adj =
        .ok ⟨ℤ × Dihedral.Elem, fun e => Cyclic.isElement 2 e.1 = true ∧ Dihedral.isElement n e.2 = true,
          pairMul (Dihedral.combine n), P, C⟩ ∧
      RealisesAs O3El act3 (fun e => Cyclic.isElement 2 e.1 = true ∧ Dihedral.isElement n e.2 = true) Eq
        (pairMul (Dihedral.combine n)) (act3 adj)
        (fun e => (-1 : ℝ) ^ e.1.toNat • (rotZ (e.2.2 * (2 * π / n)) * flipX ^ e.2.1.toNat)) P C ∧
      TightChild O3El act3 (fun e => Cyclic.isElement 2 e.1 = true ∧ Dihedral.isElement n e.2 = true) (act3 adj)
        (fun e => (-1 : ℝ) ^ e.1.toNat • (rotZ (e.2.2 * (2 * π / n)) * flipX ^ e.2.1.toNat)) C := by
  refine ⟨_, _, by
    rw [subgroup, if_neg (by simp), if_neg (by simp), if_neg (by simp), if_pos (by simp; omega)]; rfl, ?_⟩
  have hr : ∀ e : ℤ × Dihedral.Elem, rotZ (e.2.2 * (2 * π / n)) * flipX ^ e.2.1.toNat =
      rotZ ((e.2.1, Dihedral.radians n e.2) : ℤ × ℝ).2 * flipX ^ ((e.2.1, Dihedral.radians n e.2) : ℤ × ℝ).1.toNat :=
    fun e => congrFun (dihedral_ρ n flipX) e.2
  simp only [hr]
  exact fullcyl_of haq hadj (plane_dihedral (by omega))

/-- **C76** `(True, True, -1, adj)`: all rotations around the axis, all flips and the inversion. -/
theorem C76_fullcylinder (haq : AsQuat aq) (ico octa : RotGroup) {adj : Elem} (hadj : O3El adj) :
    ∃ P C, subgroup aq ico octa (.sub true (.pair true (-1))) adj =
        .ok ⟨ℤ × O2.Elem, fun e => Cyclic.isElement 2 e.1 = true ∧ O2.IsElement e.2, pairMul O2.combine, P, C⟩ ∧
      RealisesAs O3El act3 (fun e => Cyclic.isElement 2 e.1 = true ∧ O2.IsElement e.2) Eq (pairMul O2.combine) (act3 adj)
        (fun e => (-1 : ℝ) ^ e.1.toNat • (rotZ e.2.2 * flipX ^ e.2.1.toNat)) P C ∧
      ExactChild O3El act3 (fun e => Cyclic.isElement 2 e.1 = true ∧ O2.IsElement e.2) (act3 adj)
        (fun e => (-1 : ℝ) ^ e.1.toNat • (rotZ e.2.2 * flipX ^ e.2.1.toNat)) C := by
  refine ⟨_, _, by rw [subgroup, if_neg (by simp), if_pos (by simp)], ?_, ?_⟩
  · have hr : ∀ e : ℤ × O2.Elem, rotZ e.2.2 * flipX ^ e.2.1.toNat =
        rotZ (O2.reduce e.2).2 * flipX ^ (O2.reduce e.2).1.toNat := fun e => congrFun (o2_ρ flipX) e.2
    simp only [hr]
    exact (fullcyl_of haq hadj plane_o2).1
  · refine ExactChild.of (orth hadj).2 (intoChild_spec haq hadj)
      (core := fun e => if e.2.imI = 0 ∧ e.2.imJ = 0 then
        orNone (pairOf e.1 (O2.elementOf .radians (0, .rad (2 * arctan2 e.2.imK e.2.re))))
        else if e.2.imK = 0 ∧ e.2.re = 0 then
          orNone (pairOf e.1 (O2.elementOf .radians (1, .rad (2 * arctan2 e.2.imJ e.2.imI))))
        else .ok none) ?_
    intro e he hn
    refine (if_neg fun hz => hn ⟨(e.1, (0, mod2pi (2 * arctan2 e.2.imK e.2.re))),
        ⟨isElement_two.2 he.1, .inl rfl, mod2pi_nonneg _, mod2pi_lt _⟩, ?_⟩).trans
      (if_neg fun hz => hn ⟨(e.1, (1, mod2pi (2 * arctan2 e.2.imJ e.2.imI))),
        ⟨isElement_two.2 he.1, .inr rfl, mod2pi_nonneg _, mod2pi_lt _⟩, ?_⟩)
    · rw [act3, SO3.z_spec he.2 hz, rotZ_mod2pi]; simp
    · rw [act3, SO3.xy_spec he.2 hz, rotZ_mod2pi]; simp

/-- **C76** `('cone', n, adj)`: the symmetries of the pyramid, rotations around Z and the reflections composed of them and of
`y ↦ -y`. -/
theorem C76_pyramid (haq : AsQuat aq) (ico octa : RotGroup) {adj : Elem} (hadj : O3El adj) (n : ℕ) (hn : 1 < n) :
    ∃ P C, subgroup aq ico octa (.cone n) adj =
        .ok ⟨Dihedral.Elem, fun e => Dihedral.isElement n e = true, Dihedral.combine n, P, C⟩ ∧
      RealisesAs O3El act3 (fun e => Dihedral.isElement n e = true) Eq (Dihedral.combine n) (act3 adj)
        (fun e => rotZ (e.2 * (2 * π / n)) * mirrorY ^ e.1.toNat) P C ∧
      TightChild O3El act3 (fun e => Dihedral.isElement n e = true) (act3 adj)
        (fun e => rotZ (e.2 * (2 * π / n)) * mirrorY ^ e.1.toNat) C := by
  refine ⟨_, _, by
    rw [subgroup, if_neg (by omega), if_pos (by omega)]; rfl, ?_⟩
  rw [dihedral_ρ]
  exact con_of haq hadj (plane_dihedral (by omega))

/-- **C76** `('cone', -1, adj)`: all rotations around the axis and all reflections in planes through it. -/
theorem C76_cone (haq : AsQuat aq) (ico octa : RotGroup) {adj : Elem} (hadj : O3El adj) :
    ∃ P C, subgroup aq ico octa (.cone (-1)) adj = .ok ⟨O2.Elem, O2.IsElement, O2.combine, P, C⟩ ∧
      RealisesAs O3El act3 O2.IsElement Eq O2.combine (act3 adj) (fun e => rotZ e.2 * mirrorY ^ e.1.toNat) P C ∧
      ExactChild O3El act3 O2.IsElement (act3 adj) (fun e => rotZ e.2 * mirrorY ^ e.1.toNat) C := by
  refine ⟨_, _, by rw [subgroup, if_pos rfl], ?_, ?_⟩
  · rw [o2_ρ]
    exact (con_of haq hadj plane_o2).1
  · obtain ⟨core, hcore⟩ : ∃ core : Elem → Except Err (Option O2.Elem), ∀ e, core e =
        if e.1 = 0 ∧ e.2.imI = 0 ∧ e.2.imJ = 0 then orNone (O2.elementOf .radians (0, .rad (2 * arctan2 e.2.imK e.2.re)))
        else if e.1 = 1 ∧ (combine aq e (1, quat 0 1 0 0)).2.imI = 0 ∧ (combine aq e (1, quat 0 1 0 0)).2.imJ = 0 then
          orNone (O2.elementOf .radians
            (1, .rad (2 * arctan2 (combine aq e (1, quat 0 1 0 0)).2.imK (combine aq e (1, quat 0 1 0 0)).2.re)))
        else .ok none := ⟨_, fun _ => rfl⟩
    have hchild : o3ToCon aq (fun e => O2.elementOf .radians (e.1, .rad e.2)) adj = fun e => core (intoChild aq adj e) := by
      funext e
      simp only [o3ToCon, refl_ok, Except.bind, bind, hcore]
    rw [hchild]
    refine ExactChild.of (orth hadj).2 (intoChild_spec haq hadj) (core := core) ?_
    intro e he hn
    rw [hcore]
    refine (if_neg fun hz => hn ⟨(0, mod2pi (2 * arctan2 e.2.imK e.2.re)), ⟨.inl rfl, mod2pi_nonneg _, mod2pi_lt _⟩,
      ?_⟩).trans
      (if_neg fun hz => hn ⟨(1, mod2pi (2 * arctan2 (combine aq e (1, quat 0 1 0 0)).2.imK
        (combine aq e (1, quat 0 1 0 0)).2.re)), ⟨.inr rfl, mod2pi_nonneg _, mod2pi_lt _⟩, ?_⟩)
    · rw [act3, hz.1, SO3.z_spec he.2 hz.2, rotZ_mod2pi]; simp
    · rw [(refl_split haq he (rotZ_det _)).1 ⟨hz.1, SO3.z_spec (combine_el haq he refl_el).2 hz.2⟩, rotZ_mod2pi]; simp

/-- A quaternion without vector part is a rotation by nothing, and conversely. -/
theorem rot_one_iff {q : UQuat} (hq : normSq q = 1) : rotOf q = 1 ↔ q.imI = 0 ∧ q.imJ = 0 ∧ q.imK = 0 := by
  constructor
  · intro h
    rcases rotOf_eq_one hq h with rfl | rfl <;> simp
  · rintro ⟨h1, h2, h3⟩
    rw [Quaternion.normSq_def', h1, h2, h3] at hq
    have h4 : q.re ^ 2 = 1 := by linarith
    ext i j
    fin_cases i <;> fin_cases j <;> simp [rotOf, h1, h2, h3, h4]

theorem one_det : (1 : Mat3).det = 1 := Matrix.det_one

/-- **C76** `('cone', 1, adj)`: the identity and the mirroring `y ↦ -y`. -/
theorem C76_mirror (haq : AsQuat aq) (ico octa : RotGroup) {adj : Elem} (hadj : O3El adj) :
    ∃ P C, subgroup aq ico octa (.cone 1) adj = .ok ⟨ℤ, fun e => Cyclic.isElement 2 e = true, Cyclic.combine 2, P, C⟩ ∧
      RealisesAs O3El act3 (fun e => Cyclic.isElement 2 e = true) Eq (Cyclic.combine 2) (act3 adj)
        (fun e => mirrorY ^ e.toNat) P C ∧
      ExactChild O3El act3 (fun e => Cyclic.isElement 2 e = true) (act3 adj) (fun e => mirrorY ^ e.toNat) C := by
  refine ⟨_, _, by rw [subgroup, if_neg (by omega), if_neg (by omega), if_pos rfl], ?_⟩
  obtain ⟨core, hcore⟩ : ∃ core : Elem → Except Err (Option ℤ), ∀ e, core e =
      if e.1 = 0 ∧ e.2.imI = 0 ∧ e.2.imJ = 0 ∧ e.2.imK = 0 then .ok (some 0)
      else if e.1 = 1 ∧ (combine aq e (1, quat 0 1 0 0)).2.imI = 0 ∧ (combine aq e (1, quat 0 1 0 0)).2.imJ = 0 ∧
        (combine aq e (1, quat 0 1 0 0)).2.imK = 0 then .ok (some 1)
      else .ok none := ⟨_, fun _ => rfl⟩
  have hchild : o3ToMir aq adj = fun e => core (intoChild aq adj e) := by
    funext e
    have : Cyclic.element 2 1 = .ok 1 := rfl
    simp only [o3ToMir, refl_ok, Except.bind, bind, hcore, this]
    rfl
  rw [hchild]
  have hu : ∀ {e : Elem}, O3El e → normSq (combine aq e (1, quat 0 1 0 0)).2 = 1 :=
    fun he => (combine_el haq he refl_el).2
  constructor
  · refine RealisesAs.mk' (orth hadj).1 ?_ ?_ ?_ ?_ ?_
    · intro h h' hh hh'
      rw [isElement_two] at hh hh' ⊢
      simp only [Cyclic.combine]; omega
    · intro h hh
      rcases isElement_two.1 hh with rfl | rfl
      · refine ⟨identity, by simp only [mirToO3, refl_ok, Except.bind, bind, if_true], identity_el, ?_⟩
        rw [identity_act]; simp [(orth hadj).2]
      · obtain ⟨h1, h2⟩ := intoParent_spec haq hadj _ refl_el
        exact ⟨_, by simp only [mirToO3, refl_ok, Except.bind, bind, one_ne_zero, if_false], h1,
          by rw [h2, refl_act]; simp⟩
    · intro h h' hh hh'
      rcases isElement_two.1 hh with rfl | rfl <;> rcases isElement_two.1 hh' with rfl | rfl <;>
        simp [Cyclic.combine, mirrorY_mirrorY]
    · intro h h' hh hh' he
      have hd := congrArg Matrix.det he
      rw [Matrix.det_pow, Matrix.det_pow, mirrorY_det] at hd
      rcases isElement_two.1 hh with rfl | rfl <;> rcases isElement_two.1 hh' with rfl | rfl <;> first | rfl | norm_num at hd
    · intro h g hh hg he
      obtain ⟨h1, h2⟩ := intoChild_spec haq hadj g hg
      have key : act3 (intoChild aq adj g) = mirrorY ^ h.toNat := by
        rw [h2, he, mul_assoc, mul_assoc, mul_assoc, (orth hadj).1, mul_one, ← mul_assoc, (orth hadj).1, one_mul]
      refine ⟨h, ?_, rfl⟩
      rw [hcore]
      rcases isElement_two.1 hh with rfl | rfl
      · obtain ⟨h3, h4⟩ := act_rot h1 one_det (by simpa using key)
        rw [if_pos ⟨h3, (rot_one_iff h1.2).1 h4⟩]
      · obtain ⟨h3, h4⟩ := (refl_split haq h1 one_det).2 (by simpa using key)
        rw [if_neg (by omega), if_pos ⟨h3, (rot_one_iff (hu h1)).1 h4⟩]
  · refine ExactChild.of (orth hadj).2 (intoChild_spec haq hadj) (core := core) ?_
    intro e he hn
    rw [hcore]
    refine (if_neg fun hz => hn ⟨0, by decide, ?_⟩).trans (if_neg fun hz => hn ⟨1, by decide, ?_⟩)
    · rw [act3, hz.1, (rot_one_iff he.2).2 hz.2]; simp
    · rw [(refl_split haq he one_det).1 ⟨hz.1, (rot_one_iff (hu he)).2 hz.2⟩]; simp

/-- **C76** `(True, False, 1, adj)`: the inversion. -/
theorem C76_inversion (ico octa : RotGroup) {adj : Elem} (hadj : O3El adj) :
    ∃ P C, subgroup aq ico octa (.sub true (.pair false 1)) adj =
        .ok ⟨ℤ, fun e => Cyclic.isElement 2 e = true, Cyclic.combine 2, P, C⟩ ∧
      RealisesAs O3El act3 (fun e => Cyclic.isElement 2 e = true) Eq (Cyclic.combine 2) (act3 adj)
        (fun e => (-1 : ℝ) ^ e.toNat • 1) P C ∧
      ExactChild O3El act3 (fun e => Cyclic.isElement 2 e = true) (act3 adj) (fun e => (-1 : ℝ) ^ e.toNat • 1) C := by
  refine ⟨_, _, by rw [subgroup, if_neg (by simp), if_neg (by simp), if_pos (by simp), if_pos rfl], ?_⟩
  have hs : ∀ c : ℝ, (act3 adj)ᵀ * (c • (1 : Mat3)) * act3 adj = c • 1 := by
    intro c
    rw [Matrix.mul_smul, mul_one, Matrix.smul_mul, (orth hadj).2]
  have hone : rotOf (quat 0 0 0 1) = 1 := rotOf_one
  have habs : ∀ {q : UQuat}, normSq q = 1 → q.imI = 0 ∧ q.imJ = 0 ∧ q.imK = 0 → |q.re| = 1 := by
    rintro q hq ⟨h1, h2, h3⟩
    rw [Quaternion.normSq_def', h1, h2, h3] at hq
    rw [← sq_eq_sq₀ (abs_nonneg _) zero_le_one, sq_abs]
    linarith
  constructor
  · refine RealisesAs.mk' (orth hadj).1 ?_ ?_ ?_ ?_ ?_
    · intro h h' hh hh'
      rw [isElement_two] at hh hh' ⊢
      simp only [Cyclic.combine]; omega
    · intro h hh
      have hel : O3El (h, quat 0 0 0 1) := pair_el hh (by rw [SO3.normSq_quat]; norm_num)
      exact ⟨_, element_ok hel, hel, by rw [hs, act3, hone]⟩
    · intro h h' hh hh'
      have := sign_add (isElement_two.1 hh) (isElement_two.1 hh')
      simp only [Cyclic.combine]
      push_cast
      rw [this, Matrix.smul_mul, Matrix.mul_smul, smul_smul, mul_one]
    · intro h h' hh hh' he
      exact (pair_inj hh hh' one_det one_det he).1
    · intro h g hh hg he
      rw [hs] at he
      obtain ⟨h1, h2⟩ := act_split hg (isElement_two.1 hh) one_det he
      have h3 := (rot_one_iff hg.2).1 h2
      refine ⟨h, ?_, rfl⟩
      rw [o3ToInv, if_pos ⟨h3, habs hg.2 h3⟩, h1, Cyclic.element, if_pos hh]
      rfl
  · intro g hg hn
    rw [o3ToInv, if_neg]
    rintro ⟨h1, -⟩
    refine hn ⟨g.1, isElement_two.2 hg.1, ?_⟩
    rw [hs, act3, (rot_one_iff hg.2).2 h1]

/-- **C76** `(False, 'so3', adj)`: all rotations. -/
theorem C76_so3 (haq : AsQuat aq) (ico octa : RotGroup) {adj : Elem} (hadj : O3El adj) :
    ∃ P C, subgroup aq ico octa (.sub false (.str "so3")) adj = .ok ⟨UQuat, fun q => normSq q = 1, SO3.combine aq, P, C⟩ ∧
      RealisesAs O3El act3 (fun q => normSq q = 1) (fun a b => rotOf a = rotOf b) (SO3.combine aq) (act3 adj) rotOf P C ∧
      ExactChild O3El act3 (fun q => normSq q = 1) (act3 adj) rotOf C := by
  refine ⟨_, _, by rw [subgroup, if_pos rfl], ?_, ?_⟩
  · refine RealisesAs.of (orth hadj).1 (orth hadj).2 (intoParent_spec haq hadj) (intoChild_spec haq hadj)
      (fun h h' hh hh' => SO3.combine_unit haq hh hh') ?_ (fun h h' _ _ => SO3.combine_spec haq h h')
      (fun h h' _ _ he => he) (core := fun e => if e.1 = 0 then orNone (SO3.element e.2) else .ok none) ?_
    · intro h hh
      exact ⟨(0, h), by simp only [so3ToO3, element_ok (zero_el hh), Except.bind, bind], zero_el hh, zero_act h⟩
    · intro e h he hh hr
      obtain ⟨h1, h2⟩ := act_rot he (rotOf_det hh) hr
      exact ⟨e.2, by rw [if_pos h1, SO3.element_ok he.2]; rfl, h2⟩
  · refine ExactChild.of (orth hadj).2 (intoChild_spec haq hadj)
      (core := fun e => if e.1 = 0 then orNone (SO3.element e.2) else .ok none) ?_
    intro e he hn
    refine if_neg fun h0 => hn ⟨e.2, he.2, ?_⟩
    rw [act3, h0]; simp

/-- **C76** `(True, 'so3', adj)`: O(3) itself, conjugated. -/
theorem C76_self (haq : AsQuat aq) (ico octa : RotGroup) {adj : Elem} (hadj : O3El adj) :
    ∃ P C, subgroup aq ico octa (.sub true (.str "so3")) adj = .ok ⟨Elem, O3El, combine aq, P, C⟩ ∧
      RealisesAs O3El act3 O3El (fun a b => act3 a = act3 b) (combine aq) (act3 adj) act3 P C := by
  refine ⟨_, _, by rw [subgroup, if_pos rfl]; rfl, ?_⟩
  refine RealisesAs.of (orth hadj).1 (orth hadj).2
    (P := adjointMap aq (inverse aq adj)) ?_ (intoChild_spec haq hadj) ?_ ?_ ?_ ?_ (core := fun e => .ok (some e)) ?_
  · intro e he
    have h1 := inverse_el haq hadj
    have h2 := combine_el haq h1 he
    have h3 := inverse_el haq h1
    refine ⟨combine_el haq h2 h3, ?_⟩
    rw [adjointMap, combine_act haq h2 h3, combine_act haq h1 he, inverse_act haq, inverse_act haq, inverse_act haq,
      Matrix.transpose_transpose]
  · exact fun h h' hh hh' => combine_el haq hh hh'
  · exact fun h hh => ⟨h, rfl, hh, rfl⟩
  · exact fun h h' hh hh' => combine_act haq hh hh'
  · exact fun h h' _ _ he => he
  · exact fun e h _ _ he => ⟨e, rfl, he⟩

/-- **C76** `(False, 'ico', adj)` and `(False, 'octa', adj)`: the groups of rotations of the solids. -/
theorem C76_plato (haq : AsQuat aq) (ico octa : RotGroup) {adj : Elem} (hadj : O3El adj) (s : String) (R : RotGroup)
    (hs : s = "ico" ∧ R = ico ∨ s = "octa" ∧ R = octa) (hR : R.Lawful) :
    ∃ P C, subgroup aq ico octa (.sub false (.str s)) adj = .ok ⟨R.H, R.El, R.mul, P, C⟩ ∧
      RealisesAs O3El act3 R.El (fun a b => rotOf (R.toQ a) = rotOf (R.toQ b)) R.mul (act3 adj)
        (fun h => rotOf (R.toQ h)) P C ∧
      ExactChild O3El act3 R.El (act3 adj) (fun h => rotOf (R.toQ h)) C := by
  refine ⟨fun e => so3ToO3 aq adj (R.toQ e), o3ToSo3 aq R.ofQ adj, ?_, ?_, ?_⟩
  · rcases hs with ⟨rfl, rfl⟩ | ⟨rfl, rfl⟩ <;> simp [subgroup]
  · refine RealisesAs.of (orth hadj).1 (orth hadj).2 (intoParent_spec haq hadj) (intoChild_spec haq hadj)
      hR.mul_el ?_ hR.mul_rot (fun _ _ _ _ h => h) (core := fun e => if e.1 = 0 then orNone (R.ofQ e.2) else .ok none) ?_
    · intro h hh
      have hel := zero_el (hR.unit h hh)
      exact ⟨_, by simp only [so3ToO3, element_ok hel, Except.bind, bind], hel, zero_act _⟩
    · intro e h he hh hr
      obtain ⟨h1, h2⟩ := act_rot he (rotOf_det (hR.unit h hh)) hr
      obtain ⟨h', h3, h4⟩ := hR.ofQ_ok e.2 h he.2 hh h2
      exact ⟨h', by rw [if_pos h1, h3]; rfl, h4⟩
  · refine ExactChild.of (orth hadj).2 (intoChild_spec haq hadj)
      (core := fun e => if e.1 = 0 then orNone (R.ofQ e.2) else .ok none) ?_
    intro e he hn
    by_cases h0 : e.1 = 0
    · rw [if_pos h0, hR.ofQ_err e.2 he.2]
      · rfl
      · rintro ⟨h, hh, hr⟩
        refine hn ⟨h, hh, ?_⟩
        rw [act3, h0, hr]; simp
    · exact if_neg h0

/-- **C76** `(True, 'ico', adj)` and `(True, 'octa', adj)`: the groups of all symmetries of the solids. -/
theorem C76_fullplato (haq : AsQuat aq) (ico octa : RotGroup) {adj : Elem} (hadj : O3El adj) (s : String) (R : RotGroup)
    (hs : s = "ico" ∧ R = ico ∨ s = "octa" ∧ R = octa) (hR : R.Lawful) :
    ∃ P C, subgroup aq ico octa (.sub true (.str s)) adj =
        .ok ⟨ℤ × R.H, fun e => Cyclic.isElement 2 e.1 = true ∧ R.El e.2, pairMul R.mul, P, C⟩ ∧
      RealisesAs O3El act3 (fun e => Cyclic.isElement 2 e.1 = true ∧ R.El e.2)
        (fun a b => a.1 = b.1 ∧ rotOf (R.toQ a.2) = rotOf (R.toQ b.2)) (pairMul R.mul) (act3 adj)
        (fun e => (-1 : ℝ) ^ e.1.toNat • rotOf (R.toQ e.2)) P C ∧
      ExactChild O3El act3 (fun e => Cyclic.isElement 2 e.1 = true ∧ R.El e.2) (act3 adj)
        (fun e => (-1 : ℝ) ^ e.1.toNat • rotOf (R.toQ e.2)) C := by
  refine ⟨fullplatoToO3 aq R adj, o3ToFullplato aq R adj, ?_, ?_, ?_⟩
  · rcases hs with ⟨rfl, rfl⟩ | ⟨rfl, rfl⟩ <;> simp [subgroup]
  · refine RealisesAs.of (orth hadj).1 (orth hadj).2 (intoParent_spec haq hadj) (intoChild_spec haq hadj)
      (pair_mul_el hR.mul_el) ?_ (pair_mul_act (ρ := fun h => rotOf (R.toQ h)) hR.mul_rot) ?_
      (core := fun e => orNone (pairOf e.1 (R.ofQ e.2))) ?_
    · intro h hh
      have hel := pair_el hh.1 (hR.unit h.2 hh.2)
      exact ⟨_, by simp only [fullplatoToO3, element_ok hel, Except.bind, bind], hel, rfl⟩
    · intro h h' hh hh' he
      exact pair_inj hh.1 hh'.1 (rotOf_det (hR.unit _ hh.2)) (rotOf_det (hR.unit _ hh'.2)) he
    · intro e h he hh hr
      obtain ⟨h1, h2⟩ := act_split he (isElement_two.1 hh.1) (rotOf_det (hR.unit _ hh.2)) hr
      obtain ⟨h', h3, h4⟩ := hR.ofQ_ok e.2 h.2 he.2 hh.2 h2
      exact ⟨(e.1, h'), pairOf_ok he.1 h3, h1, h4⟩
  · refine ExactChild.of (orth hadj).2 (intoChild_spec haq hadj)
      (core := fun e => orNone (pairOf e.1 (R.ofQ e.2))) ?_
    intro e he hn
    refine pairOf_err (hR.ofQ_err e.2 he.2 ?_)
    rintro ⟨h, hh, hr⟩
    exact hn ⟨(e.1, h), ⟨isElement_two.2 he.1, hh⟩, by rw [act3, hr]⟩

/-! ### Ids -/

theorem z_el (a : ℝ) : O3El (0, quat 0 0 (sin (a / 2 / 2)) (cos (a / 2 / 2))) := zero_el (SO3.unit_z _)

theorem z_act (a : ℝ) : act3 (0, quat 0 0 (sin (a / 2 / 2)) (cos (a / 2 / 2))) = rotZ (a / 2) := by
  rw [zero_act]; exact rotOf_z _

theorem axis_el : O3El (0, quat 0 (sin (-π / 4)) 0 (cos (-π / 4))) := zero_el (by
  rw [SO3.normSq_quat]; nlinarith [sin_sq_add_cos_sq (-π / 4)])

theorem axis_act : (act3 (0, quat 0 (sin (-π / 4)) 0 (cos (-π / 4))))ᵀ * rotZ π *
    act3 (0, quat 0 (sin (-π / 4)) 0 (cos (-π / 4))) = flipX := by
  have e1 : sin (-π / 4) = -(√2 / 2) := by rw [neg_div, sin_neg, sin_pi_div_four]
  have e2 : cos (-π / 4) = √2 / 2 := by rw [neg_div, cos_neg, cos_pi_div_four]
  have e3 : (√2 : ℝ) ^ 2 = 2 := by norm_num
  rw [zero_act, e1, e2]
  ext i j
  fin_cases i <;> fin_cases j <;>
    simp [rotOf, quat, rotZ, flipX, Matrix.mul_apply, Fin.sum_univ_three] <;> nlinarith [e3]

/-- **C76** the ids of subgroups of rotations, with or without the inversion: `(i, a, n, adj)` denotes `(i, True, n, adj')` with
the flips around the axis at the angle `a/2`; `(i, True, 1, adj)` and `(i, a, 1, adj)` denote the half turn around X and around
that axis; `'so3'` and `'o3'` denote SO(3) and O(3). -/
theorem C76_ids (haq : AsQuat aq) {adj : Elem} (hadj : O3El adj) (i : Bool) (a : ℝ) (n : ℤ) :
    processId aq .so3 adj = (.sub false (.str "so3"), adj) ∧
    processId aq .o3 adj = (.sub true (.str "so3"), adj) ∧
    (n ≠ 1 → ∃ adj', processId aq (.sub i (.axis a n)) adj = (.sub i (.pair true n), adj') ∧ O3El adj' ∧
      (∀ t, (act3 adj')ᵀ * rotZ t * act3 adj' = (act3 adj)ᵀ * rotZ t * act3 adj) ∧
      ∀ t, (act3 adj')ᵀ * (rotZ t * flipX) * act3 adj' = (act3 adj)ᵀ * (rotZ (t + a) * flipX) * act3 adj) ∧
    (∃ adj', processId aq (.sub i (.axis a 1)) adj = (.sub i (.pair false 2), adj') ∧ O3El adj' ∧
      (act3 adj')ᵀ * rotZ π * act3 adj' = (act3 adj)ᵀ * (rotZ a * flipX) * act3 adj) ∧
    (∃ adj', processId aq (.sub i (.pair true 1)) adj = (.sub i (.pair false 2), adj') ∧ O3El adj' ∧
      (act3 adj')ᵀ * rotZ π * act3 adj' = (act3 adj)ᵀ * flipX * act3 adj) := by
  have hu := combine_el haq (inverse_el haq (z_el a)) hadj
  have key : ∀ M N : Mat3, rotZ (a / 2) * M * rotZ (-(a / 2)) = N →
      (act3 (combine aq (inverse aq (0, quat 0 0 (sin (a / 2 / 2)) (cos (a / 2 / 2)))) adj))ᵀ * M *
        act3 (combine aq (inverse aq (0, quat 0 0 (sin (a / 2 / 2)) (cos (a / 2 / 2)))) adj) =
      (act3 adj)ᵀ * N * act3 adj := by
    intro M N h
    rw [combine_act haq (inverse_el haq (z_el a)) hadj, inverse_act haq, z_act, rotZ_transpose, Matrix.transpose_mul,
      rotZ_transpose, neg_neg, ← h]
    simp only [mul_assoc]
  have kz : ∀ t, rotZ (a / 2) * rotZ t * rotZ (-(a / 2)) = rotZ t := by
    intro t; rw [← rotZ_add, ← rotZ_add]; congr 1; ring
  have kf : ∀ t, rotZ (a / 2) * (rotZ t * flipX) * rotZ (-(a / 2)) = rotZ (t + a) * flipX := by
    intro t
    rw [mul_assoc, mul_assoc, flipX_rotZ, neg_neg, ← mul_assoc, ← mul_assoc, ← rotZ_add, ← rotZ_add]
    congr 2; ring
  have kpi : ∀ {B : Elem}, O3El B → (act3 (combine aq (0, quat 0 (sin (-π / 4)) 0 (cos (-π / 4))) B))ᵀ * rotZ π *
      act3 (combine aq (0, quat 0 (sin (-π / 4)) 0 (cos (-π / 4))) B) = (act3 B)ᵀ * flipX * act3 B := by
    intro B hB
    rw [combine_act haq axis_el hB, Matrix.transpose_mul, ← axis_act]
    simp only [mul_assoc]
  refine ⟨rfl, rfl, fun hn => ⟨_, ?_, hu, fun t => key _ _ (kz t), fun t => key _ _ (kf t)⟩,
    ⟨_, ?_, combine_el haq axis_el hu, ?_⟩, ⟨_, ?_, combine_el haq axis_el hadj, kpi hadj⟩⟩
  · unfold processId
    simp only
    split
    · rename_i h1
      split at h1
      · rename_i h2
        simp at h2
        exact absurd h2.2 hn
      · simp at h1
    · rename_i h1
      split at h1
      · rename_i h2
        simp at h2
        exact absurd h2.2 hn
      · simp at h1
    · split
      · rename_i h2
        simp at h2
        exact absurd h2.2 hn
      · rfl
  · cases i <;> rfl
  · have h0 := key _ _ (kf 0)
    rw [rotZ_zero, one_mul, zero_add] at h0
    rw [kpi hu, h0]
  · cases i <;> rfl

/-- What the id `('cone', a, n, adj)` denotes: the reflections of `('cone', n, adj')` are those at the angle `-a`. -/
theorem cone_axis (haq : AsQuat aq) {adj : Elem} (hadj : O3El adj) (a : ℝ) (n : ℤ) :
    ∃ adj', processId aq (.coneAxis a n) adj = (.cone n, adj') ∧ O3El adj' ∧
      (∀ t, (act3 adj')ᵀ * rotZ t * act3 adj' = (act3 adj)ᵀ * rotZ t * act3 adj) ∧
      ∀ t, (act3 adj')ᵀ * (rotZ t * mirrorY) * act3 adj' = (act3 adj)ᵀ * (rotZ (t - a) * mirrorY) * act3 adj := by
  have key : ∀ M N : Mat3, rotZ (-(a / 2)) * M * rotZ (a / 2) = N →
      (act3 (combine aq (0, quat 0 0 (sin (a / 2 / 2)) (cos (a / 2 / 2))) adj))ᵀ * M *
        act3 (combine aq (0, quat 0 0 (sin (a / 2 / 2)) (cos (a / 2 / 2))) adj) =
      (act3 adj)ᵀ * N * act3 adj := by
    intro M N h
    rw [combine_act haq (z_el a) hadj, z_act, Matrix.transpose_mul, rotZ_transpose, ← h]
    simp only [mul_assoc]
  refine ⟨_, rfl, combine_el haq (z_el a) hadj, fun t => key _ _ ?_, fun t => key _ _ ?_⟩
  · rw [← rotZ_add, ← rotZ_add]; congr 1; ring
  · rw [mul_assoc, mul_assoc, mirrorY_rotZ, ← mul_assoc, ← mul_assoc, ← rotZ_add, ← rotZ_add]
    congr 2; ring

/-- **C76 is violated** by `('cone', a, n)`: the documentation (o3group.py L84-88, L480-491) promises the reflection along the
axis at the angle `a/2`, that is the matrix `rotZ a * mirrorY`; the subgroup built for `('cone', π/2, 1)` does not contain
it, and its only reflection is the one along the axis at `-π/4`.  (`_process_subgroup_id` composes with the rotation by `a/2`
instead of its inverse, o3group.py L499, while L463 inverts it.) -/
theorem C76_cone_axis_violated (haq : AsQuat aq) (ico octa : RotGroup) :
    ∃ adj', processId aq (.coneAxis (π / 2) 1) identity = (.cone 1, adj') ∧
      ∃ D, subgroup aq ico octa (.cone 1) adj' = .ok D ∧
        (∀ h, D.El h → ∀ g, D.parent h = .ok g → act3 g ≠ rotZ (π / 2) * mirrorY) ∧
        ∃ h g, D.El h ∧ D.parent h = .ok g ∧ act3 g = rotZ (-(π / 2)) * mirrorY := by
  obtain ⟨adj', h1, h2, -, h3⟩ := cone_axis haq identity_el (π / 2) 1
  refine ⟨adj', h1, ?_⟩
  obtain ⟨P, C, h4, h5, -⟩ := C76_mirror haq ico octa h2
  have hm : (act3 adj')ᵀ * mirrorY * act3 adj' = rotZ (-(π / 2)) * mirrorY := by
    have := h3 0
    rw [rotZ_zero, one_mul, identity_act, zero_sub] at this
    simpa using this
  refine ⟨_, h4, ?_, ?_⟩
  · intro h hh g hg he
    obtain ⟨g', hg', -, ha⟩ := h5.parent_ok h hh
    have hgg : g = g' := Except.ok.inj (hg.symm.trans hg')
    rw [← hgg, he] at ha
    rcases isElement_two.1 hh with rfl | rfl
    · simp only [Int.toNat_zero, pow_zero, mul_one, (orth h2).2] at ha
      have := congrArg Matrix.det ha
      rw [rotZ_mirror_det, Matrix.det_one] at this
      norm_num at this
    · simp only [Int.toNat_one, pow_one, hm] at ha
      have := congrFun (congrFun ha 1) 0
      simp [rotZ, mirrorY, Matrix.mul_apply, Fin.sum_univ_three] at this
      norm_num at this
  · obtain ⟨g, hg, -, ha⟩ := h5.parent_ok 1 (by decide)
    exact ⟨(1 : ℤ), g, rfl, hg, by rw [ha]; simpa using hm⟩

/-- **C76** all other ids are rejected. -/
theorem C76_rejects (ico octa : RotGroup) (adj : Elem) (i : Bool) :
    subgroup aq ico octa .fulltetra adj = .error .notImplemented ∧
    subgroup aq ico octa (.sub i (.str "tetra")) adj = .error .notImplemented ∧
    (∀ s, s ∉ ["so3", "ico", "octa", "tetra"] → subgroup aq ico octa (.sub i (.str s)) adj = .error .value) ∧
    (∀ f (n : ℤ), (n ≤ 0 ∧ n ≠ -1) → subgroup aq ico octa (.sub i (.pair f n)) adj = .error .value) ∧
    (∀ n : ℤ, (n ≤ 0 ∧ n ≠ -1) → subgroup aq ico octa (.cone n) adj = .error .value) := by
  refine ⟨rfl, ?_, ?_, ?_, ?_⟩
  · cases i <;> rfl
  · intro s hs
    simp at hs
    cases i <;> simp [subgroup, hs]
  · intro f n hn
    cases i <;> rw [subgroup, if_neg (by tauto), if_neg (by tauto), if_neg (by omega), if_neg (by omega)]
  · intro n hn
    rw [subgroup, if_neg (by omega), if_neg (by omega), if_neg (by omega)]

/-! ### The hypotheses can be met -/

/-- A non-trivial adjoint element: the inversion composed with the rotation by a third of a turn which permutes the axes. -/
example : O3El (1, quat (1/2) (1/2) (1/2) (1/2)) := ⟨.inr rfl, by rw [SO3.normSq_quat]; norm_num⟩

/-- Its matrix is not the identity. -/
example : act3 (1, quat (1/2) (1/2) (1/2) (1/2)) = !![0, 0, -1; -1, 0, 0; 0, -1, 0] := by
  ext i j
  fin_cases i <;> fin_cases j <;> simp [act3, rotOf, quat] <;> norm_num

end O3

end Escnn
