import Verif.Lemmas.SO3

/-!
# The planar groups as groups of rotations around an axis and of flips

What the subgroup maps of SO(3) and O(3) use of SO(2), C_N, O(2) and D_N.
-/

namespace Escnn

open Real Matrix Quaternion

/-- Groups of rotations: `θ` is `e.to('radians')`, `mk` is `element(·, 'radians')`. -/
structure Circle {H : Type} (El : H → Prop) (mul : H → H → H) (θ : H → ℝ) (mk : ℝ → Except Err H) : Prop where
  el : ∀ h h', El h → El h' → El (mul h h')
  mul : ∀ h h', El h → El h' → ∃ k : ℤ, θ (mul h h') = θ h + θ h' + k * (2 * π)
  inj : ∀ h h' (k : ℤ), El h → El h' → θ h = θ h' + k * (2 * π) → h = h'
  mk_ok : ∀ h (k : ℤ), El h → mk (θ h + k * (2 * π)) = .ok h
  mk_tol : ∀ t, mk t = .error .value ∨ ∃ h, ∃ k : ℤ, mk t = .ok h ∧ El h ∧ |t - θ h - k * (2 * π)| ≤ 1 / 10 ^ 8

/-- Groups of rotations and reflections. -/
structure Plane {H : Type} (El : H → Prop) (mul : H → H → H) (r : H → ℤ × ℝ) (mk : ℤ × ℝ → Except Err H) : Prop where
  flip : ∀ h, El h → (r h).1 = 0 ∨ (r h).1 = 1
  el : ∀ h h', El h → El h' → El (mul h h')
  mul : ∀ h h', El h → El h' → (r (mul h h')).1 = ((r h).1 + (r h').1) % 2 ∧
    ∃ k : ℤ, (r (mul h h')).2 = (r h).2 + sgnR (r h).1 * (r h').2 + k * (2 * π)
  inj : ∀ h h' (k : ℤ), El h → El h' → (r h).1 = (r h').1 → (r h).2 = (r h').2 + k * (2 * π) → h = h'
  mk_ok : ∀ h (k : ℤ), El h → mk ((r h).1, (r h).2 + k * (2 * π)) = .ok h
  mk_tol : ∀ f t, f = 0 ∨ f = 1 → mk (f, t) = .error .value ∨
    ∃ h, ∃ k : ℤ, mk (f, t) = .ok h ∧ El h ∧ (r h).1 = f ∧ |t - (r h).2 - k * (2 * π)| ≤ 1 / 10 ^ 8

theorem rotZ_mod2pi (t : ℝ) : rotZ (mod2pi t) = rotZ t := by
  obtain ⟨q, hq⟩ := mod2pi_spec t
  exact rotZ_inj.2 ⟨-q, by push_cast; linarith⟩

/-- The nearest multiple of `2π/N`. -/
theorem Cyclic.toInt_tol {N : ℕ} (hN : 0 < N) (t : ℝ) : Cyclic.toInt N .radians (.rad t) = .error .value ∨
    ∃ h, ∃ k : ℤ, Cyclic.toInt N .radians (.rad t) = .ok h ∧ Cyclic.isElement N h = true ∧
      |t - Cyclic.radians N h - k * (2 * π)| ≤ 1 / 10 ^ 8 := by
  have hN' : (0 : ℝ) < N := by exact_mod_cast hN
  have hpi := pi_pos
  have hS : 0 < 2 * π / N := by positivity
  by_cases hc : cycleIsclose t 0 (2 * π / N)
  swap
  · left
    simp only [Cyclic.toInt, if_neg hc]
  right
  refine ⟨round (N * t / (2 * π)) % N, round (N * t / (2 * π)) / N, by simp only [Cyclic.toInt, if_pos hc], ?_, ?_⟩
  · rw [Cyclic.isElement_iff]
    exact ⟨Int.emod_nonneg _ (by omega), Int.emod_lt_of_pos _ (by omega)⟩
  · obtain ⟨k, hk⟩ := cycleIsclose_imp hS hc
    have hr := round_le (N * t / (2 * π)) k
    set m := round (N * t / (2 * π)) with hm
    have e : ((m % (N : ℤ) : ℤ) : ℝ) = m - N * ((m / (N : ℤ) : ℤ) : ℝ) := by
      have := Int.emod_add_mul_ediv m N
      have h2 : (m % (N : ℤ) : ℤ) = m - N * (m / (N : ℤ)) := by omega
      rw [h2]; push_cast; ring
    have e1 : t - Cyclic.radians N (m % (N : ℤ)) - ((m / (N : ℤ) : ℤ) : ℝ) * (2 * π) =
        (N * t / (2 * π) - m) * (2 * π / N) := by
      simp only [Cyclic.radians, e]; field_simp; ring
    have e2 : t - 0 - k * (2 * π / N) = (N * t / (2 * π) - k) * (2 * π / N) := by field_simp; ring
    rw [e2, abs_mul, abs_of_pos hS] at hk
    rw [e1, abs_mul, abs_of_pos hS]
    refine (mul_le_mul_of_nonneg_right hr hS.le).trans (hk.trans (max_le ?_ (by norm_num)))
    have : 2 * π / N ≤ 2 * π := div_le_self (by positivity) (by exact_mod_cast hN)
    have h4 : π ≤ 4 := pi_le_four
    nlinarith

theorem circle_cyclic {N : ℕ} (hN : 0 < N) : Circle (fun e => Cyclic.isElement N e = true) (Cyclic.combine N)
    (Cyclic.radians N) (fun t => Cyclic.elementOf N .radians (.rad t)) := by
  have hN' : (0 : ℝ) < N := by exact_mod_cast hN
  have hpi := pi_pos
  have hpi' := pi_ne_zero
  refine ⟨?_, ?_, ?_, ?_, ?_⟩
  · intro h h' _ _
    rw [Cyclic.isElement_iff]
    exact ⟨Int.emod_nonneg _ (by omega), Int.emod_lt_of_pos _ (by omega)⟩
  · intro h h' _ _
    refine ⟨-((h + h') / N), ?_⟩
    have e : ((h + h') % (N : ℤ) : ℤ) = h + h' - N * ((h + h') / (N : ℤ)) := by
      have := Int.emod_add_mul_ediv (h + h') N; omega
    simp only [Cyclic.combine, Cyclic.radians, e]; push_cast; field_simp; ring
  · intro h h' k hh hh' he
    rw [Cyclic.isElement_iff] at hh hh'
    have : (h : ℝ) = h' + k * N := by
      simp only [Cyclic.radians] at he; field_simp at he; linarith
    have e : h = h' + k * N := by exact_mod_cast this
    have h1 := Int.emod_eq_of_lt hh.1 hh.2
    rw [e, Int.add_mul_emod_self_right, Int.emod_eq_of_lt hh'.1 hh'.2] at h1
    omega
  · intro h k hh
    exact Cyclic.elementOf_turn hh k rfl
  · intro t
    rcases Cyclic.toInt_tol hN t with h | ⟨h, k, h1, h2, h3⟩
    · left
      simp only [Cyclic.elementOf, h]; rfl
    · refine .inr ⟨h, k, ?_, h2, h3⟩
      simp only [Cyclic.elementOf, h1, Except.bind, bind, h2, if_true]

theorem circle_so2 : Circle SO2.IsElement SO2.combine mod2pi (fun t => SO2.elementOf .radians (.rad t)) := by
  refine ⟨?_, ?_, ?_, ?_, ?_⟩
  · exact fun h h' _ _ => ⟨mod2pi_nonneg _, mod2pi_lt _⟩
  · intro h h' _ _
    obtain ⟨q, hq⟩ := mod2pi_spec (mod2pi h + mod2pi h')
    exact ⟨-q, by simp only [SO2.combine, mod2pi_mod2pi]; push_cast; linarith⟩
  · intro h h' k hh hh' he
    have := mod2pi_eq_iff.2 ⟨k, he⟩
    rwa [mod2pi_mod2pi, mod2pi_mod2pi, mod2pi_eq_self hh.1 hh.2, mod2pi_eq_self hh'.1 hh'.2] at this
  · intro h k hh
    rw [SO2.elementOf_rad, mod2pi_eq_iff.2 ⟨k, rfl⟩, mod2pi_mod2pi, mod2pi_eq_self hh.1 hh.2]
  · intro t
    obtain ⟨q, hq⟩ := mod2pi_spec t
    refine .inr ⟨mod2pi t, q, rfl, ⟨mod2pi_nonneg _, mod2pi_lt _⟩, ?_⟩
    rw [mod2pi_mod2pi, hq]
    have : t - (t - q * (2 * π)) - q * (2 * π) = 0 := by ring
    rw [this]; norm_num

theorem plane_dihedral {N : ℕ} (hN : 0 < N) : Plane (fun e => Dihedral.isElement N e = true) (Dihedral.combine N)
    (fun e => (e.1, Dihedral.radians N e)) (fun e => Dihedral.elementOf N .radians (e.1, .rad e.2)) := by
  have hN' : (0 : ℝ) < N := by exact_mod_cast hN
  have hpi := pi_pos
  have hpi' := pi_ne_zero
  refine ⟨?_, ?_, ?_, ?_, ?_, ?_⟩
  · intro h hh
    rw [Dihedral.isElement_iff] at hh
    exact hh.1
  · intro h h' _ _
    rw [Dihedral.isElement_iff]
    refine ⟨?_, Int.emod_nonneg _ (by omega), Int.emod_lt_of_pos _ (by omega)⟩
    simp only [Dihedral.combine]; omega
  · intro h h' _ _
    refine ⟨rfl, -((h.2 + Dihedral.sgn h.1 * h'.2) / N), ?_⟩
    have e : ((h.2 + Dihedral.sgn h.1 * h'.2) % (N : ℤ) : ℤ) =
        h.2 + Dihedral.sgn h.1 * h'.2 - N * ((h.2 + Dihedral.sgn h.1 * h'.2) / (N : ℤ)) := by
      have := Int.emod_add_mul_ediv (h.2 + Dihedral.sgn h.1 * h'.2) N; omega
    have es : ((Dihedral.sgn h.1 : ℤ) : ℝ) = sgnR h.1 := by
      unfold Dihedral.sgn sgnR; split <;> simp
    simp only [Dihedral.combine, Dihedral.radians, e]; push_cast; rw [es]; field_simp; ring
  · intro h h' k hh hh' hf he
    rw [Dihedral.isElement_iff] at hh hh'
    have : (h.2 : ℝ) = h'.2 + k * N := by
      simp only [Dihedral.radians] at he; field_simp at he; linarith
    have e : h.2 = h'.2 + k * N := by exact_mod_cast this
    have h1 := Int.emod_eq_of_lt hh.2.1 hh.2.2
    rw [e, Int.add_mul_emod_self_right, Int.emod_eq_of_lt hh'.2.1 hh'.2.2] at h1
    exact Prod.ext hf (by omega)
  · intro h k hh
    exact Dihedral.elementOf_turn hh k rfl
  · intro f t hf
    rcases Cyclic.toInt_tol hN t with h | ⟨h, k, h1, h2, h3⟩
    · left
      simp only [Dihedral.elementOf, Dihedral.toInt, h, hf, decide_true, pyAssert_true, Except.bind, bind]
    · have hel : Dihedral.isElement N (f, h) = true := by
        rw [Dihedral.isElement_iff]
        rw [Cyclic.isElement_iff] at h2
        exact ⟨hf, h2⟩
      refine .inr ⟨(f, h), k, ?_, hel, rfl, h3⟩
      simp only [Dihedral.elementOf, Dihedral.toInt, h1, hf, decide_true, pyAssert_true, Except.bind, bind, hel, if_true]

theorem plane_o2 : Plane O2.IsElement O2.combine O2.reduce (fun e => O2.elementOf .radians (e.1, .rad e.2)) := by
  refine ⟨?_, ?_, ?_, ?_, ?_, ?_⟩
  · exact fun h hh => hh.1
  · refine fun h h' _ _ => ⟨?_, mod2pi_nonneg _, mod2pi_lt _⟩
    simp only [O2.combine, O2.reduce]; omega
  · intro h h' _ _
    refine ⟨rfl, ?_⟩
    obtain ⟨q, hq⟩ := mod2pi_spec ((O2.reduce h).2 + sgnR (O2.reduce h).1 * (O2.reduce h').2)
    refine ⟨-q, ?_⟩
    show mod2pi (mod2pi ((O2.reduce h).2 + sgnR (O2.reduce h).1 * (O2.reduce h').2)) = _
    rw [mod2pi_mod2pi, hq]; push_cast; ring
  · intro h h' k hh hh' hf he
    have := mod2pi_eq_iff.2 ⟨k, he⟩
    simp only [O2.reduce, mod2pi_mod2pi, mod2pi_eq_self hh.2.1 hh.2.2, mod2pi_eq_self hh'.2.1 hh'.2.2] at this hf
    exact Prod.ext hf this
  · intro h k hh
    refine (O2.elementOf_rad h.1 hh.1 _).trans ?_
    rw [mod2pi_eq_iff.2 ⟨k, rfl⟩]
    simp only [O2.reduce, mod2pi_mod2pi, mod2pi_eq_self hh.2.1 hh.2.2]
  · intro f t hf
    obtain ⟨q, hq⟩ := mod2pi_spec t
    refine .inr ⟨(f, mod2pi t), q, O2.elementOf_rad f hf t, ⟨hf, mod2pi_nonneg _, mod2pi_lt _⟩, rfl, ?_⟩
    simp only [O2.reduce]
    rw [mod2pi_mod2pi, hq]
    have : t - (t - q * (2 * π)) - q * (2 * π) = 0 := by ring
    rw [this]; norm_num

theorem rotZ_ne_flip (a b : ℝ) : rotZ a ≠ rotZ b * flipX := by
  intro h
  have := congrFun (congrFun h 2) 2
  simp [rotZ, flipX, Matrix.mul_apply, Fin.sum_univ_three] at this
  norm_num at this

theorem rotZ_flip_cancel {a b : ℝ} (h : rotZ a * flipX = rotZ b * flipX) : rotZ a = rotZ b := by
  have := congrArg (· * flipX) h
  simpa [mul_assoc, flipX_flipX] using this

theorem rotZ_mirror_cancel {a b : ℝ} (h : rotZ a * mirrorY = rotZ b * mirrorY) : rotZ a = rotZ b := by
  have := congrArg (· * mirrorY) h
  simpa [mul_assoc, mirrorY_mirrorY] using this

/-- The difference of two angles. -/
theorem rotZ_near {t a : ℝ} {k : ℤ} : rotZ t = rotZ (t - a - k * (2 * π)) * rotZ a := by
  rw [← rotZ_add]
  exact rotZ_inj.2 ⟨k, by ring⟩

/-- Composition of rotations and reflections through an involution which inverts the rotations. -/
theorem Plane.rot_mul {H : Type} {El : H → Prop} {mul : H → H → H} {r : H → ℤ × ℝ} {mk : ℤ × ℝ → Except Err H}
    (hP : Plane El mul r mk) {F : Mat3} (h2 : F * F = 1) (hF : ∀ a, F * rotZ a = rotZ (-a) * F) {h h' : H} (hh : El h)
    (hh' : El h') : rotZ (r (mul h h')).2 * F ^ (r (mul h h')).1.toNat =
      rotZ (r h).2 * F ^ (r h).1.toNat * (rotZ (r h').2 * F ^ (r h').1.toNat) := by
  obtain ⟨e1, k, e2⟩ := hP.mul h h' hh hh'
  rw [e1, e2, rotZ_periodic, rotZ_add]
  rcases hP.flip h hh with h0 | h0 <;> rcases hP.flip h' hh' with h1 | h1 <;> rw [h0, h1]
  · simp [sgnR]
  · simp [sgnR, mul_assoc]
  · simp only [sgnR, ne_eq, one_ne_zero, not_false_eq_true, if_true]
    have : ((1 + 0 : ℤ) % 2).toNat = 1 := by decide
    rw [this]
    simp only [Int.toNat_one, Int.toNat_zero, pow_zero, pow_one, mul_one, neg_one_mul]
    rw [mul_assoc (rotZ _) F, hF, mul_assoc]
  · simp only [sgnR, ne_eq, one_ne_zero, not_false_eq_true, if_true]
    have : ((1 + 1 : ℤ) % 2).toNat = 0 := by decide
    rw [this]
    simp only [Int.toNat_one, pow_zero, pow_one, mul_one, neg_one_mul]
    rw [mul_assoc (rotZ _) F, ← mul_assoc F, hF, mul_assoc (rotZ _) F F, h2, mul_one]

namespace SO3

/-- The branches of `so3_to_so2` on rotations of the group. -/
theorem circle_core {H : Type} {El : H → Prop} {mul : H → H → H} {θ : H → ℝ} {mk : ℝ → Except Err H}
    (hC : Circle El mul θ mk) {e : UQuat} (he : normSq e = 1) {h : H} (hh : El h) (hr : rotOf e = rotZ (θ h)) :
    (e.imI = 0 ∧ e.imJ = 0) ∧ mk (2 * arctan2 e.imK e.re) = .ok h := by
  have hz := z_of he hr
  rw [z_spec he hz] at hr
  obtain ⟨k, hk⟩ := rotZ_inj.1 hr
  exact ⟨hz, by rw [hk, hC.mk_ok h k hh]⟩

theorem circle_core_tol {H : Type} {El : H → Prop} {mul : H → H → H} {θ : H → ℝ} {mk : ℝ → Except Err H}
    (hC : Circle El mul θ mk) {e : UQuat} (he : normSq e = 1) (hz : e.imI = 0 ∧ e.imJ = 0) :
    mk (2 * arctan2 e.imK e.re) = .error .value ∨ ∃ h t, mk (2 * arctan2 e.imK e.re) = .ok h ∧ El h ∧ |t| ≤ 1 / 10 ^ 8 ∧
      rotOf e = rotZ t * rotZ (θ h) := by
  rcases hC.mk_tol (2 * arctan2 e.imK e.re) with h | ⟨h, k, h1, h2, h3⟩
  · exact .inl h
  · exact .inr ⟨h, _, h1, h2, h3, by rw [z_spec he hz]; exact rotZ_near⟩

/-- The branches of `so3_to_o2` on elements of the group. -/
theorem plane_core {H : Type} {El : H → Prop} {mul : H → H → H} {r : H → ℤ × ℝ} {mk : ℤ × ℝ → Except Err H}
    (hP : Plane El mul r mk) {e : UQuat} (he : normSq e = 1) {h : H} (hh : El h)
    (hr : rotOf e = rotZ (r h).2 * flipX ^ (r h).1.toNat) :
    ((e.imI = 0 ∧ e.imJ = 0) ∧ mk (0, 2 * arctan2 e.imK e.re) = .ok h) ∨
    (¬ (e.imI = 0 ∧ e.imJ = 0) ∧ (e.imK = 0 ∧ e.re = 0) ∧ mk (1, 2 * arctan2 e.imJ e.imI) = .ok h) := by
  rcases hP.flip h hh with h0 | h0 <;> rw [h0] at hr <;> simp at hr
  · have hz := z_of he hr
    rw [z_spec he hz] at hr
    obtain ⟨k, hk⟩ := rotZ_inj.1 hr
    have := hP.mk_ok h k hh
    rw [h0] at this
    exact .inl ⟨hz, by rw [hk, this]⟩
  · have hz := xy_of he hr
    rw [xy_spec he hz] at hr
    obtain ⟨k, hk⟩ := rotZ_inj.1 (rotZ_flip_cancel hr)
    have := hP.mk_ok h k hh
    rw [h0] at this
    exact .inr ⟨not_z_of_xy he hz, hz, by rw [hk, this]⟩

theorem plane_core_tol {H : Type} {El : H → Prop} {mul : H → H → H} {r : H → ℤ × ℝ} {mk : ℤ × ℝ → Except Err H}
    (hP : Plane El mul r mk) {e : UQuat} (he : normSq e = 1) :
    (e.imI = 0 ∧ e.imJ = 0 → mk (0, 2 * arctan2 e.imK e.re) = .error .value ∨
      ∃ h t, mk (0, 2 * arctan2 e.imK e.re) = .ok h ∧ El h ∧ |t| ≤ 1 / 10 ^ 8 ∧
        rotOf e = rotZ t * (rotZ (r h).2 * flipX ^ (r h).1.toNat)) ∧
    (e.imK = 0 ∧ e.re = 0 → mk (1, 2 * arctan2 e.imJ e.imI) = .error .value ∨
      ∃ h t, mk (1, 2 * arctan2 e.imJ e.imI) = .ok h ∧ El h ∧ |t| ≤ 1 / 10 ^ 8 ∧
        rotOf e = rotZ t * (rotZ (r h).2 * flipX ^ (r h).1.toNat)) := by
  refine ⟨fun hz => ?_, fun hz => ?_⟩
  · rcases hP.mk_tol 0 (2 * arctan2 e.imK e.re) (.inl rfl) with h | ⟨h, k, h1, h2, h3, h4⟩
    · exact .inl h
    · refine .inr ⟨h, _, h1, h2, h4, ?_⟩
      rw [z_spec he hz, h3, Int.toNat_zero, pow_zero, mul_one]
      exact rotZ_near
  · rcases hP.mk_tol 1 (2 * arctan2 e.imJ e.imI) (.inr rfl) with h | ⟨h, k, h1, h2, h3, h4⟩
    · exact .inl h
    · refine .inr ⟨h, _, h1, h2, h4, ?_⟩
      rw [xy_spec he hz, h3, Int.toNat_one, pow_one, ← mul_assoc]
      congr 1
      exact rotZ_near

theorem plane_inj {H : Type} {El : H → Prop} {mul : H → H → H} {r : H → ℤ × ℝ} {mk : ℤ × ℝ → Except Err H}
    (hP : Plane El mul r mk) {h h' : H} (hh : El h) (hh' : El h')
    (he : rotZ (r h).2 * flipX ^ (r h).1.toNat = rotZ (r h').2 * flipX ^ (r h').1.toNat) : h = h' := by
  have : (r h).1 = (r h').1 ∧ rotZ (r h).2 = rotZ (r h').2 := by
    rcases hP.flip h hh with h0 | h0 <;> rcases hP.flip h' hh' with h1 | h1 <;> rw [h0, h1] at he <;> simp at he <;>
      rw [h0, h1]
    · exact ⟨rfl, he⟩
    · exact absurd he (rotZ_ne_flip _ _)
    · exact absurd he.symm (rotZ_ne_flip _ _)
    · exact ⟨rfl, rotZ_flip_cancel he⟩
  obtain ⟨k, hk⟩ := rotZ_inj.1 this.2
  exact hP.inj h h' k hh hh' this.1 hk

end SO3

/-- `TightChild` through a conjugation. -/
theorem TightChild.of {G H : Type} {ElG : G → Prop} {act : G → Mat3} {A : Mat3} (hA' : Aᵀ * A = 1)
    {C : G → G} (hC : ∀ e, ElG e → ElG (C e) ∧ act (C e) = A * act e * Aᵀ)
    {ElH : H → Prop} {ρ : H → Mat3} {core : G → Except Err (Option H)}
    (hc : ∀ e, ElG e → core e = .ok none ∨
      ∃ h t, core e = .ok (some h) ∧ ElH h ∧ |t| ≤ 1 / 10 ^ 8 ∧ act e = rotZ t * ρ h) :
    TightChild ElG act ElH A ρ (fun e => core (C e)) := by
  intro g hg
  rcases hc _ (hC g hg).1 with h | ⟨h, t, h1, h2, h3, h4⟩
  · exact .inl h
  · refine .inr ⟨h, t, h1, h2, h3, ?_⟩
    rw [(hC g hg).2] at h4
    rw [← h4, mul_assoc, mul_assoc, mul_assoc, hA', mul_one, ← mul_assoc, hA', one_mul]

end Escnn
