import Verif.Lemmas.Rotation3
import Verif.Model.SO3
import Verif.Lemmas.Cycle
import Verif.Props.C21_Param
import Verif.Props.C02_Dihedral
import Verif.Props.C03_SO2O2

/-!
# Lemmas on the maps between SO(3) and its subgroups
-/

namespace Escnn

open Real Matrix Quaternion

/-- The contract of `Rotation.as_quat`: one of the two quaternions of the rotation. -/
def AsQuat (aq : UQuat → UQuat) : Prop := ∀ q, aq q = q ∨ aq q = -q

theorem AsQuat.rotOf {aq : UQuat → UQuat} (h : AsQuat aq) (q : UQuat) : Escnn.rotOf (aq q) = Escnn.rotOf q := by
  rcases h q with e | e <;> rw [e]
  rw [rotOf_neg]

theorem AsQuat.normSq {aq : UQuat → UQuat} (h : AsQuat aq) (q : UQuat) : Quaternion.normSq (aq q) = Quaternion.normSq q := by
  rcases h q with e | e <;> rw [e]
  rw [Quaternion.normSq_neg]

/-- Maps which differ from the identity only by conjugation with an orthogonal matrix. -/
theorem RealisesAs.of {G H : Type} {ElG : G → Prop} {act : G → Mat3} {A : Mat3} (hA : A * Aᵀ = 1) (hA' : Aᵀ * A = 1)
    {P C : G → G} (hP : ∀ e, ElG e → ElG (P e) ∧ act (P e) = Aᵀ * act e * A)
    (hC : ∀ e, ElG e → ElG (C e) ∧ act (C e) = A * act e * Aᵀ)
    {ElH : H → Prop} {eqH : H → H → Prop} {mulH : H → H → H} {ρ : H → Mat3} {parent : H → Except Err G}
    {core : G → Except Err (Option H)}
    (hel : ∀ h h', ElH h → ElH h' → ElH (mulH h h'))
    (hq : ∀ h, ElH h → ∃ q, parent h = .ok (P q) ∧ ElG q ∧ act q = ρ h)
    (hmul : ∀ h h', ElH h → ElH h' → ρ (mulH h h') = ρ h * ρ h')
    (hinj : ∀ h h', ElH h → ElH h' → ρ h = ρ h' → eqH h h')
    (hc : ∀ e h, ElG e → ElH h → act e = ρ h → ∃ h', core e = .ok (some h') ∧ eqH h' h) :
    RealisesAs ElG act ElH eqH mulH A ρ parent (fun e => core (C e)) := by
  have key : ∀ M : Mat3, A * (Aᵀ * M * A) * Aᵀ = M := fun M => by
    rw [mul_assoc, mul_assoc, mul_assoc, hA, mul_one, ← mul_assoc, hA, one_mul]
  refine ⟨?_, ?_, ?_, ?_⟩
  · intro h hh
    obtain ⟨q, h1, h2, h3⟩ := hq h hh
    exact ⟨_, h1, (hP q h2).1, by rw [(hP q h2).2, h3]⟩
  · intro h h' g g' hh hh' hg hg'
    obtain ⟨q, h1, h2, h3⟩ := hq h hh
    obtain ⟨q', h1', h2', h3'⟩ := hq h' hh'
    obtain ⟨k, h1k, h2k, h3k⟩ := hq _ (hel h h' hh hh')
    refine ⟨_, h1k, ?_⟩
    rw [h1] at hg; rw [h1'] at hg'
    simp only [Except.ok.injEq] at hg hg'
    subst hg hg'
    rw [(hP k h2k).2, (hP q h2).2, (hP q' h2').2, h3k, h3, h3', hmul h h' hh hh']
    calc Aᵀ * (ρ h * ρ h') * A = Aᵀ * ρ h * 1 * ρ h' * A := by simp only [mul_assoc, one_mul]
      _ = _ := by rw [← hA]; simp only [mul_assoc]
  · intro h h' g g' hh hh' hg hg' he
    obtain ⟨q, h1, h2, h3⟩ := hq h hh
    obtain ⟨q', h1', h2', h3'⟩ := hq h' hh'
    rw [h1] at hg; rw [h1'] at hg'
    simp only [Except.ok.injEq] at hg hg'
    subst hg hg'
    rw [(hP q h2).2, (hP q' h2').2, h3, h3'] at he
    refine hinj h h' hh hh' ?_
    rw [← key (ρ h), he, key]
  · intro h g hh hg he
    refine hc _ h (hC g hg).1 hh ?_
    rw [(hC g hg).2, he, key]

/-- The same for the claim about `None`. -/
theorem ExactChild.of {G H : Type} {ElG : G → Prop} {act : G → Mat3} {A : Mat3} (hA' : Aᵀ * A = 1)
    {C : G → G} (hC : ∀ e, ElG e → ElG (C e) ∧ act (C e) = A * act e * Aᵀ)
    {ElH : H → Prop} {ρ : H → Mat3} {core : G → Except Err (Option H)}
    (hc : ∀ e, ElG e → (¬ ∃ h, ElH h ∧ act e = ρ h) → core e = .ok none) :
    ExactChild ElG act ElH A ρ (fun e => core (C e)) := by
  intro g hg hn
  refine hc _ (hC g hg).1 ?_
  rintro ⟨h, hh, he⟩
  refine hn ⟨h, hh, ?_⟩
  rw [(hC g hg).2] at he
  rw [← he, mul_assoc, mul_assoc, mul_assoc, hA', mul_one, ← mul_assoc, hA', one_mul]

theorem arctan2_sin_cos {s c : ℝ} (h : s ^ 2 + c ^ 2 = 1) : sin (arctan2 s c) = s ∧ cos (arctan2 s c) = c := by
  have hn : ‖(⟨c, s⟩ : ℂ)‖ = 1 := by
    rw [Complex.norm_eq_sqrt_sq_add_sq, add_comm, h, Real.sqrt_one]
  have h0 : (⟨c, s⟩ : ℂ) ≠ 0 := by
    intro e; rw [e] at hn; simp at hn
  constructor
  · rw [arctan2, Complex.sin_arg, hn]; simp
  · rw [arctan2, Complex.cos_arg h0, hn]; simp

theorem SO2.elementOf_rad (t : ℝ) : SO2.elementOf .radians (.rad t) = .ok (mod2pi t) := rfl

theorem O2.elementOf_rad (f : ℤ) (hf : f = 0 ∨ f = 1) (t : ℝ) :
    O2.elementOf .radians (f, .rad t) = .ok (f, mod2pi t) := by
  simp only [O2.elementOf, O2.toRad, SO2.toRad, Except.bind, bind, Except.ok.injEq, if_pos hf]

/-- A value of radians which is an element up to full turns. -/
theorem Cyclic.toInt_turn {N : ℕ} {z : ℤ} (hz : isElement N z = true) (k : ℤ) {t : ℝ}
    (ht : t = radians N z + k * (2 * π)) : toInt N .radians (.rad t) = .ok z := by
  rw [isElement_iff] at hz
  have hN : 0 < N := by omega
  have hN' : (0 : ℝ) < N := by exact_mod_cast hN
  have hpi := pi_pos
  have e : t = ((z + k * N : ℤ) : ℝ) * (2 * π / N) := by
    rw [ht, radians]; push_cast; field_simp
  have hc : cycleIsclose t 0 (2 * π / N) := cycleIsclose_of_eq (by positivity) (z + k * N) (by rw [e]; ring)
  have hr : (N : ℝ) * t / (2 * π) = ((z + k * N : ℤ) : ℝ) := by rw [e]; field_simp
  simp only [toInt]
  rw [if_pos hc, hr, round_intCast, Int.add_mul_emod_self_right, Int.emod_eq_of_lt hz.1 hz.2]

theorem Cyclic.elementOf_turn {N : ℕ} {z : ℤ} (hz : isElement N z = true) (k : ℤ) {t : ℝ}
    (ht : t = radians N z + k * (2 * π)) : elementOf N .radians (.rad t) = .ok z := by
  simp only [elementOf, toInt_turn hz k ht, Except.bind, bind, hz, if_true]

theorem Dihedral.elementOf_turn {N : ℕ} {e : Dihedral.Elem} (he : Dihedral.isElement N e = true) (k : ℤ) {t : ℝ}
    (ht : t = radians N e + k * (2 * π)) : elementOf N .radians (e.1, .rad t) = .ok e := by
  have h := he
  rw [isElement_iff] at h
  have hz : Cyclic.isElement N e.2 = true := by rw [Cyclic.isElement_iff]; exact ⟨h.2.1, h.2.2⟩
  simp only [elementOf, toInt, Cyclic.toInt_turn hz k (t := t) ht, Except.bind, bind, h.1, decide_true, pyAssert_true, he,
    if_true]

namespace SO3

variable {aq : UQuat → UQuat}

theorem normSq_quat (x y z w : ℝ) : normSq (quat x y z w) = w ^ 2 + x ^ 2 + y ^ 2 + z ^ 2 := by
  rw [Quaternion.normSq_def']; rfl

theorem unit_z (t : ℝ) : normSq (quat 0 0 (sin t) (cos t)) = 1 := by
  rw [normSq_quat]; nlinarith [sin_sq_add_cos_sq t]

theorem unit_xy (t : ℝ) : normSq (quat (cos t) (sin t) 0 0) = 1 := by
  rw [normSq_quat]; nlinarith [sin_sq_add_cos_sq t]

theorem combine_spec (h : AsQuat aq) (p q : UQuat) : rotOf (combine aq p q) = rotOf p * rotOf q := by
  rw [combine, h.rotOf, rotOf_mul]

theorem inverse_spec (h : AsQuat aq) (p : UQuat) : rotOf (inverse aq p) = (rotOf p)ᵀ := by
  rw [inverse, h.rotOf, rotOf_star]

theorem combine_unit (h : AsQuat aq) {p q : UQuat} (hp : normSq p = 1) (hq : normSq q = 1) :
    normSq (combine aq p q) = 1 := by rw [combine, h.normSq, map_mul, hp, hq, one_mul]

theorem inverse_unit (h : AsQuat aq) {p : UQuat} (hp : normSq p = 1) : normSq (inverse aq p) = 1 := by
  rw [inverse, h.normSq, Quaternion.normSq_star, hp]

theorem intoParent_spec (h : AsQuat aq) {adj : UQuat} (ha : normSq adj = 1) (e : UQuat) (he : normSq e = 1) :
    normSq (intoParent aq adj e) = 1 ∧ rotOf (intoParent aq adj e) = (rotOf adj)ᵀ * rotOf e * rotOf adj := by
  refine ⟨combine_unit h (combine_unit h (inverse_unit h ha) he) ha, ?_⟩
  rw [intoParent, combine_spec h, combine_spec h, inverse_spec h]

theorem intoChild_spec (h : AsQuat aq) {adj : UQuat} (ha : normSq adj = 1) (e : UQuat) (he : normSq e = 1) :
    normSq (intoChild aq adj e) = 1 ∧ rotOf (intoChild aq adj e) = rotOf adj * rotOf e * (rotOf adj)ᵀ := by
  refine ⟨combine_unit h (combine_unit h ha he) (inverse_unit h ha), ?_⟩
  rw [intoChild, combine_spec h, combine_spec h, inverse_spec h]

theorem element_ok {q : UQuat} (h : normSq q = 1) : element q = .ok q := if_pos h

/-- A rotation around Z is one whose quaternion has no `x`, `y`; the angle is the one computed by the code. -/
theorem z_spec {e : UQuat} (he : normSq e = 1) (h : e.imI = 0 ∧ e.imJ = 0) : rotOf e = rotZ (2 * arctan2 e.imK e.re) := by
  rw [Quaternion.normSq_def', h.1, h.2] at he
  have hs := arctan2_sin_cos (s := e.imK) (c := e.re) (by nlinarith)
  rw [← rotOf_z]
  congr 1
  ext <;> simp [h.1, h.2, hs.1, hs.2, mul_div_cancel_left₀]

theorem xy_spec {e : UQuat} (he : normSq e = 1) (h : e.imK = 0 ∧ e.re = 0) :
    rotOf e = rotZ (2 * arctan2 e.imJ e.imI) * flipX := by
  rw [Quaternion.normSq_def', h.1, h.2] at he
  have hs := arctan2_sin_cos (s := e.imJ) (c := e.imI) (by nlinarith)
  rw [← rotOf_flip]
  congr 1
  ext <;> simp [h.1, h.2, hs.1, hs.2, mul_div_cancel_left₀]

theorem z_of {e : UQuat} (he : normSq e = 1) {t : ℝ} (h : rotOf e = rotZ t) : e.imI = 0 ∧ e.imJ = 0 := by
  rw [Quaternion.normSq_def'] at he
  have h2 := congrFun (congrFun h 2) 2
  simp [rotOf, rotZ] at h2
  constructor <;> nlinarith [sq_nonneg e.imI, sq_nonneg e.imJ]

theorem xy_of {e : UQuat} (he : normSq e = 1) {t : ℝ} (h : rotOf e = rotZ t * flipX) : e.imK = 0 ∧ e.re = 0 := by
  rw [Quaternion.normSq_def'] at he
  have h2 := congrFun (congrFun h 2) 2
  simp [rotOf, rotZ, flipX, Matrix.mul_apply, Fin.sum_univ_three] at h2
  constructor <;> nlinarith [sq_nonneg e.imK, sq_nonneg e.re]

theorem not_z_of_xy {e : UQuat} (he : normSq e = 1) (h : e.imK = 0 ∧ e.re = 0) : ¬ (e.imI = 0 ∧ e.imJ = 0) := by
  rintro ⟨h1, h2⟩
  rw [Quaternion.normSq_def', h1, h2, h.1, h.2] at he
  norm_num at he

end SO3

end Escnn
