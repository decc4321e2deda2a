import Verif.Lemmas.Core3
import Verif.Lemmas.WignerExample
import Verif.Props.C75_SO3
import Verif.Props.C76_O3

/-!
# C79 — the irreps of SO(3) and O(3) and `_restrict_irrep`
-/

namespace Escnn

open Real NpMat Quaternion
open scoped Matrix

namespace SO3

variable {aq : UQuat → UQuat} {W : ℕ → UQuat → NpMat ℝ} {l : ℕ}

/-- **C79** `SO3.irrep(l)`: an orthogonal representation of the declared size, which does not depend on the sign of the
quaternion. -/
theorem C79_so3_rep (hW : l ≠ 0 → Wigner l (W l)) :
    irrepSize l = 2 * l + 1 ∧ Rep3 (fun q : UQuat => normSq q = 1) rotOf (2 * l + 1) (irrepMat W l) := by
  refine ⟨?_, wigner_rep (irrepMat_wigner hW)⟩
  unfold irrepSize; split_ifs with h
  · rw [h]
  · rfl

/-- **C79** `SO3._restrict_irrep` to `'so3'`. -/
theorem C79_so3_self (haq : AsQuat aq) (ico octa : RotGroup) {adj : UQuat} (hadj : normSq adj = 1)
    (hW : l ≠ 0 → Wigner l (W l)) :
    ∃ P C, subgroup aq ico octa (.str "so3") adj = .ok ⟨UQuat, fun q => normSq q = 1, combine aq, P, C⟩ ∧
      IsRestriction (2 * l + 1) (irrepMat W l) (fun q => normSq q = 1) P (restrictSelf W l adj).1
        (fun h => (restrictSelf W l adj).2.map fun i => irrepMat W i h) := by
  obtain ⟨P, C, h1, h2⟩ := C75_self haq ico octa hadj
  have hD := irrepMat_wigner hW
  refine ⟨P, C, h1, ?_⟩
  have hb : ∀ h, blockDiag ([l].map fun i => irrepMat W i h) ≈ irrepMat W l h := fun h => blockDiag_single _
  rw [restrictSelf, (C79_so3_rep hW).1]
  refine adj_restriction hD hadj h2 rfl (eye_isOrtho _) (fun h q hh hq hr => ?_) (fun h hh => ?_)
  · refine (hD.ext q h hq hh hr).trans ((conj_eye _ (hD.rows h hh) (hD.cols h hh)).symm.trans ?_)
    exact conj_congr (hb h).symm (hD.rows h hh).symm (hD.cols h hh).symm
  · exact ⟨(hb h).1.trans (hD.rows h hh), (hb h).2.1.trans (hD.cols h hh)⟩

/-- **C79** `SO3._restrict_irrep` to `(False, -1)`: the rotations around an axis. -/
theorem C79_so3_so2 (haq : AsQuat aq) (ico octa : RotGroup) {adj : UQuat} (hadj : normSq adj = 1)
    (hW : l ≠ 0 → Wigner l (W l)) :
    ∃ P C, subgroup aq ico octa (.pair false (-1)) adj = .ok ⟨ℝ, SO2.IsElement, SO2.combine, P, C⟩ ∧
      IsRestriction (2 * l + 1) (irrepMat W l) SO2.IsElement P (restrictSO2 W l adj).1
        (fun h => (restrictSO2 W l adj).2.map fun k => SO2.irrepMat k h) := by
  obtain ⟨P, C, h1, h2, -⟩ := C75_so2 haq ico octa hadj
  have hc := so2_core3 (irrepMat_wigner hW) SO2.IsElement rotZ (fun θ => θ) (fun _ _ => rfl)
  exact ⟨P, C, h1, adj_restriction (irrepMat_wigner hW) hadj h2 hc.rows hc.ortho hc.core hc.size⟩

/-- **C79** `SO3._restrict_irrep` to `(True, -1)`: the rotations around an axis and the flips. -/
theorem C79_so3_o2 (haq : AsQuat aq) (ico octa : RotGroup) {adj : UQuat} (hadj : normSq adj = 1)
    (hW : l ≠ 0 → Wigner l (W l)) :
    (∀ i ∈ (restrictO2 W l adj).2, O2.irrepOk i.1 i.2 = true) ∧
    ∃ P C, subgroup aq ico octa (.pair true (-1)) adj = .ok ⟨O2.Elem, O2.IsElement, O2.combine, P, C⟩ ∧
      IsRestriction (2 * l + 1) (irrepMat W l) O2.IsElement P (restrictO2 W l adj).1
        (fun h => (restrictO2 W l adj).2.map fun i => O2.irrepMat i.1 i.2 h) := by
  refine ⟨fun i hi => ?_, ?_⟩
  · rcases List.mem_append.1 hi with h | h
    · rw [List.mem_singleton.1 h]
      rcases Nat.mod_two_eq_zero_or_one l with h | h <;> rw [h] <;> rfl
    · obtain ⟨f, _, rfl⟩ := List.mem_map.1 h
      simp [O2.irrepOk]
  obtain ⟨P, C, h1, h2, -⟩ := C75_o2 haq ico octa hadj
  have hc := o2_core3 (irrepMat_wigner hW) O2.IsElement (fun e => rotZ e.2 * flipX ^ e.1.toNat) (fun e => e) (fun _ h => h.1)
    (fun _ _ => rfl)
  exact ⟨P, C, h1, adj_restriction (irrepMat_wigner hW) hadj h2 hc.rows hc.ortho hc.core hc.size⟩

/-- **C79** `SO3._restrict_irrep` to `(False, n)`: the cyclic groups. -/
theorem C79_so3_cyclic (haq : AsQuat aq) (ico octa : RotGroup) {adj : UQuat} (hadj : normSq adj = 1)
    (hW : l ≠ 0 → Wigner l (W l)) (n : ℕ) (hn : 0 < n) :
    ∃ P C Q L, subgroup aq ico octa (.pair false n) adj =
        .ok ⟨ℤ, fun e => Cyclic.isElement n e = true, Cyclic.combine n, P, C⟩ ∧
      restrictCyc W l n adj = .ok (Q, L) ∧ (∀ f ∈ L, f ≤ n / 2) ∧
      IsRestriction (2 * l + 1) (irrepMat W l) (fun e => Cyclic.isElement n e = true) P Q
        (fun h => L.map fun f => Cyclic.irrepMat n f h) := by
  obtain ⟨P, C, h1, h2, -⟩ := C75_cyclic haq ico octa hadj n hn
  obtain ⟨Q, L, -, h3, h4, hc⟩ := cyc_core3 (irrepMat_wigner hW) n hn
  exact ⟨P, C, _, L, h1, h3 adj, h4, adj_restriction (irrepMat_wigner hW) hadj h2 hc.rows hc.ortho hc.core hc.size⟩

/-- **C79** `SO3._restrict_irrep` to `(True, n)`: the dihedral groups. -/
theorem C79_so3_dihedral (haq : AsQuat aq) (ico octa : RotGroup) {adj : UQuat} (hadj : normSq adj = 1)
    (hW : l ≠ 0 → Wigner l (W l)) (n : ℕ) (hn : 1 < n) :
    (∀ i ∈ (restrictDih W l n adj).2, Dihedral.irrepOk n i.1 i.2 = true) ∧
    ∃ P C, subgroup aq ico octa (.pair true n) adj =
        .ok ⟨Dihedral.Elem, fun e => Dihedral.isElement n e = true, Dihedral.combine n, P, C⟩ ∧
      IsRestriction (2 * l + 1) (irrepMat W l) (fun e => Dihedral.isElement n e = true) P (restrictDih W l n adj).1
        (fun h => (restrictDih W l n adj).2.map fun i => Dihedral.irrepMat n i.1 i.2 h) := by
  obtain ⟨P, C, h1, h2, -⟩ := C75_dihedral haq ico octa hadj n hn
  obtain ⟨Q, L, h3, h4, hc⟩ := dih_core3 (irrepMat_wigner hW) n (by omega)
  rw [h3 adj]
  exact ⟨h4, P, C, h1, adj_restriction (irrepMat_wigner hW) hadj h2 hc.rows hc.ortho hc.core hc.size⟩

/-- **C79** `SO3.standard_representation()` is the rotation matrix. -/
theorem C79_so3_standard (hW : Wigner 1 (W 1)) {q : UQuat} (hq : normSq q = 1) :
    standardMat W q ≈ ⟨3, 3, fun i j => rotOf q (Fin.ofNat 3 i) (Fin.ofNat 3 j)⟩ := by
  have h1 : irrepMat W 1 q ≈ ⟨3, 3, fun i k => rotOf q (harmonicAxis i) (harmonicAxis k)⟩ := by
    rw [irrepMat, if_neg one_ne_zero]; exact hW.one rfl q hq
  have h2 := mul_congr (mul_congr (Eqv.refl standardCob) h1 h1.1.symm) (Eqv.refl (transpose standardCob)) h1.2.1
  refine Eqv.trans h2 ⟨rfl, rfl, fun i j hi hj => ?_⟩
  change i < 3 at hi
  change j < 3 at hj
  interval_cases i <;> interval_cases j <;>
    simp [NpMat.mul, NpMat.transpose, standardCob, Finset.sum_range_succ, harmonicAxis, Fin.ofNat]

end SO3

namespace O3

variable {aq : UQuat → UQuat} {W : ℕ → UQuat → NpMat ℝ} {j l : ℕ}

theorem id_asQuat : AsQuat (fun q => q) := fun _ => .inl rfl

theorem invAction_zero {e : Elem} (h : e.1 = 0) : invAction j e = 1 := by simp [invAction, h]
theorem invAction_one {e : Elem} (h : e.1 = 1) : invAction j e = (-1) ^ j := by simp [invAction, h]

/-- The irrep is the irrep of SO(3) times the sign of the inversion. -/
theorem irrepMat_eq (hW : l ≠ 0 → Wigner l (W l)) {e : Elem} (he : O3El e) :
    irrepMat W j l e ≈ ⟨2 * l + 1, 2 * l + 1, fun a b => (SO3.irrepMat W l e.2).get a b * invAction j e⟩ := by
  unfold irrepMat SO3.irrepMat
  by_cases hl : l = 0
  · subst hl
    by_cases hj : j = 0
    · subst hj
      rw [if_pos ⟨rfl, rfl⟩]
      refine ⟨rfl, rfl, fun a b ha hb => ?_⟩
      simp [invAction]
    · rw [if_neg (by tauto), if_pos rfl]
      refine ⟨rfl, rfl, fun a b ha hb => ?_⟩
      obtain rfl : a = 0 := by change a < 1 at ha; omega
      obtain rfl : b = 0 := by change b < 1 at hb; omega
      simp [of1, eye]
  · rw [if_neg (by tauto), if_neg hl]
    refine ⟨(hW hl).rows _ he.2, (hW hl).cols _ he.2, fun a b _ _ => ?_⟩
    simp [hl]

/-- On the elements without inversion. -/
theorem irrepMat_rot (hW : l ≠ 0 → Wigner l (W l)) {e : Elem} (he : O3El e) (h : e.1 = 0) :
    irrepMat W j l e ≈ SO3.irrepMat W l e.2 := by
  have hD := SO3.irrepMat_wigner hW
  refine (irrepMat_eq hW he).trans ⟨(hD.rows _ he.2).symm, (hD.cols _ he.2).symm, fun a b _ _ => ?_⟩
  simp [invAction_zero h]

theorem scale_mul {A B : NpMat ℝ} {n : ℕ} (hA : A.rows = n ∧ A.cols = n) (hB : B.rows = n ∧ B.cols = n) (c c' : ℝ) :
    mul (⟨n, n, fun a b => A.get a b * c⟩ : NpMat ℝ) ⟨n, n, fun a b => B.get a b * c'⟩ ≈
      ⟨n, n, fun a b => (mul A B).get a b * (c * c')⟩ := by
  refine ⟨rfl, rfl, fun a b _ _ => ?_⟩
  simp only [mul, hA.2]
  rw [Finset.sum_mul]
  exact Finset.sum_congr rfl fun k _ => by ring

/-- **C79** `O3.irrep(j, l)`: an orthogonal representation of the declared size, which does not depend on the sign of the
quaternion. -/
theorem C79_o3_rep (hW : l ≠ 0 → Wigner l (W l)) :
    irrepSize l = 2 * l + 1 ∧ Rep3 O3El act3 (2 * l + 1) (irrepMat W j l) := by
  have hD := SO3.irrepMat_wigner hW
  have hR := SO3.wigner_rep hD
  have hsq : ∀ e : Elem, O3El e → invAction j e * invAction j e = 1 := by
    intro e he
    rcases he.1 with h | h
    · rw [invAction_zero h, one_mul]
    · rw [invAction_one h, ← mul_pow]; norm_num
  refine ⟨?_, ⟨fun e he => (irrepMat_eq hW he).1, fun e he => (irrepMat_eq hW he).2.1, fun e he => ?_, fun e he h1 => ?_,
    fun g g' k hg hg' hk h => ?_⟩⟩
  · unfold irrepSize; split_ifs with h
    · rw [h]
    · rfl
  · obtain ⟨o1, o2, o3⟩ := hD.ortho e.2 he.2
    have hr := hD.rows e.2 he.2
    have hc := hD.cols e.2 he.2
    have e1 := irrepMat_eq (j := j) hW he
    have e2 : transpose (irrepMat W j l e) ≈ ⟨2 * l + 1, 2 * l + 1, fun a b =>
        (transpose (SO3.irrepMat W l e.2)).get a b * invAction j e⟩ := (transpose_congr e1).trans ⟨rfl, rfl, fun _ _ _ _ => rfl⟩
    refine ⟨by rw [e1.1, e1.2.1], ?_, ?_⟩
    · refine (mul_congr e1 e2 (by simp)).trans ((scale_mul ⟨hr, hc⟩ ⟨hc, hr⟩ _ _).trans ?_)
      refine ⟨e1.1.symm, e1.1.symm, fun a b ha hb => ?_⟩
      change _ * (_ * _) = _
      rw [hsq e he, mul_one]
      exact o2.2.2 a b (by simpa [hr] using ha) (by simpa [hr] using hb)
    · refine (mul_congr e2 e1 (by simp [e1.1])).trans ((scale_mul ⟨hc, hr⟩ ⟨hr, hc⟩ _ _).trans ?_)
      refine ⟨e1.1.symm, e1.1.symm, fun a b ha hb => ?_⟩
      change _ * (_ * _) = _
      rw [hsq e he, mul_one]
      exact o3.2.2 a b (by simpa [hc] using ha) (by simpa [hc] using hb)
  · obtain ⟨h2, h3⟩ := act_rot he (by simp) h1
    exact (irrepMat_rot hW he h2).trans (hR.one e.2 he.2 h3)
  · have hce := combine_el id_asQuat hg hg'
    have hca := combine_act id_asQuat hg hg'
    obtain ⟨h2, h3⟩ := act_split hk hce.1 (rotOf_det hce.2) (by rw [h, ← hca]; rfl)
    have h4 : rotOf k.2 = rotOf g.2 * rotOf g'.2 := by rw [h3, combine, SO3.combine_spec id_asQuat]
    have hinv : invAction j k = invAction j g * invAction j g' := by
      have h5 : k.1 = (g.1 + g'.1) % 2 := h2
      rcases hg.1 with a | a <;> rcases hg'.1 with b | b <;> rw [a, b] at h5 <;> norm_num at h5
      · rw [invAction_zero h5, invAction_zero a, invAction_zero b, one_mul]
      · rw [invAction_one h5, invAction_zero a, invAction_one b, one_mul]
      · rw [invAction_one h5, invAction_one a, invAction_zero b, mul_one]
      · rw [invAction_zero h5, invAction_one a, invAction_one b, ← mul_pow]; norm_num
    have e0 := hR.hom g.2 g'.2 k.2 hg.2 hg'.2 hk.2 h4
    refine (irrepMat_eq hW hk).trans (Eqv.symm ?_)
    refine (mul_congr (irrepMat_eq hW hg) (irrepMat_eq hW hg') ?_).trans ?_
    · rw [(irrepMat_eq hW hg).2.1, (irrepMat_eq hW hg').1]
    · refine (scale_mul ⟨hD.rows _ hg.2, hD.cols _ hg.2⟩ ⟨hD.rows _ hg'.2, hD.cols _ hg'.2⟩ _ _).trans ⟨rfl, rfl, fun a b ha hb => ?_⟩
      change _ * _ = _ * _
      rw [hinv, e0.2.2 a b (by rw [hD.rows _ hk.2]; exact ha) (by rw [hD.cols _ hk.2]; exact hb)]

/-- Adding the adjoint. -/
theorem adj_restriction {H : Type} (hW : l ≠ 0 → Wigner l (W l)) {adj : Elem} (hadj : O3El adj)
    {ElH : H → Prop} {eqH : H → H → Prop} {mulH : H → H → H} {R : H → Mat3} {P : H → Except Err Elem} {C}
    (hP : RealisesAs O3El act3 ElH eqH mulH (act3 adj) R P C)
    {Q : NpMat ℝ} (hQr : Q.rows = 2 * l + 1) (hQ : IsOrtho Q) {blocks : H → List (NpMat ℝ)}
    (hb : ∀ h q, ElH h → O3El q → act3 q = R h → irrepMat W j l q ≈ conj Q (blockDiag (blocks h)))
    (hbr : ∀ h, ElH h → (blockDiag (blocks h)).rows = 2 * l + 1 ∧ (blockDiag (blocks h)).cols = 2 * l + 1) :
    IsRestriction (2 * l + 1) (irrepMat W j l) ElH P (withAdj W j l adj Q) blocks :=
  restrict_adj (C79_o3_rep hW).2 identity_el identity_act (fun g hg => orth hg)
    (fun g g' hg hg' => ⟨_, combine_el id_asQuat hg hg', combine_act id_asQuat hg hg'⟩)
    (fun g hg => ⟨_, inverse_el id_asQuat hg, inverse_act id_asQuat g⟩) hadj hP.parent_ok hQr hQ hb hbr

theorem single_size {d : ℕ} {A : NpMat ℝ} (hr : A.rows = d) (hc : A.cols = d) : (blockDiag [A]).rows = d ∧ (blockDiag [A]).cols = d :=
  ⟨(blockDiag_single A).1.trans hr, (blockDiag_single A).2.1.trans hc⟩

theorem single_conj {d : ℕ} {A B : NpMat ℝ} (h : A ≈ B) (hr : B.rows = d) (hc : B.cols = d) : A ≈ conj (eye d) (blockDiag [B]) :=
  h.trans ((conj_eye _ hr hc).symm.trans (conj_congr (blockDiag_single B).symm hr.symm hc.symm))

/-- **C79** `O3._restrict_irrep` to `(True, 'so3')`: O(3) itself. -/
theorem C79_o3_self (haq : AsQuat aq) (ico octa : RotGroup) {adj : Elem} (hadj : O3El adj) (hW : l ≠ 0 → Wigner l (W l)) :
    ∃ P C, subgroup aq ico octa (.sub true (.str "so3")) adj = .ok ⟨Elem, O3El, combine aq, P, C⟩ ∧
      IsRestriction (2 * l + 1) (irrepMat W j l) O3El P (restrictSelf W j l adj).1
        (fun h => (restrictSelf W j l adj).2.map fun i => irrepMat W i.1 i.2 h) := by
  obtain ⟨P, C, h1, h2⟩ := C76_self haq ico octa hadj
  have hR := (C79_o3_rep (j := j) hW).2
  refine ⟨P, C, h1, adj_restriction hW hadj h2 rfl (eye_isOrtho _) (fun h q hh hq hr => ?_) (fun h hh => ?_)⟩
  · exact single_conj (hR.ext identity_el identity_act hq hh hr) (hR.rows h hh) (hR.cols h hh)
  · exact single_size (hR.rows h hh) (hR.cols h hh)

/-- **C79** `O3._restrict_irrep` to `(False, 'so3')`: the rotations. -/
theorem C79_o3_so3 (haq : AsQuat aq) (ico octa : RotGroup) {adj : Elem} (hadj : O3El adj) (hW : l ≠ 0 → Wigner l (W l)) :
    ∃ P C, subgroup aq ico octa (.sub false (.str "so3")) adj = .ok ⟨UQuat, fun q => normSq q = 1, SO3.combine aq, P, C⟩ ∧
      IsRestriction (2 * l + 1) (irrepMat W j l) (fun q => normSq q = 1) P (restrictSO3 W j l adj).1
        (fun h => (restrictSO3 W j l adj).2.map fun i => SO3.irrepMat W i h) := by
  obtain ⟨P, C, h1, h2, -⟩ := C76_so3 haq ico octa hadj
  have hD := SO3.irrepMat_wigner hW
  refine ⟨P, C, h1, adj_restriction hW hadj h2 rfl (eye_isOrtho _) (fun h q hh hq hr => ?_) (fun h hh => ?_)⟩
  · obtain ⟨h3, h4⟩ := act_rot hq (rotOf_det hh) hr
    exact single_conj ((irrepMat_rot hW hq h3).trans (hD.ext _ _ hq.2 hh h4)) (hD.rows h hh) (hD.cols h hh)
  · exact single_size (hD.rows h hh) (hD.cols h hh)

/-- **C79** `O3._restrict_irrep` to `(True, False, 1)`: the inversion. -/
theorem C79_o3_inversion (ico octa : RotGroup) {adj : Elem} (hadj : O3El adj) (hW : l ≠ 0 → Wigner l (W l)) (hj : j ≤ 1) :
    (∀ f ∈ (restrictInv W j l adj).2, f ≤ 2 / 2) ∧
    ∃ P C, subgroup aq ico octa (.sub true (.pair false 1)) adj =
        .ok ⟨ℤ, fun e => Cyclic.isElement 2 e = true, Cyclic.combine 2, P, C⟩ ∧
      IsRestriction (2 * l + 1) (irrepMat W j l) (fun e => Cyclic.isElement 2 e = true) P (restrictInv W j l adj).1
        (fun h => (restrictInv W j l adj).2.map fun f => Cyclic.irrepMat 2 f h) := by
  refine ⟨fun f hf => by have := List.eq_of_mem_replicate hf; omega, ?_⟩
  obtain ⟨P, C, h1, h2, -⟩ := C76_inversion (aq := aq) ico octa hadj
  have hD := SO3.irrepMat_wigner hW
  have hR := SO3.wigner_rep hD
  have hv : ∀ h : ℤ, h = 0 ∨ h = 1 → Cyclic.irrepMat 2 j h ≈ of1 (((-1 : ℝ) ^ h.toNat) ^ j) := by
    intro h hh
    rcases (show j = 0 ∨ j = 1 by omega) with rfl | rfl
    · rw [Cyclic.irrepMat, if_pos rfl, pow_zero]; exact of1_eye.symm
    · rw [Cyclic.irrepMat, if_neg one_ne_zero, if_pos (by decide), pow_one]
      rcases hh with rfl | rfl
      · simp [Cyclic.radians]; rfl
      · have : ((1 : ℕ) : ℝ) * Cyclic.radians 2 1 = π := by rw [Cyclic.radians]; push_cast; field_simp
        rw [this]; simp; rfl
  have hb : ∀ h : ℤ, h = 0 ∨ h = 1 → blockDiag ((List.replicate (2 * l + 1) j).map fun f => Cyclic.irrepMat 2 f h) ≈
      ⟨2 * l + 1, 2 * l + 1, fun a b => if a = b then ((-1 : ℝ) ^ h.toNat) ^ j else 0⟩ := by
    intro h hh
    generalize 2 * l + 1 = n
    induction n with
    | zero => exact ⟨rfl, rfl, fun a b ha => absurd ha (Nat.not_lt_zero a)⟩
    | succ n ih =>
      rw [List.replicate_succ, List.map_cons]
      refine (diag2_congr (hv h hh) ih).trans ⟨by simp [of1, add_comm], by simp [of1, add_comm], fun a b ha hb => ?_⟩
      change (if a < 1 then if b < 1 then ((-1 : ℝ) ^ h.toNat) ^ j else 0 else if b < 1 then 0 else
        if a - 1 = b - 1 then ((-1 : ℝ) ^ h.toNat) ^ j else 0) = if a = b then ((-1 : ℝ) ^ h.toNat) ^ j else 0
      split_ifs <;> first | rfl | omega
  refine ⟨P, C, h1, adj_restriction hW hadj h2 rfl (eye_isOrtho _) (fun h q hh hq hr => ?_) (fun h hh => ?_)⟩
  · have hh' := isElement_two.1 hh
    obtain ⟨h3, h4⟩ := act_split hq hh' (by simp) hr
    have e1 := hR.one q.2 hq.2 h4
    have e2 : irrepMat W j l q ≈ ⟨2 * l + 1, 2 * l + 1, fun a b => if a = b then ((-1 : ℝ) ^ h.toNat) ^ j else 0⟩ := by
      refine (irrepMat_eq hW hq).trans ⟨rfl, rfl, fun a b ha hb => ?_⟩
      change _ * _ = if _ then _ else _
      rw [e1.2.2 a b (by rw [hD.rows _ hq.2]; exact ha) (by rw [hD.cols _ hq.2]; exact hb)]
      have e3 : invAction j q = ((-1 : ℝ) ^ h.toNat) ^ j := by
        rcases hh' with rfl | rfl
        · rw [invAction_zero h3]; simp
        · rw [invAction_one h3]; simp
      rw [e3]; simp [eye]
    refine e2.trans ((conj_eye _ rfl rfl).symm.trans (conj_congr (hb h hh').symm rfl rfl))
  · have hh' := isElement_two.1 hh
    exact ⟨(hb h hh').1, (hb h hh').2.1⟩

/-- The chain through `(False, 'so3')`. -/
theorem via_restriction {H I : Type} (hW : l ≠ 0 → Wigner l (W l)) {adj : Elem} (hadj : O3El adj)
    {ElH : H → Prop} {eqH : H → H → Prop} {mulH : H → H → H} {R : H → Mat3} {P : H → Except Err Elem} {C}
    (hP : RealisesAs O3El act3 ElH eqH mulH (act3 adj) R P C) (hdet : ∀ h, ElH h → (R h).det = 1)
    {Q : NpMat ℝ} {L : List I} {σ : H → I → NpMat ℝ} {sub : ℕ → Except Err (NpMat ℝ × List I)} (hsub : sub l = .ok (Q, L))
    (hc : Core3 (2 * l + 1) (SO3.irrepMat W l) ElH R Q fun h => L.map (σ h)) :
    ∃ Q', restrictVia W j l adj sub = .ok (Q', L) ∧
      IsRestriction (2 * l + 1) (irrepMat W j l) ElH P Q' fun h => L.map (σ h) := by
  have hi := (C79_o3_rep (j := j) hW).2.one identity identity_el identity_act
  have hir := (C79_o3_rep (j := j) hW).2.rows identity identity_el
  have e0 : withAdj W j l identity (eye (2 * l + 1)) ≈ eye (2 * l + 1) := by
    refine (mul_congr ((transpose_congr hi).trans (transpose_eye _)) (Eqv.refl _) (by simp [hir])).trans ?_
    exact eye_mul (eye (2 * l + 1))
  have e1 : mul (withAdj W j l identity (eye (2 * l + 1))) (blockDiag [Q]) ≈ Q := by
    have hq := blockDiag_single Q
    refine (mul_congr e0 hq (by rw [e0.2.1, hq.1, hc.rows]; rfl)).trans ?_
    have := eye_mul Q
    rwa [hc.rows] at this
  have ho : IsOrtho (mul (withAdj W j l identity (eye (2 * l + 1))) (blockDiag [Q])) := by
    refine mul_isOrtho (mul_isOrtho (isOrtho_transpose' ((C79_o3_rep (j := j) hW).2.ortho identity identity_el)) (eye_isOrtho _)
      (by simp [hir])) (blockDiag_isOrtho' [Q] (fun A => A) (by simpa using hc.ortho)) ?_
    rw [(blockDiag_single Q).1, hc.rows]; rfl
  refine ⟨withAdj W j l adj (mul (withAdj W j l identity (eye (2 * l + 1))) (blockDiag [Q])), ?_, ?_⟩
  · have hm := mapM_map_ok (f := sub) (g := fun _ => (Q, L)) [l] (by simpa using hsub)
    have e : restrictVia W j l adj sub = ([l].mapM sub).bind fun blocks =>
      .ok (withAdj W j l adj (mul (withAdj W j l identity (eye (2 * l + 1))) (joinBlocks blocks).1), (joinBlocks blocks).2) := rfl
    rw [e, hm]
    simp [Except.bind, joinBlocks]
  · refine adj_restriction hW hadj hP (e1.1.trans hc.rows) ho (fun h q hh hq hr => ?_) hc.size
    obtain ⟨h3, h4⟩ := act_rot hq (hdet h hh) hr
    refine (irrepMat_rot hW hq h3).trans ((hc.core h q.2 hh hq.2 h4).trans (conj_congr_left e1.symm ?_ ?_))
    · rw [hc.cols, (hc.size h hh).1]
    · rw [hc.cols, (hc.size h hh).2]

theorem rotZ_det (θ : ℝ) : (rotZ θ).det = 1 := by simpa using rotZ_flip_det θ 0

/-- **C79** `O3._restrict_irrep` to `(False, False, -1)`: the rotations around an axis. -/
theorem C79_o3_so2 (haq : AsQuat aq) (ico octa : RotGroup) {adj : Elem} (hadj : O3El adj) (hW : l ≠ 0 → Wigner l (W l)) :
    ∃ P C Q L, subgroup aq ico octa (.sub false (.pair false (-1))) adj = .ok ⟨ℝ, SO2.IsElement, SO2.combine, P, C⟩ ∧
      restrictSO2 W j l adj = .ok (Q, L) ∧
      IsRestriction (2 * l + 1) (irrepMat W j l) SO2.IsElement P Q (fun h => L.map fun k => SO2.irrepMat k h) := by
  obtain ⟨P, C, h1, h2, -⟩ := C76_so2 haq ico octa hadj
  have hD := SO3.irrepMat_wigner hW
  have hc := (SO3.so2_core3 hD SO2.IsElement rotZ (fun θ => θ) (fun _ _ => rfl)).id hD
  obtain ⟨Q', h3, h4⟩ := via_restriction (j := j) hW hadj h2 (fun h _ => rotZ_det h)
    (sub := fun l => .ok (SO3.restrictSO2 W l SO3.identity)) rfl hc
  exact ⟨P, C, Q', _, h1, h3, h4⟩

/-- **C79** `O3._restrict_irrep` to `(False, True, -1)`: the rotations around an axis and the flips. -/
theorem C79_o3_o2 (haq : AsQuat aq) (ico octa : RotGroup) {adj : Elem} (hadj : O3El adj) (hW : l ≠ 0 → Wigner l (W l)) :
    ∃ P C Q L, subgroup aq ico octa (.sub false (.pair true (-1))) adj = .ok ⟨O2.Elem, O2.IsElement, O2.combine, P, C⟩ ∧
      restrictO2 W j l adj = .ok (Q, L) ∧ (∀ i ∈ L, O2.irrepOk i.1 i.2 = true) ∧
      IsRestriction (2 * l + 1) (irrepMat W j l) O2.IsElement P Q (fun h => L.map fun i => O2.irrepMat i.1 i.2 h) := by
  obtain ⟨P, C, h1, h2, -⟩ := C76_o2 haq ico octa hadj
  have hD := SO3.irrepMat_wigner hW
  have hc := (SO3.o2_core3 hD O2.IsElement (fun e => rotZ e.2 * flipX ^ e.1.toNat) (fun e => e) (fun _ h => h.1) (fun _ _ => rfl)).id hD
  obtain ⟨Q', h3, h4⟩ := via_restriction (j := j) hW hadj h2 (fun h _ => rotZ_flip_det _ _)
    (sub := fun l => .ok (SO3.restrictO2 W l SO3.identity)) rfl hc
  exact ⟨P, C, Q', _, h1, h3, (SO3.C79_so3_o2 haq ico octa SO3.id_unit hW).1, h4⟩

/-- **C79** `O3._restrict_irrep` to `(False, False, n)`: the cyclic groups. -/
theorem C79_o3_cyclic (haq : AsQuat aq) (ico octa : RotGroup) {adj : Elem} (hadj : O3El adj) (hW : l ≠ 0 → Wigner l (W l))
    (n : ℕ) (hn : 0 < n) :
    ∃ P C Q L, subgroup aq ico octa (.sub false (.pair false n)) adj =
        .ok ⟨ℤ, fun e => Cyclic.isElement n e = true, Cyclic.combine n, P, C⟩ ∧
      restrictCyc W j l n adj = .ok (Q, L) ∧ (∀ f ∈ L, f ≤ n / 2) ∧
      IsRestriction (2 * l + 1) (irrepMat W j l) (fun e => Cyclic.isElement n e = true) P Q
        (fun h => L.map fun f => Cyclic.irrepMat n f h) := by
  obtain ⟨P, C, h1, h2, -⟩ := C76_cyclic haq ico octa hadj n hn
  have hD := SO3.irrepMat_wigner hW
  obtain ⟨Q, L, h5, -, h6, hc⟩ := SO3.cyc_core3 hD n hn
  obtain ⟨Q', h3, h4⟩ := via_restriction (j := j) hW hadj h2 (fun h _ => rotZ_det _)
    (sub := fun l => SO3.restrictCyc W l n SO3.identity) h5 (hc.id hD)
  exact ⟨P, C, Q', L, h1, h3, h6, h4⟩

/-- **C79** `O3._restrict_irrep` to `(False, True, n)`: the dihedral groups. -/
theorem C79_o3_dihedral (haq : AsQuat aq) (ico octa : RotGroup) {adj : Elem} (hadj : O3El adj) (hW : l ≠ 0 → Wigner l (W l))
    (n : ℕ) (hn : 1 < n) :
    ∃ P C Q L, subgroup aq ico octa (.sub false (.pair true n)) adj =
        .ok ⟨Dihedral.Elem, fun e => Dihedral.isElement n e = true, Dihedral.combine n, P, C⟩ ∧
      restrictDih W j l n adj = .ok (Q, L) ∧ (∀ i ∈ L, Dihedral.irrepOk n i.1 i.2 = true) ∧
      IsRestriction (2 * l + 1) (irrepMat W j l) (fun e => Dihedral.isElement n e = true) P Q
        (fun h => L.map fun i => Dihedral.irrepMat n i.1 i.2 h) := by
  obtain ⟨P, C, h1, h2, -⟩ := C76_dihedral haq ico octa hadj n hn
  have hD := SO3.irrepMat_wigner hW
  obtain ⟨Q, L, h5, h6, hc⟩ := SO3.dih_core3 hD n (by omega)
  obtain ⟨Q', h3, h4⟩ := via_restriction (j := j) hW hadj h2 (fun h _ => rotZ_flip_det _ _)
    (sub := fun l => .ok (SO3.restrictDih W l n SO3.identity)) (by rw [h5]) (hc.id hD)
  exact ⟨P, C, Q', L, h1, h3, h6, h4⟩

theorem mirrorY_eq (θ : ℝ) : rotZ θ * mirrorY ^ (1 : ℤ).toNat = (-1 : ℝ) ^ (1 : ℤ).toNat • (rotZ θ * flipY) := by
  ext a b; fin_cases a <;> fin_cases b <;> simp [rotZ, mirrorY, flipY, Matrix.mul_apply, Fin.sum_univ_three]

theorem flipY_det (θ : ℝ) : (rotZ θ * flipY).det = 1 := by
  rw [Matrix.det_mul, rotZ_det, Matrix.det_fin_three]; simp [flipY]

/-- **C79** `O3._restrict_irrep` to `('cone', -1)`: the rotations around an axis and the reflections in the planes which contain
it. -/
theorem C79_o3_cone (haq : AsQuat aq) (ico octa : RotGroup) {adj : Elem} (hadj : O3El adj) (hW : l ≠ 0 → Wigner l (W l)) :
    (∀ i ∈ (restrictCone W j l adj).2, O2.irrepOk i.1 i.2 = true) ∧
    ∃ P C, subgroup aq ico octa (.cone (-1)) adj = .ok ⟨O2.Elem, O2.IsElement, O2.combine, P, C⟩ ∧
      IsRestriction (2 * l + 1) (irrepMat W j l) O2.IsElement P (restrictCone W j l adj).1
        (fun h => (restrictCone W j l adj).2.map fun i => O2.irrepMat i.1 i.2 h) := by
  classical
  refine ⟨fun i hi => ?_, ?_⟩
  · rcases List.mem_append.1 hi with h | h
    · rw [List.mem_singleton.1 h]
      rcases Nat.mod_two_eq_zero_or_one (l + j) with h | h <;> rw [h] <;> rfl
    · obtain ⟨f, _, rfl⟩ := List.mem_map.1 h
      simp [O2.irrepOk]
  obtain ⟨P, C, h1, h2, -⟩ := C76_cone haq ico octa hadj
  have hD := SO3.irrepMat_wigner hW
  have hs := coneCob_sperm j l
  refine ⟨P, C, h1, adj_restriction hW hadj h2 hs.rows hs.ortho (fun h q hh hq hr => ?_) (fun h hh => SO3.o2_blocks_size l (l + j) h)⟩
  obtain ⟨f, θ⟩ := h
  rcases hh.1 with hf | hf
  · change f = 0 at hf
    subst hf
    obtain ⟨h3, h4⟩ := act_rot hq (rotZ_det θ) (by simpa using hr)
    refine (irrepMat_rot hW hq h3).trans ((hD.z' hq.2 h4).trans ((cob_conj (u := -1) (by ring) hs θ 0 (fun _ => 1)
      (fun F _ _ _ => ⟨rfl, by simp [sgnR]⟩) (fun F _ _ _ => ⟨rfl, by simp [sgnR]⟩)).trans ?_))
    have hb := o2_blocks l (l + j) (0, θ)
    rw [show (if (l + j) % 2 = 0 then (1 : ℝ) else sgnR ((0, θ) : O2.Elem).1) = 1 by simp [sgnR]] at hb
    exact conj_congr' hb hs.cols (pairs_size l _ _ _).1 (pairs_size l _ _ _).2
  · change f = 1 at hf
    subst hf
    obtain ⟨h3, h4⟩ := act_split hq (.inr rfl) (flipY_det θ) (hr.trans (mirrorY_eq θ))
    have e1 := hD.zy hq.2 h4
    have e2 : irrepMat W j l q ≈ ⟨2 * l + 1, 2 * l + 1, fun i k => (zRot l θ).get i k * (ySign l k * (-1) ^ j)⟩ := by
      refine (irrepMat_eq hW hq).trans ⟨rfl, rfl, fun a b ha hb => ?_⟩
      change _ * _ = _ * (_ * _)
      rw [e1.2.2 a b (by rw [hD.rows _ hq.2]; exact ha) (by rw [hD.cols _ hq.2]; exact hb), invAction_one h3]
      change _ * _ * _ = _
      ring
    refine e2.trans ((cob_conj (u := -1) (by ring) hs θ 1 (fun k => ySign l k * (-1) ^ j)
      (fun F h0 hF ht => ?_) (fun F h0 hF ht => ?_)).trans ?_)
    · rw [ySign, ySign, if_neg (by omega), if_pos (by omega)]
      rcases neg_one_parity l with h1 | h1 <;> rcases neg_one_parity j with h2 | h2 <;>
        first | omega | (rw [h1.2, h2.2]; norm_num [sgnR])
    · rw [ySign, ySign, if_pos (by omega), if_neg (by omega)]
      rcases neg_one_parity l with h1 | h1 <;> rcases neg_one_parity j with h2 | h2 <;>
        first | omega | (rw [h1.2, h2.2]; norm_num [sgnR])
    · have hb := o2_blocks l (l + j) (1, θ)
      rw [show (if (l + j) % 2 = 0 then (1 : ℝ) else sgnR ((1, θ) : O2.Elem).1) = ySign l l * (-1) ^ j by
        rw [ySign, if_pos le_rfl, ← pow_add]
        rcases neg_one_parity (l + j) with h1 | h1
        · rw [h1.1, h1.2]; simp
        · rw [h1.1, h1.2]; simp [sgnR]] at hb
      exact conj_congr' hb hs.cols (pairs_size l _ _ _).1 (pairs_size l _ _ _).2

/-- **C79** `O3.standard_representation()` is the matrix of the element. -/
theorem C79_o3_standard (hW : Wigner 1 (W 1)) {e : Elem} (he : O3El e) :
    standardMat W e ≈ ⟨3, 3, fun i j => act3 e (Fin.ofNat 3 i) (Fin.ofNat 3 j)⟩ := by
  have hs : invAction 1 e = (-1 : ℝ) ^ e.1.toNat := by
    rcases he.1 with h | h
    · rw [invAction_zero h, h]; simp
    · rw [invAction_one h, h]; simp
  have h0 := hW.one rfl e.2 he.2
  have h1 : irrepMat W 1 1 e ≈ ⟨3, 3, fun i k => act3 e (harmonicAxis i) (harmonicAxis k)⟩ := by
    refine (irrepMat_eq (fun _ => hW) he).trans ⟨rfl, rfl, fun a b ha hb => ?_⟩
    change _ * _ = _
    rw [SO3.irrepMat, if_neg one_ne_zero, h0.2.2 a b (by rw [hW.rows _ he.2]; exact ha) (by rw [hW.cols _ he.2]; exact hb), hs, act3]
    simp [mul_comm]
  have h2 := mul_congr (mul_congr (Eqv.refl SO3.standardCob) h1 h1.1.symm) (Eqv.refl (transpose SO3.standardCob)) h1.2.1
  refine Eqv.trans h2 ⟨rfl, rfl, fun i j hi hj => ?_⟩
  change i < 3 at hi
  change j < 3 at hj
  interval_cases i <;> interval_cases j <;>
    simp [NpMat.mul, NpMat.transpose, SO3.standardCob, Finset.sum_range_succ, harmonicAxis, Fin.ofNat]

/-! ### Examples -/

/-- The contract for the Wigner D matrices is met by concrete matrices in the degrees one and two. -/
example : Wigner 1 (wignerUpTo2 1) ∧ Wigner 2 (wignerUpTo2 2) :=
  ⟨wignerUpTo2_ok (by decide) (by decide), wignerUpTo2_ok (by decide) (by decide)⟩

/-- The hypotheses of the restrictions: degree two, an adjoint which moves the axis and inverts, an angle. -/
example (ico octa : RotGroup) : ∃ P C Q L, subgroup (fun q => q) ico octa (.sub false (.pair false (4 : ℕ)))
      (1, quat (1/2) (1/2) (1/2) (1/2)) = .ok ⟨ℤ, fun e => Cyclic.isElement 4 e = true, Cyclic.combine 4, P, C⟩ ∧
    restrictCyc wignerUpTo2 1 2 4 (1, quat (1/2) (1/2) (1/2) (1/2)) = .ok (Q, L) ∧ (∀ f ∈ L, f ≤ 4 / 2) ∧
    IsRestriction (2 * 2 + 1) (irrepMat wignerUpTo2 1 2) (fun e => Cyclic.isElement 4 e = true) P Q
      (fun h => L.map fun f => Cyclic.irrepMat 4 f h) :=
  C79_o3_cyclic (fun _ => .inl rfl) ico octa ⟨.inr rfl, by rw [SO3.normSq_quat]; norm_num⟩
    (fun h => wignerUpTo2_ok h le_rfl) 4 (by norm_num)

end O3

end Escnn
