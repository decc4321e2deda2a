import Verif.Lemmas.SignedPerm
import Verif.Lemmas.MatAlg
import Verif.Lemmas.Regular
import Verif.Lemmas.SO3
import Verif.Lemmas.O3
import Verif.Spec.Wigner
import Verif.Props.C12_RestrictIrrep
import Verif.Props.C13_RestrictRep

/-!
# The irreps of SO(3) and O(3) and their restrictions
-/

namespace Escnn

open Real NpMat Quaternion
open scoped Matrix

/-! ### Conjugating the adjoint away -/

section Adj

variable {G H : Type} {El : G → Prop} {act : G → Mat3} {d : ℕ} {D : G → NpMat ℝ}

theorem Rep3.ext (hD : Rep3 El act d D) {e : G} (he : El e) (he1 : act e = 1) {g g' : G} (hg : El g) (hg' : El g')
    (h : act g = act g') : D g ≈ D g' := by
  refine (hD.hom g' e g hg' he hg (by rw [he1, mul_one, h])).trans ?_
  refine (mul_congr (Eqv.refl _) (hD.one e he he1) (by rw [hD.cols g' hg', hD.rows e he])).trans ?_
  have := mul_eye (D g')
  rwa [hD.cols g' hg'] at this

theorem ortho_inv_unique {n : ℕ} {A B : NpMat ℝ} (hA : IsOrtho A) (hn : A.rows = n) (hB : B.rows = n) (h : mul A B ≈ eye n) :
    B ≈ transpose A := by
  have hc : A.cols = n := by rw [← hA.1, hn]
  have e1 : mul (transpose A) (mul A B) ≈ B := by
    refine (mul_assoc' _ _ _).symm.trans ?_
    refine (mul_congr hA.2.2 (Eqv.refl _) (by simp [hc, hB])).trans ?_
    have := eye_mul B
    rwa [hB, ← hn] at this
  refine e1.symm.trans ((mul_congr (Eqv.refl _) h (by simp)).trans ?_)
  have := mul_eye (transpose A)
  rwa [transpose_cols, hn] at this

theorem Rep3.inv (hD : Rep3 El act d D) {e : G} (he : El e) (he1 : act e = 1) {g k : G} (hg : El g) (hk : El k)
    (h : act g * act k = 1) : D k ≈ transpose (D g) := by
  refine ortho_inv_unique (hD.ortho g hg) (hD.rows g hg) (hD.rows k hk) ?_
  exact (hD.hom g k e hg hk he (by rw [he1, h])).symm.trans (hD.one e he he1)

theorem isOrtho_transpose' {A : NpMat ℝ} (h : IsOrtho A) : IsOrtho (transpose A) := by
  refine ⟨h.1.symm, ?_, ?_⟩
  · have := h.2.2
    rw [h.1] at this
    exact this
  · have := h.2.1
    rw [h.1] at this
    exact this

/-- The restriction to a subgroup with an adjoint follows from the restriction without one. -/
theorem restrict_adj (hD : Rep3 El act d D) {e : G} (he : El e) (he1 : act e = 1)
    (horth : ∀ g, El g → act g * (act g)ᵀ = 1 ∧ (act g)ᵀ * act g = 1)
    (hcomp : ∀ g g', El g → El g' → ∃ k, El k ∧ act k = act g * act g')
    (hinv : ∀ g, El g → ∃ k, El k ∧ act k = (act g)ᵀ)
    {adj : G} (hadj : El adj) {ElH : H → Prop} {R : H → Mat3} {P : H → Except Err G}
    (hP : ∀ h, ElH h → ∃ g, P h = .ok g ∧ El g ∧ act g = (act adj)ᵀ * R h * act adj)
    {Q : NpMat ℝ} (hQr : Q.rows = d) (hQ : IsOrtho Q) {blocks : H → List (NpMat ℝ)}
    (hb : ∀ h q, ElH h → El q → act q = R h → D q ≈ conj Q (blockDiag (blocks h)))
    (hbr : ∀ h, ElH h → (blockDiag (blocks h)).rows = d ∧ (blockDiag (blocks h)).cols = d) :
    IsRestriction d D ElH P (mul (transpose (D adj)) Q) blocks := by
  have hQc : Q.cols = d := by rw [← hQ.1, hQr]
  refine ⟨by simp [hD.cols adj hadj], ?_, fun h hh => (hbr h hh).1, fun h hh => (hbr h hh).2, fun h g hh hp => ?_⟩
  · exact mul_isOrtho (isOrtho_transpose' (hD.ortho adj hadj)) hQ (by simp [hD.rows adj hadj, hQr])
  · obtain ⟨g', hg1, hg, hact⟩ := hP h hh
    obtain rfl : g' = g := by rw [hp] at hg1; injection hg1 with e; exact e.symm
    obtain ⟨o1, o2⟩ := horth adj hadj
    obtain ⟨ai, hai, hai'⟩ := hinv adj hadj
    obtain ⟨q1, hq1, hq1'⟩ := hcomp adj g' hadj hg
    obtain ⟨q, hq, hq'⟩ := hcomp q1 ai hq1 hai
    have hqR : act q = R h := by
      rw [hq', hq1', hai', hact]
      calc act adj * ((act adj)ᵀ * R h * act adj) * (act adj)ᵀ
          = (act adj * (act adj)ᵀ) * R h * (act adj * (act adj)ᵀ) := by simp only [Matrix.mul_assoc]
        _ = R h := by rw [o1]; simp
    obtain ⟨k, hk, hk'⟩ := hcomp ai q hai hq
    have e1 : D g' ≈ mul (D k) (D adj) := hD.hom k adj g' hk hadj hg (by rw [hk', hai', hqR, hact])
    have e2 : D k ≈ mul (D ai) (D q) := hD.hom ai q k hai hq hk hk'
    have e3 : D ai ≈ transpose (D adj) := hD.inv he he1 hadj hai (by rw [hai', o1])
    have hqr := hD.rows q hq
    have hqc := hD.cols q hq
    have e4 : D g' ≈ conj (transpose (D adj)) (D q) := by
      unfold conj
      refine e1.trans (mul_congr (e2.trans (mul_congr e3 (Eqv.refl _) ?_)) (Eqv.refl _) ?_)
      · rw [hD.cols ai hai, hqr]
      · rw [hD.cols k hk, hD.rows adj hadj]
    refine e4.trans ((conj_congr (hb h q hh hq hqR) ?_ ?_).trans (conj_mul _ _ _ ?_ ?_ ?_).symm)
    · simp [hD.rows adj hadj, hqr]
    · simp [hD.rows adj hadj, hqc]
    · simp [hD.rows adj hadj, hQr]
    · rw [hQc, (hbr h hh).1]
    · rw [hQc, (hbr h hh).2]

end Adj

/-! ### Restricting blocks further -/

theorem blockDiag_conj {α β : Type} (L : List α) (Q : α → NpMat ℝ) (B : α → List β) (g : β → NpMat ℝ)
    (h : ∀ a ∈ L, (Q a).cols = (blockDiag ((B a).map g)).rows ∧ (blockDiag ((B a).map g)).cols = (Q a).cols) :
    blockDiag (L.map fun a => conj (Q a) (blockDiag ((B a).map g))) ≈
      conj (blockDiag (L.map Q)) (blockDiag ((L.flatMap B).map g)) := by
  have h1 := blockDiag_conjBy (L.map fun a => (Q a, blockDiag ((B a).map g), transpose (Q a))) (by
    intro t ht
    obtain ⟨a, ha, rfl⟩ := List.mem_map.1 ht
    exact ⟨(h a ha).1, (h a ha).2⟩)
  simp only [List.map_map, Function.comp_def] at h1
  have h2 := blockDiag_flatMap L B g
  have ht := blockDiag_transpose (L.map Q)
  rw [List.map_map] at ht
  have s1 : (blockDiag (L.map Q)).cols = (blockDiag (L.map fun a => blockDiag ((B a).map g))).rows := by
    rw [blockDiag_cols, blockDiag_rows, List.map_map, List.map_map]
    exact congrArg _ (List.map_congr_left fun a ha => (h a ha).1)
  have s2 : (blockDiag (L.map Q)).cols = (blockDiag (L.map fun a => blockDiag ((B a).map g))).cols := by
    rw [blockDiag_cols, blockDiag_cols, List.map_map, List.map_map]
    exact congrArg _ (List.map_congr_left fun a ha => (h a ha).2.symm)
  refine (h1 : blockDiag (L.map fun a => conj (Q a) (blockDiag ((B a).map g))) ≈ _).trans ?_
  unfold conj conjBy
  exact mul_congr (mul_congr (Eqv.refl _) h2.symm s1) ht.symm (s2.symm.trans ht.1)

theorem blockDiag_isOrtho' {α : Type} (L : List α) (Q : α → NpMat ℝ) (h : ∀ a ∈ L, IsOrtho (Q a)) :
    IsOrtho (blockDiag (L.map Q)) := by
  induction L with
  | nil => exact ⟨rfl, ⟨rfl, rfl, fun i j hi => absurd hi (Nat.not_lt_zero i)⟩,
      ⟨rfl, rfl, fun i j hi => absurd hi (Nat.not_lt_zero i)⟩⟩
  | cons a L ih =>
    exact isOrtho_diag2 (h a (List.mem_cons_self ..)) (ih fun b hb => h b (List.mem_cons_of_mem _ hb))

/-! ### Rotations around the axis and flips in the basis of the harmonics -/

theorem zRot_get {l : ℕ} {θ : ℝ} (i k : ℕ) : (zRot l θ).get i k =
    if i = k then cos (((l : ℝ) - i) * θ) else if i + k = 2 * l then sin (((l : ℝ) - i) * θ) else 0 := rfl

theorem zRot_pp (l F : ℕ) (θ : ℝ) : (zRot l θ).get (l + F) (l + F) = cos (F * θ) := by
  rw [zRot_get, if_pos rfl, ← cos_neg]; congr 1; push_cast; ring

theorem zRot_mm {l F : ℕ} (h : F ≤ l) (θ : ℝ) : (zRot l θ).get (l - F) (l - F) = cos (F * θ) := by
  rw [zRot_get, if_pos rfl]; congr 1; push_cast [h]; ring

theorem zRot_mp {l F : ℕ} (h : F ≤ l) (h0 : 0 < F) (θ : ℝ) : (zRot l θ).get (l - F) (l + F) = sin (F * θ) := by
  rw [zRot_get, if_neg (by omega), if_pos (by omega)]; congr 1; push_cast [h]; ring

theorem zRot_pm {l F : ℕ} (h : F ≤ l) (h0 : 0 < F) (θ : ℝ) : (zRot l θ).get (l + F) (l - F) = -sin (F * θ) := by
  rw [zRot_get, if_neg (by omega), if_pos (by omega), ← sin_neg]; congr 1; push_cast; ring

theorem zRot_ne {l i k : ℕ} (h : i ≠ k) (h' : i + k ≠ 2 * l) (θ : ℝ) : (zRot l θ).get i k = 0 := by
  rw [zRot_get, if_neg h, if_neg h']

theorem cobτ_p {l F : ℕ} {t : ℕ → Prop} [Decidable (t F)] (h0 : 0 < F) :
    cobτ l t (l + F) = if t F then 2 * F else 2 * F - 1 := by
  rw [cobτ, if_neg (by omega), if_pos (by omega), show l + F - l = F by omega]
  split_ifs <;> rfl

theorem cobτ_m {l F : ℕ} {t : ℕ → Prop} [Decidable (t F)] (h0 : 0 < F) (h : F ≤ l) :
    cobτ l t (l - F) = if t F then 2 * F - 1 else 2 * F := by
  rw [cobτ, if_neg (by omega), if_neg (by omega), show l - (l - F) = F by omega]
  split_ifs <;> rfl

theorem cobs_odd {F : ℕ} {t : ℕ → Prop} {u : ℝ} [Decidable (t F)] (h0 : 0 < F) : cobs t u (2 * F - 1) = if t F then u else 1 := by
  rw [cobs, if_neg (by omega), show (2 * F - 1 + 1) / 2 = F by omega, if_pos (show (2 * F - 1) % 2 = 1 by omega)]
  split_ifs <;> rfl

theorem cobs_even {F : ℕ} {t : ℕ → Prop} {u : ℝ} [Decidable (t F)] (h0 : 0 < F) : cobs t u (2 * F) = if t F then -u else 1 := by
  rw [cobs, if_neg (by omega), show (2 * F + 1) / 2 = F by omega, if_neg (show ¬ (2 * F) % 2 = 1 by omega)]
  split_ifs <;> rfl

open Classical in
/-- A rotation by `θ` with the signs `ε` in the basis of the harmonics is the sum of the blocks. -/
theorem cob_conj {l : ℕ} {t : ℕ → Prop} {u : ℝ} (hu : u * u = 1) {Q : NpMat ℝ}
    (hQ : SPerm (2 * l + 1) Q (cobσ l t) (cobτ l t) (cobs t u)) (θ : ℝ) (f : ℤ) (ε : ℕ → ℝ)
    (ht : ∀ F, 0 < F → F ≤ l → t F → ε (l - F) = 1 ∧ ε (l + F) = sgnR f)
    (hn : ∀ F, 0 < F → F ≤ l → ¬ t F → ε (l + F) = 1 ∧ ε (l - F) = sgnR f) :
    (⟨2 * l + 1, 2 * l + 1, fun i k => (zRot l θ).get i k * ε k⟩ : NpMat ℝ) ≈
      conj Q (blockDiag (of1 (ε l) :: (List.range l).map fun F => psichi θ f (F + 1))) := by
  have hX := blockDiag_one_pairs (of1 (ε l)) ⟨rfl, rfl⟩ (fun F => psichi θ f (F + 1)) (fun _ => rfl) (fun _ => rfl) l
  refine Eqv.symm ((hQ.conj hX.1 hX.2.1).trans ⟨rfl, rfl, fun i k hi hk => ?_⟩)
  change i < 2 * l + 1 at hi
  change k < 2 * l + 1 at hk
  have hτ : ∀ i, i < 2 * l + 1 → cobτ l t i < 2 * l + 1 := hQ.τ_lt
  rw [show (⟨2 * l + 1, 2 * l + 1, fun i k => cobs t u (cobτ l t i) *
      (blockDiag (of1 (ε l) :: (List.range l).map fun F => psichi θ f (F + 1))).get (cobτ l t i) (cobτ l t k) *
      cobs t u (cobτ l t k)⟩ : NpMat ℝ).get i k = cobs t u (cobτ l t i) *
      (blockDiag (of1 (ε l) :: (List.range l).map fun F => psichi θ f (F + 1))).get (cobτ l t i) (cobτ l t k) *
      cobs t u (cobτ l t k) from rfl,
    hX.2.2 _ _ (by rw [hX.1]; exact hτ i hi) (by rw [hX.2.1]; exact hτ k hk)]
  change cobs t u (cobτ l t i) * (if cobτ l t i = 0 ∧ cobτ l t k = 0 then ε l else if cobτ l t i = 0 ∨ cobτ l t k = 0 then 0
    else if (cobτ l t i - 1) / 2 = (cobτ l t k - 1) / 2 then
      (psichi θ f ((cobτ l t i - 1) / 2 + 1)).get ((cobτ l t i - 1) % 2) ((cobτ l t k - 1) % 2) else 0) *
    cobs t u (cobτ l t k) = (zRot l θ).get i k * ε k
  have hcase : ∀ i, i < 2 * l + 1 → i = l ∨ ∃ F, 0 < F ∧ F ≤ l ∧ (i = l + F ∨ i = l - F) := by
    intro i hi
    rcases lt_trichotomy i l with h | h | h
    · exact .inr ⟨l - i, by omega, by omega, .inr (by omega)⟩
    · exact .inl h
    · exact .inr ⟨i - l, by omega, by omega, .inl (by omega)⟩
  have hτl : cobτ l t l = 0 := by rw [cobτ, if_pos rfl]
  have hs0 : cobs t u 0 = 1 := by rw [cobs, if_pos rfl]
  have hpos : ∀ i, i ≠ l → cobτ l t i ≠ 0 := by intro i hi; unfold cobτ; split_ifs <;> omega
  have hdiv : ∀ F, 0 < F → F ≤ l → (cobτ l t (l + F) - 1) / 2 = F - 1 ∧ (cobτ l t (l - F) - 1) / 2 = F - 1 := by
    intro F h0 h1
    rw [cobτ_p h0, cobτ_m h0 h1]
    split_ifs <;> omega
  rcases hcase i hi with rfl | ⟨F, hF0, hFl, hi'⟩
  · rcases hcase k hk with rfl | ⟨F', hF0', hFl', hk'⟩
    · rw [hτl, hs0]
      simp [zRot, of1]
    · have hkne : k ≠ i := by omega
      rw [hτl, if_neg (by have := hpos k hkne; tauto), if_pos (.inl rfl), zRot_ne (by omega) (by omega)]
      ring
  · rcases hcase k hk with rfl | ⟨F', hF0', hFl', hk'⟩
    · have hine : i ≠ k := by omega
      rw [hτl, if_neg (by have := hpos i hine; tauto), if_pos (.inr rfl), zRot_ne (by omega) (by omega)]
      ring
    · have hine : i ≠ l := by omega
      have hkne : k ≠ l := by omega
      rw [if_neg (by have := hpos i hine; tauto), if_neg (by have := hpos i hine; have := hpos k hkne; tauto)]
      by_cases hFF : F = F'
      · subst hFF
        obtain ⟨d1, d2⟩ := hdiv F hF0 hFl
        have hF1 : F - 1 + 1 = F := by omega
        have m1 : (2 * F - 1 - 1) % 2 = 0 := by omega
        have m2 : (2 * F - 1) % 2 = 1 := by omega
        by_cases htF : t F
        · obtain ⟨x1, x2⟩ := ht F hF0 hFl htF
          rcases hi' with rfl | rfl <;> rcases hk' with rfl | rfl
          · rw [if_pos rfl, d1, hF1, cobτ_p hF0, if_pos htF, cobs_even hF0, if_pos htF, m2, zRot_pp, x2]
            simp [psichi, of2]; linear_combination (sgnR f * cos (F * θ)) * hu
          · rw [if_pos (by rw [d1, d2]), d1, hF1, cobτ_p hF0, cobτ_m hF0 hFl, if_pos htF, if_pos htF, cobs_even hF0, cobs_odd hF0,
              if_pos htF, if_pos htF, m2, m1, zRot_pm hFl hF0, x1]
            simp [psichi, of2]; linear_combination (sin (F * θ)) * hu
          · rw [if_pos (by rw [d1, d2]), d2, hF1, cobτ_p hF0, cobτ_m hF0 hFl, if_pos htF, if_pos htF, cobs_even hF0, cobs_odd hF0,
              if_pos htF, if_pos htF, m2, m1, zRot_mp hFl hF0, x2]
            simp [psichi, of2]; linear_combination (sgnR f * sin (F * θ)) * hu
          · rw [if_pos rfl, d2, hF1, cobτ_m hF0 hFl, if_pos htF, cobs_odd hF0, if_pos htF, m1, zRot_mm hFl, x1]
            simp [psichi, of2]; linear_combination (cos (F * θ)) * hu
        · obtain ⟨x1, x2⟩ := hn F hF0 hFl htF
          rcases hi' with rfl | rfl <;> rcases hk' with rfl | rfl
          · rw [if_pos rfl, d1, hF1, cobτ_p hF0, if_neg htF, cobs_odd hF0, if_neg htF, m1, zRot_pp, x1]
            simp [psichi, of2]
          · rw [if_pos (by rw [d1, d2]), d1, hF1, cobτ_p hF0, cobτ_m hF0 hFl, if_neg htF, if_neg htF, cobs_even hF0, cobs_odd hF0,
              if_neg htF, if_neg htF, m2, m1, zRot_pm hFl hF0, x2]
            simp [psichi, of2]; ring
          · rw [if_pos (by rw [d1, d2]), d2, hF1, cobτ_p hF0, cobτ_m hF0 hFl, if_neg htF, if_neg htF, cobs_even hF0, cobs_odd hF0,
              if_neg htF, if_neg htF, m2, m1, zRot_mp hFl hF0, x1]
            simp [psichi, of2]
          · rw [if_pos rfl, d2, hF1, cobτ_m hF0 hFl, if_neg htF, cobs_even hF0, if_neg htF, m2, zRot_mm hFl, x2]
            simp [psichi, of2]; ring
      · obtain ⟨d1, d2⟩ := hdiv F hF0 hFl
        obtain ⟨d1', d2'⟩ := hdiv F' hF0' hFl'
        rw [if_neg, zRot_ne (by omega) (by omega)]
        · ring
        · rcases hi' with rfl | rfl <;> rcases hk' with rfl | rfl <;> omega

/-! ### The loops of `_restrict_irrep` -/

theorem step_get {l f : ℕ} (hf : f < l) {A : NpMat ℝ} (hA : ∀ i, A.get i (2 * f + 1) = 0 ∧ A.get i (2 * f + 2) = 0) (i j : ℕ) :
    (setEntry (setEntry A (l + f + 1) (2 * f + 1) 1) (l - f - 1) (2 * f + 2) 1).get i j =
      if j = 2 * f + 1 then (if i = l + f + 1 then 1 else 0) else if j = 2 * f + 2 then (if i = l - f - 1 then 1 else 0)
      else A.get i j := by
  simp only [setEntry]
  by_cases h1 : j = 2 * f + 1
  · subst h1
    rw [if_pos rfl, if_neg (by omega), (hA i).1]
    simp
  · rw [if_neg h1]
    by_cases h2 : j = 2 * f + 2
    · subst h2
      rw [if_pos rfl, if_neg (show ¬ (i = l + f + 1 ∧ 2 * f + 2 = 2 * f + 1) by omega), (hA i).2]
      simp
    · rw [if_neg h2, if_neg (by tauto), if_neg (by tauto)]

theorem turned_get {l f : ℕ} (hf : f < l) {A : NpMat ℝ} (hA : ∀ i, A.get i (2 * f + 1) = 0 ∧ A.get i (2 * f + 2) = 0) (u : ℝ)
    {B : NpMat ℝ} (h00 : B.get 0 0 = u) (h01 : B.get 0 1 = 0) (h10 : B.get 1 0 = 0) (h11 : B.get 1 1 = -u) (i j : ℕ) :
    (setRows (setEntry (setEntry A (l + f + 1) (2 * f + 1) 1) (l - f - 1) (2 * f + 2) 1) (l - f - 1) (l + f + 1) (2 * f + 1) B).get
      i j = if j = 2 * f + 1 then (if i = l - f - 1 then u else 0) else if j = 2 * f + 2 then (if i = l + f + 1 then -u else 0)
      else A.get i j := by
  have hs := step_get hf hA i j
  rw [show (setRows (setEntry (setEntry A (l + f + 1) (2 * f + 1) 1) (l - f - 1) (2 * f + 2) 1) (l - f - 1) (l + f + 1)
      (2 * f + 1) B).get i j = if 2 * f + 1 ≤ j ∧ j < 2 * f + 1 + 2 then (if i = l - f - 1 then B.get 0 (j - (2 * f + 1))
        else if i = l + f + 1 then B.get 1 (j - (2 * f + 1)) else
          (setEntry (setEntry A (l + f + 1) (2 * f + 1) 1) (l - f - 1) (2 * f + 2) 1).get i j)
      else (setEntry (setEntry A (l + f + 1) (2 * f + 1) 1) (l - f - 1) (2 * f + 2) 1).get i j from rfl, hs]
  by_cases h1 : j = 2 * f + 1
  · subst h1
    rw [if_pos (by omega), if_pos rfl, if_pos rfl, Nat.sub_self, h00, h10]
    split_ifs <;> rfl
  · by_cases h2 : j = 2 * f + 2
    · subst h2
      rw [if_pos (by omega), if_neg h1, if_pos rfl, if_neg h1, if_pos rfl,
        show 2 * f + 2 - (2 * f + 1) = 1 by omega, h01, h11]
      split_ifs <;> first | rfl | omega
    · rw [if_neg (by omega), if_neg h1, if_neg h2, if_neg h1, if_neg h2]

open Classical in
theorem fold_sperm {l : ℕ} (t : ℕ → Prop) {u : ℝ} (hu : u * u = 1) {step : NpMat ℝ → ℕ → NpMat ℝ}
    (hs : ∀ A f, f < l → (∀ i, A.get i (2 * f + 1) = 0 ∧ A.get i (2 * f + 2) = 0) →
      (step A f).rows = A.rows ∧ (step A f).cols = A.cols ∧
      ∀ i j, (step A f).get i j =
        if j = 2 * f + 1 then (if t (f + 1) then (if i = l - f - 1 then u else 0) else (if i = l + f + 1 then 1 else 0))
        else if j = 2 * f + 2 then (if t (f + 1) then (if i = l + f + 1 then -u else 0) else (if i = l - f - 1 then 1 else 0))
        else A.get i j) :
    SPerm (2 * l + 1) ((List.range l).foldl step (setEntry (zeros (2 * l + 1) (2 * l + 1)) l 0 1))
      (cobσ l t) (cobτ l t) (cobs t u) := by
  obtain ⟨h1, h2, h3⟩ := fold_cols (step := step)
    (c₁ := fun f i => if t (f + 1) then (if i = l - f - 1 then u else 0) else (if i = l + f + 1 then 1 else 0))
    (c₂ := fun f i => if t (f + 1) then (if i = l + f + 1 then -u else 0) else (if i = l - f - 1 then 1 else 0))
    (A₀ := setEntry (zeros (2 * l + 1) (2 * l + 1)) l 0 1) l hs
    (by intro i j hj; simp only [setEntry, zeros]; rw [if_neg (by omega)]) l le_rfl
  refine cob_sperm hu (h1.trans rfl) (h2.trans rfl) fun i j hi hj => ?_
  rw [h3]
  by_cases hj0 : j = 0
  · rw [if_pos hj0, cobσ, if_pos hj0, cobs, if_pos hj0]
    simp [setEntry, zeros]
  · rw [if_neg hj0, if_pos (by omega), cobσ, if_neg hj0, cobs, if_neg hj0]
    obtain ⟨F, hF⟩ : ∃ F, (j - 1) / 2 = F := ⟨_, rfl⟩
    have hF' : (j + 1) / 2 = F + 1 := by omega
    rw [hF, hF', show l - (F + 1) = l - F - 1 by omega, show l + (F + 1) = l + F + 1 by omega]
    by_cases ho : j % 2 = 1 <;> by_cases hT : t (F + 1)
    · simp only [if_pos ho, if_pos hT]
    · simp only [if_pos ho, if_neg hT]
    · simp only [if_neg ho, if_pos hT]
    · simp only [if_neg ho, if_neg hT]

namespace SO3

theorem so2Cob_sperm (l : ℕ) : SPerm (2 * l + 1) (so2Cob l) (cobσ l fun _ => False) (cobτ l fun _ => False)
    (cobs (fun _ => False) 1) := by
  refine fold_sperm _ (by ring) fun A f hf hA => ⟨rfl, rfl, fun i j => ?_⟩
  rw [step_get hf hA]
  simp only [if_neg not_false]

open Classical in
theorem o2Cob_sperm (l : ℕ) : SPerm (2 * l + 1) (o2Cob l) (cobσ l fun F => (l + F) % 2 = 1) (cobτ l fun F => (l + F) % 2 = 1)
    (cobs (fun F => (l + F) % 2 = 1) 1) := by
  refine fold_sperm _ (by ring) fun A f hf hA => ?_
  by_cases ht : (l + f) % 2 = 0
  · have ht' : (l + (f + 1)) % 2 = 1 := by omega
    rw [if_pos ht]
    refine ⟨rfl, rfl, fun i j => ?_⟩
    rw [turned_get hf hA 1, if_pos ht', if_pos ht']
    all_goals
      simp only [NpMat.mul, getRows, quarterTurn, of2, Finset.sum_range_succ, Finset.sum_range_zero, if_true, one_ne_zero, if_false,
        step_get hf hA]
      simp
      try omega
  · have ht' : ¬ (l + (f + 1)) % 2 = 1 := by omega
    rw [if_neg ht]
    refine ⟨rfl, rfl, fun i j => ?_⟩
    rw [step_get hf hA, if_neg ht', if_neg ht']

end SO3

namespace O3

open Classical in
theorem coneCob_sperm (j l : ℕ) : SPerm (2 * l + 1) (coneCob j l) (cobσ l fun _ => (l + j) % 2 = 1)
    (cobτ l fun _ => (l + j) % 2 = 1) (cobs (fun _ => (l + j) % 2 = 1) (-1)) := by
  refine fold_sperm _ (by ring) fun A f hf hA => ?_
  by_cases ht : (l + j) % 2 = 1
  · rw [if_pos ht]
    refine ⟨rfl, rfl, fun i j => ?_⟩
    rw [turned_get hf hA (-1), if_pos ht, if_pos ht]
    all_goals
      simp only [NpMat.mul, getRows, quarterTurn, of2, Finset.sum_range_succ, Finset.sum_range_zero, if_true, one_ne_zero, if_false,
        step_get hf hA]
      simp
      try omega
  · rw [if_neg ht]
    refine ⟨rfl, rfl, fun i j => ?_⟩
    rw [step_get hf hA, if_neg ht, if_neg ht]

end O3

end Escnn
