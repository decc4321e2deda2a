import Verif.Lemmas.Irreps3
import Verif.Lemmas.Planar

/-!
# The values of the irreps of SO(3) and O(3) on the rotations around an axis, the flips and the reflections
-/

namespace Escnn

open Real NpMat Quaternion
open scoped Matrix

theorem conj_congr_left {Q Q' X : NpMat ℝ} (h : Q ≈ Q') (hq : Q.cols = X.rows) (hx : X.cols = Q.cols) : conj Q X ≈ conj Q' X :=
  mul_congr (mul_congr h (Eqv.refl _) hq) (transpose_congr h) hx

theorem mapM_map_ok {α β : Type} {f : α → Except Err β} {g : α → β} (L : List α) (h : ∀ a ∈ L, f a = .ok (g a)) :
    L.mapM f = .ok (L.map g) := by
  induction L with
  | nil => rfl
  | cons a L ih =>
    rw [List.mapM_cons, h a (List.mem_cons_self ..), ih fun b hb => h b (List.mem_cons_of_mem _ hb)]
    rfl

theorem zRot_add_pi (l i k : ℕ) (θ : ℝ) (hi : i ≤ 2 * l) (hk : k ≤ 2 * l) :
    (zRot l (θ + π)).get i k = (zRot l θ).get i k * (-1) ^ (l + k) := by
  have hz : ∀ n : ℤ, cos (n * (θ + π)) = cos (n * θ) * (-1) ^ n ∧ sin (n * (θ + π)) = sin (n * θ) * (-1) ^ n := by
    intro n
    constructor
    · rw [mul_add, cos_add, Real.cos_int_mul_pi, Real.sin_int_mul_pi]; ring
    · rw [mul_add, sin_add, Real.cos_int_mul_pi, Real.sin_int_mul_pi]; ring
  have hpow : ∀ n : ℤ, (n % 2 = ((l + k : ℕ) : ℤ) % 2) → ((-1 : ℝ)) ^ n = (-1) ^ (l + k) := by
    intro n hn
    rcases Int.emod_two_eq_zero_or_one n with h | h
    · rw [(Int.even_iff.2 h).neg_one_zpow, (Nat.even_iff.2 (by omega)).neg_one_pow]
    · rw [(Int.odd_iff.2 h).neg_one_zpow, (Nat.odd_iff.2 (by omega)).neg_one_pow]
  have hc : ((l : ℝ) - i) = (((l : ℤ) - i : ℤ) : ℝ) := by push_cast; ring
  rw [zRot_get, zRot_get, hc]
  by_cases h : i = k
  · rw [if_pos h, if_pos h, (hz _).1, hpow]
    omega
  · rw [if_neg h, if_neg h]
    by_cases h' : i + k = 2 * l
    · rw [if_pos h', if_pos h', (hz _).2, hpow]
      omega
    · rw [if_neg h', if_neg h', zero_mul]

theorem flipX_eq : flipX = rotZ π * flipY := by
  ext i j; fin_cases i <;> fin_cases j <;> simp [flipX, rotZ, flipY, Matrix.mul_apply, Fin.sum_univ_three]

theorem rotOf_flipY : rotOf (quat 0 1 0 0) = flipY := by
  ext i j; fin_cases i <;> fin_cases j <;> simp [rotOf, quat, flipY]

theorem unit_flipY : normSq (quat 0 1 0 0) = 1 := by rw [SO3.normSq_quat]; norm_num

/-- The value of the harmonics' sign under `yTurn`. -/
noncomputable def ySign (l k : ℕ) : ℝ := if l ≤ k then (-1) ^ l else -(-1) ^ l

theorem Wigner.zy {l : ℕ} {D : ℍ[ℝ] → NpMat ℝ} (hD : Wigner l D) {q : UQuat} (hq : normSq q = 1) {θ : ℝ}
    (h : rotOf q = rotZ θ * flipY) :
    D q ≈ ⟨2 * l + 1, 2 * l + 1, fun i k => (zRot l θ).get i k * ySign l k⟩ := by
  have hz := SO3.unit_z (θ / 2)
  have hu : normSq (quat 0 0 (sin (θ / 2)) (cos (θ / 2)) * quat 0 1 0 0) = 1 := by rw [map_mul, hz, unit_flipY, one_mul]
  have hrz : rotOf (quat 0 0 (sin (θ / 2)) (cos (θ / 2))) = rotZ θ := rotOf_z θ
  have e1 := hD.ext q _ hq hu (by rw [h, rotOf_mul, rotOf_flipY, hrz])
  have e2 := hD.mul _ _ hz unit_flipY
  have e3 := mul_congr (hD.z _ θ hz hrz) (hD.y _ unit_flipY rotOf_flipY) (by rw [hD.cols _ hz, hD.rows _ unit_flipY])
  refine (e1.trans (e2.trans e3)).trans ⟨rfl, rfl, fun i k _ hk => ?_⟩
  change k < 2 * l + 1 at hk
  change ∑ a ∈ Finset.range (2 * l + 1), (zRot l θ).get i a * (yTurn l).get a k = _
  rw [Finset.sum_eq_single_of_mem k (Finset.mem_range.2 hk)]
  · simp [yTurn, ySign]
  · intro a _ ha
    simp [yTurn, ha]

theorem Wigner.z' {l : ℕ} {D : ℍ[ℝ] → NpMat ℝ} (hD : Wigner l D) {q : UQuat} (hq : normSq q = 1) {θ : ℝ} (h : rotOf q = rotZ θ) :
    D q ≈ ⟨2 * l + 1, 2 * l + 1, fun i k => (zRot l θ).get i k * 1⟩ :=
  (hD.z q θ hq h).trans ⟨rfl, rfl, fun i k _ _ => (mul_one _).symm⟩

theorem Wigner.zx {l : ℕ} {D : ℍ[ℝ] → NpMat ℝ} (hD : Wigner l D) {q : UQuat} (hq : normSq q = 1) {θ : ℝ}
    (h : rotOf q = rotZ θ * flipX) :
    D q ≈ ⟨2 * l + 1, 2 * l + 1, fun i k => (zRot l θ).get i k * ((-1) ^ (l + k) * ySign l k)⟩ := by
  refine (hD.zy hq (θ := θ + π) (by rw [h, flipX_eq, rotZ_add, Matrix.mul_assoc])).trans ⟨rfl, rfl, fun i k hi hk => ?_⟩
  change i < 2 * l + 1 at hi
  change k < 2 * l + 1 at hk
  change (zRot l (θ + π)).get i k * ySign l k = (zRot l θ).get i k * ((-1) ^ (l + k) * ySign l k)
  rw [zRot_add_pi l i k θ (by omega) (by omega)]; ring

theorem neg_one_parity (n : ℕ) : (n % 2 = 0 ∧ (-1 : ℝ) ^ n = 1) ∨ (n % 2 = 1 ∧ (-1 : ℝ) ^ n = -1) := by
  rcases Nat.mod_two_eq_zero_or_one n with h | h
  · exact .inl ⟨h, (Nat.even_iff.2 h).neg_one_pow⟩
  · exact .inr ⟨h, (Nat.odd_iff.2 h).neg_one_pow⟩

/-! ### Blocks of SO(2) and O(2) -/

theorem so2_blocks (l : ℕ) (θ : ℝ) : blockDiag ((List.range (l + 1)).map fun k => SO2.irrepMat k θ) ≈
    blockDiag (of1 1 :: (List.range l).map fun F => psichi θ 0 (F + 1)) := by
  rw [List.range_succ_eq_map, List.map_cons, List.map_map]
  refine diag2_congr ?_ (blockDiag_map_congr fun F _ => ?_)
  · simp only [SO2.irrepMat, if_true]; exact of1_eye.symm
  · simp only [Function.comp, SO2.irrepMat, Nat.succ_ne_zero, if_false]
    rw [psi_eq_psichi]

theorem o2_blocks (l j : ℕ) (e : O2.Elem) :
    blockDiag (([(j % 2, 0)] ++ (List.range l).map fun f => (1, f + 1)).map fun i : ℕ × ℕ => O2.irrepMat i.1 i.2 e) ≈
      blockDiag (of1 (if j % 2 = 0 then 1 else sgnR e.1) :: (List.range l).map fun F => psichi e.2 e.1 (F + 1)) := by
  rw [List.map_append, List.map_cons, List.map_nil, List.map_map]
  refine diag2_congr ?_ (blockDiag_map_congr fun F _ => ?_)
  · simp only [O2.irrepMat, if_true]
    split_ifs
    · exact of1_eye.symm
    · exact Eqv.refl _
  · simp only [Function.comp, O2.irrepMat, Nat.succ_ne_zero, one_ne_zero, if_false]
    exact Eqv.refl _

theorem pairs_size (l : ℕ) (c θ : ℝ) (s : ℤ) :
    (blockDiag (of1 c :: (List.range l).map fun F => psichi θ s (F + 1))).rows = 2 * l + 1 ∧
    (blockDiag (of1 c :: (List.range l).map fun F => psichi θ s (F + 1))).cols = 2 * l + 1 := by
  have hX := blockDiag_one_pairs (of1 c) ⟨rfl, rfl⟩ (fun F => psichi θ s (F + 1)) (fun _ => rfl) (fun _ => rfl) l
  exact ⟨hX.1, hX.2.1⟩

theorem conj_congr' {n : ℕ} {Q X X' : NpMat ℝ} (h : X ≈ X') (hQ : Q.cols = n) (hr : X'.rows = n) (hc : X'.cols = n) :
    conj Q X' ≈ conj Q X := conj_congr h.symm (by rw [hQ, hr]) (by rw [hQ, hc])

namespace SO3

variable {W : ℕ → UQuat → NpMat ℝ} {l : ℕ}

theorem irrepMat_wigner (hW : l ≠ 0 → Wigner l (W l)) : Wigner l (irrepMat W l) := by
  by_cases hl : l = 0
  · subst hl
    have e : irrepMat W 0 = fun _ => eye 1 := by funext q; simp [irrepMat]
    rw [e]
    refine ⟨fun _ _ => rfl, fun _ _ => rfl, fun _ _ _ _ _ => Eqv.refl _, fun _ _ _ _ => (eye_mul (eye 1)).symm,
      fun _ _ => eye_isOrtho 1, fun q θ _ _ => ⟨rfl, rfl, fun i k hi hk => ?_⟩, fun q _ _ => ⟨rfl, rfl, fun i k hi hk => ?_⟩,
      fun h => absurd h (by norm_num)⟩
    · obtain rfl : i = 0 := by change i < 1 at hi; omega
      obtain rfl : k = 0 := by change k < 1 at hk; omega
      simp [eye, zRot]
    · obtain rfl : i = 0 := by change i < 1 at hi; omega
      obtain rfl : k = 0 := by change k < 1 at hk; omega
      simp [eye, yTurn]
  · have e : irrepMat W l = W l := by funext q; simp [irrepMat, hl]
    rw [e]; exact hW hl

theorem wigner_rep {D : ℍ[ℝ] → NpMat ℝ} (hD : Wigner l D) : Rep3 (fun q : UQuat => normSq q = 1) rotOf (2 * l + 1) D := by
  refine ⟨hD.rows, hD.cols, hD.ortho, fun g hg h1 => ?_, fun g g' k hg hg' hk h => ?_⟩
  · refine (hD.z g 0 hg (by rw [h1]; ext i j; fin_cases i <;> fin_cases j <;> simp [rotZ])).trans ⟨rfl, rfl, fun i k _ _ => ?_⟩
    simp [zRot, eye]
  · exact (hD.ext k (g * g') hk (by rw [map_mul, hg, hg', one_mul]) (by rw [h, rotOf_mul])).trans (hD.mul g g' hg hg')

theorem comp_ok (g g' : UQuat) (hg : normSq g = 1) (hg' : normSq g' = 1) : ∃ k : UQuat, normSq k = 1 ∧ rotOf k = rotOf g * rotOf g' :=
  ⟨g * g', by rw [map_mul, hg, hg', one_mul], rotOf_mul g g'⟩

theorem inv_ok (g : UQuat) (hg : normSq g = 1) : ∃ k : UQuat, normSq k = 1 ∧ rotOf k = (rotOf g)ᵀ :=
  ⟨star g, by rw [normSq_star, hg], rotOf_star g⟩

theorem id_unit : normSq identity = 1 := by rw [identity, normSq_quat]; norm_num

theorem id_rot : rotOf identity = 1 := by
  ext i j; fin_cases i <;> fin_cases j <;> simp [identity, rotOf, quat]

/-- Adding the adjoint. -/
theorem adj_restriction {H : Type} {D : ℍ[ℝ] → NpMat ℝ} (hD : Wigner l D) {adj : UQuat} (hadj : normSq adj = 1)
    {ElH : H → Prop} {eqH : H → H → Prop} {mulH : H → H → H} {R : H → Mat3} {P : H → Except Err UQuat} {C}
    (hP : RealisesAs (fun e => normSq e = 1) rotOf ElH eqH mulH (rotOf adj) R P C)
    {Q : NpMat ℝ} (hQr : Q.rows = 2 * l + 1) (hQ : IsOrtho Q) {blocks : H → List (NpMat ℝ)}
    (hb : ∀ h q, ElH h → normSq q = 1 → rotOf q = R h → D q ≈ conj Q (blockDiag (blocks h)))
    (hbr : ∀ h, ElH h → (blockDiag (blocks h)).rows = 2 * l + 1 ∧ (blockDiag (blocks h)).cols = 2 * l + 1) :
    IsRestriction (2 * l + 1) D ElH P (mul (transpose (D adj)) Q) blocks :=
  restrict_adj (wigner_rep hD) id_unit id_rot (fun g hg => ⟨rotOf_orth hg, rotOf_orth' hg⟩) comp_ok inv_ok hadj hP.parent_ok hQr hQ hb hbr

theorem so2_core {D : ℍ[ℝ] → NpMat ℝ} (hD : Wigner l D) {q : UQuat} (hq : normSq q = 1) {θ : ℝ} (h : rotOf q = rotZ θ) :
    D q ≈ conj (so2Cob l) (blockDiag ((List.range (l + 1)).map fun k => SO2.irrepMat k θ)) := by
  have hs := so2Cob_sperm l
  refine (hD.z' hq h).trans ((cob_conj (u := 1) (by ring) hs θ 0 (fun _ => 1) (fun F _ _ hF => hF.elim)
    (fun F _ _ _ => ⟨rfl, by simp [sgnR]⟩)).trans ?_)
  exact conj_congr' (so2_blocks l θ) hs.cols (pairs_size l _ _ _).1 (pairs_size l _ _ _).2

open Classical in
theorem o2_core {D : ℍ[ℝ] → NpMat ℝ} (hD : Wigner l D) {q : UQuat} (hq : normSq q = 1) (e : O2.Elem) (he : e.1 = 0 ∨ e.1 = 1)
    (h : rotOf q = rotZ e.2 * flipX ^ e.1.toNat) :
    D q ≈ conj (o2Cob l) (blockDiag (([(l % 2, 0)] ++ (List.range l).map fun f => (1, f + 1)).map fun i : ℕ × ℕ => O2.irrepMat i.1 i.2 e)) := by
  have hs := o2Cob_sperm l
  obtain ⟨f, θ⟩ := e
  rcases he with rfl | rfl
  · refine (hD.z' hq (θ := θ) (by simpa using h)).trans ((cob_conj (u := 1) (by ring) hs θ 0 (fun _ => 1)
      (fun F _ _ _ => ⟨rfl, by simp [sgnR]⟩) (fun F _ _ _ => ⟨rfl, by simp [sgnR]⟩)).trans ?_)
    have hb := o2_blocks l l (0, θ)
    rw [show (if l % 2 = 0 then (1 : ℝ) else sgnR ((0, θ) : O2.Elem).1) = 1 by simp [sgnR]] at hb
    exact conj_congr' hb hs.cols (pairs_size l _ _ _).1 (pairs_size l _ _ _).2
  · refine (hD.zx hq (θ := θ) (by simpa using h)).trans ((cob_conj (u := 1) (by ring) hs θ 1
      (fun k => (-1) ^ (l + k) * ySign l k) (fun F h0 hF ht => ?_) (fun F h0 hF ht => ?_)).trans ?_)
    · rw [ySign, ySign, if_neg (by omega), if_pos (by omega)]
      rcases neg_one_parity l with h1 | h1 <;> rcases neg_one_parity (l + (l - F)) with h2 | h2 <;>
        rcases neg_one_parity (l + (l + F)) with h3 | h3 <;> first | omega | (rw [h1.2, h2.2, h3.2]; norm_num [sgnR])
    · rw [ySign, ySign, if_pos (by omega), if_neg (by omega)]
      rcases neg_one_parity l with h1 | h1 <;> rcases neg_one_parity (l + (l - F)) with h2 | h2 <;>
        rcases neg_one_parity (l + (l + F)) with h3 | h3 <;> first | omega | (rw [h1.2, h2.2, h3.2]; norm_num [sgnR])
    · have hb := o2_blocks l l (1, θ)
      rw [show (if l % 2 = 0 then (1 : ℝ) else sgnR ((1, θ) : O2.Elem).1) = (-1) ^ (l + l) * ySign l l by
        rw [ySign, if_pos le_rfl]
        rcases neg_one_parity l with h1 | h1
        · rw [h1.1, h1.2, pow_add, h1.2]; simp
        · rw [h1.1, h1.2, pow_add, h1.2]; simp [sgnR]] at hb
      exact conj_congr' hb hs.cols (pairs_size l _ _ _).1 (pairs_size l _ _ _).2

end SO3

end Escnn
