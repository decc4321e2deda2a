import Verif.Model.Upsampling
import Verif.Lemmas.Separable
import Mathlib.Algebra.Order.Floor.Semifield

/-!
# Interpolation and the action on the grid
-/

namespace Escnn

open NpMat NdArr

variable {n : ℕ} {B : Type}

/-- The weights of linear interpolation are a hat around the position, clamped to the axis. -/
theorem interpWeight_hat {W : ℕ} (hW : 0 < W) {src : ℝ} (h0 : 0 ≤ src) {k : ℕ} (hk : k < W) : interpWeight W src k = max 0 (1 - |min src ((W : ℝ) - 1) - k|) := by
  have hW' : ((W - 1 : ℕ) : ℝ) = (W : ℝ) - 1 := by rw [Nat.cast_sub hW, Nat.cast_one]
  have hk' : (k : ℝ) ≤ (W : ℝ) - 1 := by rw [← hW']; exact_mod_cast (by omega : k ≤ W - 1)
  by_cases h1 : src ≤ (W : ℝ) - 1
  · have hf : ⌊src⌋₊ ≤ W - 1 := by
      refine Nat.floor_le_of_le ?_
      rw [hW']; exact h1
    have hl : interpLeft W src = ⌊src⌋₊ := min_eq_left hf
    have f1 := Nat.floor_le h0
    have f2 := Nat.lt_floor_add_one src
    have hlam : interpLambda W src = src - ⌊src⌋₊ := by
      unfold interpLambda
      rw [hl, max_eq_left (by linarith), min_eq_left (by linarith)]
    rw [min_eq_left h1]
    unfold interpWeight
    rw [hlam, hl]
    by_cases h2 : ⌊src⌋₊ < W - 1
    · rw [if_pos h2]
      rcases lt_trichotomy k ⌊src⌋₊ with h3 | h3 | h3
      · have h3' : (k : ℝ) + 1 ≤ ⌊src⌋₊ := by exact_mod_cast h3
        rw [if_neg (by omega), if_neg (by omega), abs_of_nonneg (by linarith), max_eq_left (by linarith), add_zero]
      · subst h3
        rw [if_pos rfl, if_neg (by omega), abs_of_nonneg (by linarith), max_eq_right (by linarith), add_zero]
      · have h3' : (⌊src⌋₊ : ℝ) + 1 ≤ k := by exact_mod_cast h3
        rw [if_neg (by omega), zero_add, abs_of_nonpos (by linarith)]
        by_cases h4 : k = ⌊src⌋₊ + 1
        · rw [if_pos h4, h4]
          push_cast
          rw [max_eq_right (by linarith)]
          ring
        · have h4' : (⌊src⌋₊ : ℝ) + 1 + 1 ≤ k := by exact_mod_cast (by omega : ⌊src⌋₊ + 1 + 1 ≤ k)
          rw [if_neg h4, max_eq_left (by linarith)]
    · rw [if_neg h2]
      have h3 : ⌊src⌋₊ = W - 1 := by omega
      have h4 : src = (W : ℝ) - 1 := by
        refine le_antisymm h1 ?_
        rw [← hW', ← h3]; exact f1
      rw [h3, hW', h4]
      by_cases h5 : k = W - 1
      · rw [if_pos h5, if_pos h5, h5, hW']
        simp
      · have h6 : (k : ℝ) + 1 ≤ (W : ℝ) - 1 := by rw [← hW']; exact_mod_cast (by omega : k + 1 ≤ W - 1)
        rw [if_neg h5, if_neg h5, abs_of_nonneg (by linarith), max_eq_left (by linarith), add_zero]
  · push_neg at h1
    have hl : interpLeft W src = W - 1 := by
      refine min_eq_right (Nat.le_floor ?_)
      rw [hW']; exact h1.le
    rw [min_eq_right h1.le]
    unfold interpWeight
    rw [hl, if_neg (lt_irrefl _)]
    by_cases h5 : k = W - 1
    · rw [if_pos h5, if_pos h5, h5, hW']
      simp
    · have h6 : (k : ℝ) + 1 ≤ (W : ℝ) - 1 := by rw [← hW']; exact_mod_cast (by omega : k + 1 ≤ W - 1)
      rw [if_neg h5, if_neg h5, abs_of_nonneg (by linarith), max_eq_left (by linarith), add_zero]

/-- The sizes and the ratio fit together, so that the two ends of an axis are treated alike. -/
def InterpFit (align : Bool) (scale : Option ℚ) (W M : ℕ) : Prop :=
  if align then 1 < M ∨ W = 1 else ∀ s, scale = some s → 0 < s ∧ (M : ℚ) = W * s

theorem interpSource_nonneg {align : Bool} {ratio : ℝ} (hr : 0 ≤ ratio) (o : ℕ) : 0 ≤ interpSource align ratio o := by
  unfold interpSource
  split_ifs
  · positivity
  · exact le_max_left _ _

theorem interpRatio_nonneg {align : Bool} {scale : Option ℚ} {W M : ℕ} (hW : 0 < W) (hs : InterpFit align scale W M) : 0 ≤ interpRatio align scale W M := by
  have hW' : (1 : ℝ) ≤ W := by exact_mod_cast hW
  unfold interpRatio
  split_ifs with h1 h2
  · have : (1 : ℝ) < M := by exact_mod_cast h2
    exact div_nonneg (by linarith) (by linarith)
  · exact le_rfl
  · unfold InterpFit at hs
    rw [if_neg h1] at hs
    cases scale with
    | none => exact div_nonneg (by positivity) (by positivity)
    | some s =>
      have : (0 : ℝ) < s := by exact_mod_cast (hs s rfl).1
      positivity

/-- The position which belongs to the mirrored position is the mirrored position. -/
theorem interpSource_rev {align : Bool} {scale : Option ℚ} {W M : ℕ} (hW : 0 < W) (hM : 0 < M) (hs : InterpFit align scale W M) {o : ℕ} (ho : o < M) :
    min (interpSource align (interpRatio align scale W M) (M - 1 - o)) ((W : ℝ) - 1) = (W : ℝ) - 1 - min (interpSource align (interpRatio align scale W M) o) ((W : ℝ) - 1) := by
  have hW' : (1 : ℝ) ≤ W := by exact_mod_cast hW
  have hM' : (0 : ℝ) < M := by exact_mod_cast hM
  have ho' : ((M - 1 - o : ℕ) : ℝ) = (M : ℝ) - 1 - o := by
    rw [Nat.cast_sub (by omega), Nat.cast_sub (by omega), Nat.cast_one]
  have ho2 : (o : ℝ) ≤ (M : ℝ) - 1 := by
    have : (o : ℝ) + 1 ≤ M := by exact_mod_cast ho
    linarith
  have hr0 := interpRatio_nonneg hW hs
  unfold InterpFit at hs
  cases align with
  | true =>
    simp only [interpSource, if_true, ho']
    have hr : interpRatio true scale W M * ((M : ℝ) - 1) = (W : ℝ) - 1 := by
      simp only [interpRatio, if_true]
      rcases hs with h | h
      · rw [if_pos h, div_mul_cancel₀]
        have : (1 : ℝ) < M := by exact_mod_cast h
        linarith
      · subst h
        split_ifs <;> simp
    have h1 : interpRatio true scale W M * (o : ℝ) ≤ (W : ℝ) - 1 := by rw [← hr]; exact mul_le_mul_of_nonneg_left ho2 hr0
    have h2 : 0 ≤ interpRatio true scale W M * (o : ℝ) := by positivity
    have h3 : interpRatio true scale W M * ((M : ℝ) - 1 - o) = (W : ℝ) - 1 - interpRatio true scale W M * o := by rw [← hr]; ring
    rw [h3, min_eq_left h1, min_eq_left (by linarith)]
  | false =>
    simp only [Bool.false_eq_true, if_false] at hs
    simp only [interpSource, Bool.false_eq_true, if_false, ho']
    have hr : interpRatio false scale W M * (M : ℝ) = W := by
      simp only [interpRatio, Bool.false_eq_true, if_false]
      cases scale with
      | none => exact div_mul_cancel₀ _ hM'.ne'
      | some s =>
        obtain ⟨h1, h2⟩ := hs s rfl
        have h1' : (0 : ℝ) < s := by exact_mod_cast h1
        have h2' : (M : ℝ) = W * s := by exact_mod_cast h2
        simp only [h2']
        field_simp
    have h3 : interpRatio false scale W M * ((M : ℝ) - 1 - o + 1 / 2) - 1 / 2 = (W : ℝ) - 1 - (interpRatio false scale W M * ((o : ℝ) + 1 / 2) - 1 / 2) := by
      rw [← hr]; ring
    rw [h3]
    generalize interpRatio false scale W M * ((o : ℝ) + 1 / 2) - 1 / 2 = t
    rcases le_total t 0 with h | h
    · rw [max_eq_left h, max_eq_right (by linarith), min_eq_right (by linarith), min_eq_left (by linarith), sub_zero]
    · rw [max_eq_right h]
      rcases le_total t ((W : ℝ) - 1) with h' | h'
      · rw [max_eq_right (by linarith), min_eq_left (by linarith), min_eq_left h']
      · rw [max_eq_left (by linarith), min_eq_left (by linarith), min_eq_right h', sub_self]

/-- Linear interpolation treats the two ends of an axis alike. -/
theorem interpWeight_rev {align : Bool} {scale : Option ℚ} {W M : ℕ} (hM : 0 < M) (hs : InterpFit align scale W M) {o k : ℕ} (ho : o < M) (hk : k < W) :
    interpWeight W (interpSource align (interpRatio align scale W M) (M - 1 - o)) (W - 1 - k) = interpWeight W (interpSource align (interpRatio align scale W M) o) k := by
  have hW : 0 < W := by omega
  have hr0 := interpRatio_nonneg hW hs
  rw [interpWeight_hat hW (interpSource_nonneg hr0 _) (by omega), interpWeight_hat hW (interpSource_nonneg hr0 _) hk, interpSource_rev hW hM hs ho, ← abs_neg]
  congr 3
  rw [Nat.cast_sub (by omega), Nat.cast_sub (by omega), Nat.cast_one]
  ring

theorem floor_div {a b : ℕ} : ⌊(a : ℝ) / (b : ℝ)⌋₊ = a / b := Nat.floor_div_eq_div (K := ℝ) a b

/-- For sizes the index is an integer quotient. -/
theorem nearestIndex_div {W M o : ℕ} {s : Option ℚ} (hM : 0 < M) (hs : ∀ t, s = some t → 0 < t ∧ (M : ℚ) = W * t) (ho : o < M) (hW : 0 < W) : nearestIndex s W M o = o * W / M := by
  have hM' : (0 : ℝ) < M := by exact_mod_cast hM
  have hr : interpRatio false s W M = (W : ℝ) / M := by
    simp only [interpRatio, Bool.false_eq_true, if_false]
    cases s with
    | none => rfl
    | some t =>
      obtain ⟨h1, h2⟩ := hs t rfl
      have h1' : (0 : ℝ) < t := by exact_mod_cast h1
      have h2' : (M : ℝ) = W * t := by exact_mod_cast h2
      have hW' : (0 : ℝ) < W := by exact_mod_cast hW
      rw [h2']
      field_simp
  have e : (o : ℝ) * ((W : ℝ) / M) = ((o * W : ℕ) : ℝ) / (M : ℕ) := by push_cast; ring
  unfold nearestIndex
  rw [hr, e, floor_div, min_eq_left]
  have : o * W / M < W := by
    rw [Nat.div_lt_iff_lt_mul hM, Nat.mul_comm W M]
    exact Nat.mul_lt_mul_of_pos_right ho hW
  omega

/-- The mode `nearest` treats the two ends of an axis alike if and only if the new size is a multiple of the old one. -/
theorem nearest_rev_iff {W M : ℕ} (hW : 0 < W) (hM : 0 < M) : (∀ o < M, (M - 1 - o) * W / M = W - 1 - o * W / M) ↔ W ∣ M := by
  constructor
  · intro h
    have h0 := h (M - 1) (by omega)
    rw [show M - 1 - (M - 1) = 0 by omega, zero_mul, Nat.zero_div] at h0
    have h1 : (M - 1) * W / M < W := by
      rw [Nat.div_lt_iff_lt_mul hM, Nat.mul_comm W M]
      exact Nat.mul_lt_mul_of_pos_right (by omega) hW
    have hWM : W ≤ M := by
      by_contra hc
      have h2 : (M - 1) * W / M = W - 1 := by omega
      have h3 : (W - 1) * M ≤ (M - 1) * W := by rw [← h2]; exact Nat.div_mul_le_self _ _
      have h4 : (W - 1) * M + M = W * M := by rw [← Nat.succ_mul]; congr 1; omega
      have h5 : (M - 1) * W + W = W * M := by rw [← Nat.succ_mul, Nat.mul_comm]; congr 1; omega
      omega
    -- the first position which does not copy the entry 0
    set q := (M + W - 1) / W with hq
    have hq1 : M ≤ q * W := by
      have := Nat.lt_div_mul_add hW (a := M + W - 1)
      rw [← hq] at this
      omega
    have hq2 : (q - 1) * W < M := by
      have h6 : q * W ≤ M + W - 1 := Nat.div_mul_le_self _ _
      have h7 : (q - 1) * W + W = q * W ∨ q = 0 := by
        rcases Nat.eq_zero_or_pos q with h | h
        · exact .inr h
        · left
          rw [← Nat.succ_mul]; congr 1; omega
      rcases h7 with h7 | h7
      · omega
      · rw [h7]; simpa using hM
    have hqpos : 0 < q := by
      rcases Nat.eq_zero_or_pos q with h | h
      · rw [h] at hq1; omega
      · exact h
    have hqM : q ≤ M := by
      rw [hq, Nat.div_le_iff_le_mul_add_pred hW]
      have : M ≤ W * M := Nat.le_mul_of_pos_left _ hW
      omega
    have h8 := h (q - 1) (by omega)
    rw [Nat.div_eq_of_lt hq2, Nat.sub_zero, show M - 1 - (q - 1) = M - q by omega] at h8
    have h9 : (W - 1) * M ≤ (M - q) * W := by rw [← h8]; exact Nat.div_mul_le_self _ _
    have h10 : (W - 1) * M + M = W * M := by rw [← Nat.succ_mul]; congr 1; omega
    have h11 : (M - q) * W + q * W = M * W := by rw [← Nat.add_mul]; congr 1; omega
    exact ⟨q, by rw [Nat.mul_comm]; rw [Nat.mul_comm M W] at h11; omega⟩
  · rintro ⟨s, rfl⟩ o ho
    have hs : 0 < s := Nat.pos_of_mul_pos_left hM
    have e : ∀ a, a * W / (W * s) = a / s := fun a => by rw [Nat.mul_comm a W, Nat.mul_div_mul_left _ _ hW]
    rw [e, e]
    have h1 : o / s < W := by rw [Nat.div_lt_iff_lt_mul hs]; exact ho
    have h2 := Nat.div_add_mod o s
    have h3 := Nat.mod_lt o hs
    rw [Nat.div_eq_iff hs]
    have e1 : (W - 1 - o / s) * s + (o / s) * s + s = W * s := by
      rw [← Nat.add_mul, ← Nat.succ_mul]; congr 1; omega
    rw [Nat.mul_comm s] at h2
    omega

/-- Interpolation commutes with the transformation, if the axes are treated alike. -/
theorem Moved.interpolate {τ : Equiv.Perm (Fin n)} {δ : Fin n → ℝ} {A : NpMat ℝ} {x y x' : FMap n B} (h : Moved τ δ A x y) {size : Option (Fin n → ℕ)} {scale : Option ℚ} {mode : String} {align : Option Bool}
    (hx : interpolate size scale mode align x = .ok x') (hu : ∀ i W, interpSize size scale (τ i) W = interpSize size scale i W)
    (hn : mode = "nearest" → ∀ i, (∀ t, scale = some t → 0 < t ∧ (interpSize size scale i (x.shape i) : ℚ) = x.shape i * t) ∧ (δ (τ.symm i) = -1 → x.shape i ∣ interpSize size scale i (x.shape i)))
    (hl : mode ≠ "nearest" → ∀ i, δ (τ.symm i) = -1 → InterpFit (align.getD false) scale (x.shape i) (interpSize size scale i (x.shape i))) :
    ∃ y', Escnn.interpolate size scale mode align y = .ok y' ∧ Moved τ δ A x' y' := by
  have hsh : ∀ i, interpSize size scale i (y.shape i) = interpSize size scale (τ i) (x.shape (τ i)) := fun i => by rw [hu, h.shape]
  unfold Escnn.interpolate at hx ⊢
  split_ifs at hx with h1 h2 h3 h4 h5
  · obtain rfl := Except.ok.inj hx
    have h2' : (∀ i, 0 < y.shape i) ∧ ∀ i, 0 < interpSize size scale i (y.shape i) := ⟨fun i => by rw [h.shape]; exact h2.1 _, fun i => by rw [hsh]; exact h2.2 _⟩
    rw [if_neg h1, if_neg (not_not.2 h2'), if_pos h3, if_neg h4]
    have hidx : ∀ i, ∀ o < interpSize size scale i (x.shape i), nearestIndex scale (x.shape i) (interpSize size scale i (x.shape i)) o < x.shape i := fun i o _ => by
      have := h2.1 i
      unfold nearestIndex
      omega
    have hidy : ∀ i, ∀ o < interpSize size scale i (y.shape i), nearestIndex scale (y.shape i) (interpSize size scale i (y.shape i)) o < y.shape i := fun i o _ => by
      have := h2'.1 i
      unfold nearestIndex
      omega
    refine ⟨_, rfl, Moved.congr (h.sep hsh fun i o ho k hk => ?_) (pull_eq_sep hidx) (pull_eq_sep hidy)⟩
    rw [hsh] at ho
    rw [hsh, h.shape]
    rw [h.shape] at hk
    have hd := h2.1 (τ i)
    have hN := hn h3 (τ i)
    rw [Equiv.symm_apply_apply] at hN
    have e : ∀ o < interpSize size scale (τ i) (x.shape (τ i)), _ := fun o ho => nearestIndex_div (h2.2 (τ i)) hN.1 ho hd
    by_cases hneg : δ i = -1
    · simp only [if_pos hneg]
      rw [e o ho, e _ (by omega), (nearest_rev_iff hd (h2.2 (τ i))).2 (hN.2 hneg) o ho]
      have hlt : o * x.shape (τ i) / interpSize size scale (τ i) (x.shape (τ i)) < x.shape (τ i) := by
        rw [Nat.div_lt_iff_lt_mul (h2.2 _), Nat.mul_comm (x.shape (τ i))]
        exact Nat.mul_lt_mul_of_pos_right ho hd
      exact if_congr (by omega) rfl rfl
    · simp only [if_neg hneg]
  · obtain rfl := Except.ok.inj hx
    have h2' : (∀ i, 0 < y.shape i) ∧ ∀ i, 0 < interpSize size scale i (y.shape i) := ⟨fun i => by rw [h.shape]; exact h2.1 _, fun i => by rw [hsh]; exact h2.2 _⟩
    rw [if_neg h1, if_neg (not_not.2 h2'), if_neg h3, if_pos h5]
    refine ⟨_, rfl, h.sep (wx := fun i o k => interpWeight (x.shape i) (interpSource (align.getD false) (interpRatio (align.getD false) scale (x.shape i) (interpSize size scale i (x.shape i))) o) k)
      (wy := fun i o k => interpWeight (y.shape i) (interpSource (align.getD false) (interpRatio (align.getD false) scale (y.shape i) (interpSize size scale i (y.shape i))) o) k) hsh fun i o ho k hk => ?_⟩
    rw [hsh] at ho
    simp only [h.shape, ← hu i]
    rw [h.shape] at hk
    by_cases hneg : δ i = -1
    · simp only [if_pos hneg]
      have hL := hl h3 (τ i)
      rw [Equiv.symm_apply_apply] at hL
      rw [interpWeight_rev (h2.2 _) (hL hneg) ho hk]
    · simp only [if_neg hneg]

end Escnn
