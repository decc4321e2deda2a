import Verif.Lemmas.Restrict
import Verif.Model.Irreps3

/-!
# Signed permutation matrices and the changes of basis of the irreps of SO(3) and O(3)
-/

namespace Escnn

open Real NpMat

/-- `Q` is the signed permutation matrix with the entries `s j` at `(σ j, j)`; `τ` is the inverse of `σ`. -/
structure SPerm (n : ℕ) (Q : NpMat ℝ) (σ τ : ℕ → ℕ) (s : ℕ → ℝ) : Prop where
  rows : Q.rows = n
  cols : Q.cols = n
  σ_lt : ∀ j, j < n → σ j < n
  τ_lt : ∀ j, j < n → τ j < n
  στ : ∀ i, i < n → σ (τ i) = i
  τσ : ∀ i, i < n → τ (σ i) = i
  sq : ∀ j, s j * s j = 1
  get : ∀ i j, i < n → j < n → Q.get i j = if i = σ j then s j else 0

namespace SPerm

variable {n : ℕ} {Q : NpMat ℝ} {σ τ : ℕ → ℕ} {s : ℕ → ℝ}

theorem sum_left (h : SPerm n Q σ τ s) {i : ℕ} (hi : i < n) (f : ℕ → ℝ) :
    ∑ k ∈ Finset.range n, Q.get i k * f k = s (τ i) * f (τ i) := by
  rw [Finset.sum_eq_single_of_mem (τ i) (Finset.mem_range.2 (h.τ_lt i hi))]
  · rw [h.get i _ hi (h.τ_lt i hi), if_pos (h.στ i hi).symm]
  · intro k hk hne
    have hk' := Finset.mem_range.1 hk
    rw [h.get i k hi hk', if_neg, zero_mul]
    rintro rfl
    exact hne (h.τσ k hk').symm

theorem ortho (h : SPerm n Q σ τ s) : IsOrtho Q := by
  refine ⟨by rw [h.rows, h.cols], ⟨rfl, by simp, fun i j hi hj => ?_⟩, ⟨by simp [h.rows, h.cols], by simp [h.rows, h.cols], fun i j hi hj => ?_⟩⟩
  · rw [mul_rows, h.rows] at hi
    rw [mul_cols, transpose_cols, h.rows] at hj
    simp only [mul, transpose, h.cols]
    rw [h.sum_left hi, h.get j _ hj (h.τ_lt i hi), h.στ i hi]
    simp only [eye]
    by_cases e : i = j
    · rw [if_pos e.symm, if_pos e, h.sq]
    · rw [if_neg (fun e' => e e'.symm), if_neg e, mul_zero]
  · rw [mul_rows, transpose_rows, h.cols] at hi
    rw [mul_cols, h.cols] at hj
    simp only [mul, transpose, transpose_cols, h.rows, eye]
    rw [Finset.sum_eq_single_of_mem (σ i) (Finset.mem_range.2 (h.σ_lt i hi))]
    · rw [h.get _ _ (h.σ_lt i hi) hi, h.get _ _ (h.σ_lt i hi) hj, if_pos rfl]
      by_cases e : i = j
      · rw [if_pos (by rw [e]), if_pos e, e, h.sq]
      · rw [if_neg, if_neg e, mul_zero]
        intro e'
        exact e (by rw [← h.τσ i hi, e', h.τσ j hj])
    · intro k hk hne
      rw [h.get k i (Finset.mem_range.1 hk) hi, if_neg hne, zero_mul]

theorem conj (h : SPerm n Q σ τ s) {X : NpMat ℝ} (hr : X.rows = n) (hc : X.cols = n) :
    Escnn.conj Q X ≈ ⟨n, n, fun i k => s (τ i) * X.get (τ i) (τ k) * s (τ k)⟩ := by
  refine ⟨h.rows, h.rows, fun i k hi hk => ?_⟩
  change i < Q.rows at hi
  change k < Q.rows at hk
  rw [h.rows] at hi hk
  simp only [Escnn.conj, mul, transpose, h.cols, hc]
  have e : ∀ b, ∑ a ∈ Finset.range n, Q.get i a * X.get a b = s (τ i) * X.get (τ i) b := fun b => h.sum_left hi _
  simp only [e]
  have e' := h.sum_left hk fun b => s (τ i) * X.get (τ i) b
  rw [mul_comm _ (s (τ k)), ← e']
  exact Finset.sum_congr rfl fun b _ => mul_comm _ _

end SPerm

/-- Entries of a block diagonal matrix of `2 × 2` blocks. -/
theorem blockDiag_pairs (B : ℕ → NpMat ℝ) (hr : ∀ f, (B f).rows = 2) (hc : ∀ f, (B f).cols = 2) (l : ℕ) :
    ∀ p, (blockDiag ((List.range' p l).map B)).rows = 2 * l ∧ (blockDiag ((List.range' p l).map B)).cols = 2 * l ∧
      ∀ a b, a < 2 * l → b < 2 * l → (blockDiag ((List.range' p l).map B)).get a b =
        if a / 2 = b / 2 then (B (p + a / 2)).get (a % 2) (b % 2) else 0 := by
  induction l with
  | zero => intro p; exact ⟨rfl, rfl, fun a b ha => by omega⟩
  | succ l ih =>
    intro p
    obtain ⟨h1, h2, h3⟩ := ih (p + 1)
    rw [List.range'_succ, List.map_cons]
    refine ⟨by simp only [blockDiag, diag2_rows, hr, h1]; ring, by simp only [blockDiag, diag2_cols, hc, h2]; ring, ?_⟩
    intro a b ha hb
    simp only [blockDiag, diag2, hr, hc]
    by_cases ha2 : a < 2
    · rw [if_pos ha2]
      by_cases hb2 : b < 2
      · rw [if_pos hb2, if_pos (by omega), Nat.div_eq_of_lt ha2, Nat.mod_eq_of_lt ha2, Nat.mod_eq_of_lt hb2, add_zero]
      · rw [if_neg hb2, if_neg (by omega)]
    · rw [if_neg ha2]
      by_cases hb2 : b < 2
      · rw [if_pos hb2, if_neg (by omega)]
      · rw [if_neg hb2, h3 _ _ (by omega) (by omega)]
        have e1 : (a - 2) / 2 = a / 2 - 1 := by omega
        have e2 : (b - 2) / 2 = b / 2 - 1 := by omega
        have e3 : (a - 2) % 2 = a % 2 := by omega
        have e4 : (b - 2) % 2 = b % 2 := by omega
        rw [e1, e2, e3, e4]
        have e5 : p + 1 + (a / 2 - 1) = p + a / 2 := by omega
        rw [e5]
        by_cases e : a / 2 = b / 2
        · rw [if_pos e, if_pos (by omega)]
        · rw [if_neg e, if_neg (by omega)]

/-- Entries of a block diagonal matrix of a number and `2 × 2` blocks. -/
theorem blockDiag_one_pairs (A : NpMat ℝ) (hA : A.rows = 1 ∧ A.cols = 1) (B : ℕ → NpMat ℝ) (hr : ∀ f, (B f).rows = 2)
    (hc : ∀ f, (B f).cols = 2) (l : ℕ) :
    blockDiag (A :: (List.range l).map B) ≈ ⟨2 * l + 1, 2 * l + 1, fun a b =>
      if a = 0 ∧ b = 0 then A.get 0 0 else if a = 0 ∨ b = 0 then 0
      else if (a - 1) / 2 = (b - 1) / 2 then (B ((a - 1) / 2)).get ((a - 1) % 2) ((b - 1) % 2) else 0⟩ := by
  rw [List.range_eq_range']
  obtain ⟨h1, h2, h3⟩ := blockDiag_pairs B hr hc l 0
  refine ⟨?_, ?_, ?_⟩
  · simp only [blockDiag, diag2_rows, hA.1, h1]; ring
  · simp only [blockDiag, diag2_cols, hA.2, h2]; ring
  intro a b ha hb
  simp only [blockDiag, diag2_rows, diag2_cols, hA.1, hA.2, h1, h2] at ha hb
  simp only [blockDiag, diag2, hA.1, hA.2]
  by_cases ha0 : a = 0
  · subst ha0
    by_cases hb0 : b = 0
    · subst hb0; simp
    · rw [if_pos (by omega), if_neg (by omega), if_neg (by omega), if_pos (by omega)]
  · rw [if_neg (show ¬ a < 1 by omega)]
    by_cases hb0 : b = 0
    · subst hb0; simp [ha0]
    · rw [if_neg (show ¬ b < 1 by omega), if_neg (by omega), if_neg (by omega), h3 _ _ (by omega) (by omega), zero_add]

/-- A loop which fills in two columns per step. -/
theorem fold_cols {step : NpMat ℝ → ℕ → NpMat ℝ} {c₁ c₂ : ℕ → ℕ → ℝ} {A₀ : NpMat ℝ} (l : ℕ)
    (hs : ∀ A f, f < l → (∀ i, A.get i (2 * f + 1) = 0 ∧ A.get i (2 * f + 2) = 0) →
      (step A f).rows = A.rows ∧ (step A f).cols = A.cols ∧
      ∀ i j, (step A f).get i j = if j = 2 * f + 1 then c₁ f i else if j = 2 * f + 2 then c₂ f i else A.get i j)
    (h₀ : ∀ i j, 0 < j → A₀.get i j = 0) : ∀ m, m ≤ l →
      ((List.range m).foldl step A₀).rows = A₀.rows ∧ ((List.range m).foldl step A₀).cols = A₀.cols ∧
      ∀ i j, ((List.range m).foldl step A₀).get i j =
        if j = 0 then A₀.get i 0 else if j ≤ 2 * m then (if j % 2 = 1 then c₁ ((j - 1) / 2) i else c₂ ((j - 1) / 2) i) else 0 := by
  intro m
  induction m with
  | zero =>
    intro _
    refine ⟨rfl, rfl, fun i j => ?_⟩
    simp only [List.range_zero, List.foldl_nil]
    by_cases hj : j = 0
    · rw [if_pos hj, hj]
    · rw [if_neg hj, if_neg (by omega), h₀ i j (by omega)]
  | succ m ih =>
    intro hm
    obtain ⟨h1, h2, h3⟩ := ih (by omega)
    rw [List.range_succ, List.foldl_append, List.foldl_cons, List.foldl_nil]
    obtain ⟨k1, k2, k3⟩ := hs ((List.range m).foldl step A₀) m (by omega) (fun i => by
      rw [h3, h3]
      rw [if_neg (by omega), if_neg (by omega), if_neg (by omega), if_neg (by omega)]
      exact ⟨rfl, rfl⟩)
    refine ⟨k1.trans h1, k2.trans h2, fun i j => ?_⟩
    rw [k3, h3]
    by_cases hj : j = 0
    · rw [if_neg (by omega), if_neg (by omega)]
      simp [hj]
    by_cases hj1 : j = 2 * m + 1
    · rw [if_pos hj1, if_neg hj, if_pos (by omega), if_pos (by omega), show (j - 1) / 2 = m by omega]
    by_cases hj2 : j = 2 * m + 2
    · rw [if_neg hj1, if_pos hj2, if_neg hj, if_pos (by omega), if_neg (by omega), show (j - 1) / 2 = m by omega]
    rw [if_neg hj1, if_neg hj2, if_neg hj, if_neg hj]
    by_cases hj3 : j ≤ 2 * m
    · rw [if_pos hj3, if_pos (show j ≤ 2 * (m + 1) by omega)]
    · rw [if_neg hj3, if_neg (show ¬ j ≤ 2 * (m + 1) by omega)]

open Classical in
/-- The column order of the changes of basis: for each frequency `F ≥ 1` the harmonics `cos Fφ`, `sin Fφ` or, where `t F`,
`u sin Fφ`, `-u cos Fφ`. -/
noncomputable def cobσ (l : ℕ) (t : ℕ → Prop) (j : ℕ) : ℕ :=
  if j = 0 then l
  else if j % 2 = 1 then (if t ((j + 1) / 2) then l - (j + 1) / 2 else l + (j + 1) / 2)
  else (if t ((j + 1) / 2) then l + (j + 1) / 2 else l - (j + 1) / 2)

open Classical in
/-- The position of a harmonic among the columns. -/
noncomputable def cobτ (l : ℕ) (t : ℕ → Prop) (i : ℕ) : ℕ :=
  if i = l then 0
  else if l < i then (if t (i - l) then 2 * (i - l) else 2 * (i - l) - 1)
  else (if t (l - i) then 2 * (l - i) - 1 else 2 * (l - i))

open Classical in
/-- The signs. -/
noncomputable def cobs (t : ℕ → Prop) (u : ℝ) (j : ℕ) : ℝ :=
  if j = 0 then 1 else if t ((j + 1) / 2) then (if j % 2 = 1 then u else -u) else 1

open Classical in
theorem cob_sperm {l : ℕ} {t : ℕ → Prop} {u : ℝ} (hu : u * u = 1) {Q : NpMat ℝ} (hr : Q.rows = 2 * l + 1)
    (hc : Q.cols = 2 * l + 1)
    (hQ : ∀ i j, i < 2 * l + 1 → j < 2 * l + 1 → Q.get i j = if i = cobσ l t j then cobs t u j else 0) :
    SPerm (2 * l + 1) Q (cobσ l t) (cobτ l t) (cobs t u) := by
  refine ⟨hr, hc, fun j hj => ?_, fun j hj => ?_, fun i hi => ?_, fun i hi => ?_, fun j => ?_, hQ⟩
  · unfold cobσ; split_ifs <;> omega
  · unfold cobτ; split_ifs <;> omega
  · rcases lt_trichotomy i l with h | h | h
    · have e : cobτ l t i = if t (l - i) then 2 * (l - i) - 1 else 2 * (l - i) := by
        rw [cobτ, if_neg (by omega), if_neg (by omega)]
      by_cases ht : t (l - i)
      · rw [e, if_pos ht, cobσ, if_neg (by omega), if_pos (by omega), show (2 * (l - i) - 1 + 1) / 2 = l - i by omega,
          if_pos ht]; omega
      · rw [e, if_neg ht, cobσ, if_neg (by omega), if_neg (by omega), show (2 * (l - i) + 1) / 2 = l - i by omega,
          if_neg ht]; omega
    · rw [cobτ, if_pos h, cobσ, if_pos rfl, h]
    · have e : cobτ l t i = if t (i - l) then 2 * (i - l) else 2 * (i - l) - 1 := by
        rw [cobτ, if_neg (by omega), if_pos h]
      by_cases ht : t (i - l)
      · rw [e, if_pos ht, cobσ, if_neg (by omega), if_neg (by omega), show (2 * (i - l) + 1) / 2 = i - l by omega,
          if_pos ht]; omega
      · rw [e, if_neg ht, cobσ, if_neg (by omega), if_pos (by omega), show (2 * (i - l) - 1 + 1) / 2 = i - l by omega,
          if_neg ht]; omega
  · by_cases h0 : i = 0
    · rw [cobσ, if_pos h0, cobτ, if_pos rfl, h0]
    · have hF : (i + 1) / 2 ≤ l ∧ 0 < (i + 1) / 2 := by omega
      have e1 : l + (i + 1) / 2 - l = (i + 1) / 2 := by omega
      have e2 : l - (l - (i + 1) / 2) = (i + 1) / 2 := by omega
      by_cases ho : i % 2 = 1 <;> by_cases ht : t ((i + 1) / 2)
      · rw [cobσ, if_neg h0, if_pos ho, if_pos ht, cobτ, if_neg (by omega), if_neg (by omega), e2, if_pos ht]; omega
      · rw [cobσ, if_neg h0, if_pos ho, if_neg ht, cobτ, if_neg (by omega), if_pos (by omega), e1, if_neg ht]; omega
      · rw [cobσ, if_neg h0, if_neg ho, if_pos ht, cobτ, if_neg (by omega), if_pos (by omega), e1, if_pos ht]; omega
      · rw [cobσ, if_neg h0, if_neg ho, if_neg ht, cobτ, if_neg (by omega), if_neg (by omega), e2, if_neg ht]; omega
  · unfold cobs; split_ifs <;> nlinarith [hu]

end Escnn
