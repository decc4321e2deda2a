import Verif.Lemmas.Kron
import Mathlib.Data.Complex.Basic
import Mathlib.Data.Complex.BigOperators

/-!
# Real arrays of complex form and their complex arrays
-/

namespace Escnn

open NpMat

namespace NpMat

/-- The real array `[[Re Z, -Im Z], [Im Z, Re Z]]`. -/
def realify (Z : NpMat ℂ) : NpMat ℝ where
  rows := 2 * Z.rows
  cols := 2 * Z.cols
  get i j :=
    if i < Z.rows then (if j < Z.cols then (Z.get i j).re else -(Z.get i (j - Z.cols)).im)
    else (if j < Z.cols then (Z.get (i - Z.rows) j).im else (Z.get (i - Z.rows) (j - Z.cols)).re)

/-- The complex array with the entries of the left half of `M` as real and imaginary parts. -/
def complexify (M : NpMat ℝ) : NpMat ℂ where
  rows := M.rows / 2
  cols := M.cols / 2
  get i j := ⟨M.get i j, M.get (i + M.rows / 2) j⟩

/-- A real array as a complex array. -/
def ofReal (M : NpMat ℝ) : NpMat ℂ := ⟨M.rows, M.cols, fun i j => (M.get i j : ℂ)⟩

/-- The entrywise complex conjugate. -/
def conj (Z : NpMat ℂ) : NpMat ℂ := ⟨Z.rows, Z.cols, fun i j => star (Z.get i j)⟩

/-- The real array with the real part of `Z` above its imaginary part. -/
def stack (Z : NpMat ℂ) : NpMat ℝ := ⟨2 * Z.rows, Z.cols, fun i j => if i < Z.rows then (Z.get i j).re else (Z.get (i - Z.rows) j).im⟩

@[simp] theorem realify_rows (Z : NpMat ℂ) : (realify Z).rows = 2 * Z.rows := rfl
@[simp] theorem realify_cols (Z : NpMat ℂ) : (realify Z).cols = 2 * Z.cols := rfl
@[simp] theorem complexify_rows (M : NpMat ℝ) : (complexify M).rows = M.rows / 2 := rfl
@[simp] theorem complexify_cols (M : NpMat ℝ) : (complexify M).cols = M.cols / 2 := rfl
@[simp] theorem ofReal_rows (M : NpMat ℝ) : (ofReal M).rows = M.rows := rfl
@[simp] theorem ofReal_cols (M : NpMat ℝ) : (ofReal M).cols = M.cols := rfl
@[simp] theorem conj_rows (Z : NpMat ℂ) : (conj Z).rows = Z.rows := rfl
@[simp] theorem conj_cols (Z : NpMat ℂ) : (conj Z).cols = Z.cols := rfl
@[simp] theorem stack_rows (Z : NpMat ℂ) : (stack Z).rows = 2 * Z.rows := rfl
@[simp] theorem stack_cols (Z : NpMat ℂ) : (stack Z).cols = Z.cols := rfl

theorem realify_congr {Z W : NpMat ℂ} (h : Z ≈ W) : realify Z ≈ realify W := by
  obtain ⟨h1, h2, h3⟩ := h
  refine ⟨by simp [h1], by simp [h2], fun i j hi hj => ?_⟩
  simp only [realify_rows, realify_cols] at hi hj
  simp only [realify, ← h1, ← h2]
  split_ifs <;> rw [h3 _ _ (by omega) (by omega)]

theorem realify_inj {Z W : NpMat ℂ} (h : realify Z ≈ realify W) : Z ≈ W := by
  obtain ⟨h1, h2, h3⟩ := h
  simp only [realify_rows, realify_cols] at h1 h2 h3
  have e1 : Z.rows = W.rows := by omega
  have e2 : Z.cols = W.cols := by omega
  refine ⟨e1, e2, fun i j hi hj => ?_⟩
  have a := h3 i j (by omega) (by omega)
  have b := h3 (i + Z.rows) j (by omega) (by omega)
  simp only [realify, ← e1, ← e2, if_pos hi, if_pos hj] at a
  simp only [realify, ← e1, ← e2, if_neg (show ¬ i + Z.rows < Z.rows by omega), if_pos hj, Nat.add_sub_cancel] at b
  exact Complex.ext a b

theorem stack_congr {Z W : NpMat ℂ} (h : Z ≈ W) : stack Z ≈ stack W := by
  obtain ⟨h1, h2, h3⟩ := h
  refine ⟨by simp [h1], by simp [h2], fun i j hi hj => ?_⟩
  simp only [stack_rows, stack_cols] at hi hj
  simp only [stack, ← h1]
  split_ifs <;> rw [h3 _ _ (by omega) (by omega)]

theorem complexify_congr {M N : NpMat ℝ} (h : M ≈ N) : complexify M ≈ complexify N := by
  obtain ⟨h1, h2, h3⟩ := h
  refine ⟨by simp [h1], by simp [h2], fun i j hi hj => ?_⟩
  simp only [complexify_rows, complexify_cols] at hi hj
  simp only [complexify, ← h1]
  rw [h3 _ _ (by omega) (by omega), h3 _ _ (by omega) (by omega)]

theorem conj_congr {Z W : NpMat ℂ} (h : Z ≈ W) : conj Z ≈ conj W := by
  obtain ⟨h1, h2, h3⟩ := h
  refine ⟨h1, h2, fun i j hi hj => ?_⟩
  simp only [conj, h3 i j hi hj]

theorem conj_mul (Z W : NpMat ℂ) : conj (mul Z W) ≈ mul (conj Z) (conj W) :=
  ⟨rfl, rfl, fun i j _ _ => by simp [conj, mul, star_sum]⟩

theorem conj_conj (Z : NpMat ℂ) : conj (conj Z) ≈ Z := ⟨rfl, rfl, fun i j _ _ => by simp [conj]⟩

theorem conj_kron (Z W : NpMat ℂ) : conj (kron Z W) ≈ kron (conj Z) (conj W) := ⟨rfl, rfl, fun i j _ _ => by simp [conj, kron]⟩

theorem conj_eye (n : ℕ) : conj (eye n) ≈ eye n := ⟨rfl, rfl, fun i j _ _ => by simp only [conj, eye]; split_ifs <;> simp⟩

theorem conj_ofReal (M : NpMat ℝ) : conj (ofReal M) ≈ ofReal M := ⟨rfl, rfl, fun i j _ _ => by simp [conj, ofReal]⟩

theorem ofReal_mul (M N : NpMat ℝ) : ofReal (mul M N) ≈ mul (ofReal M) (ofReal N) := ⟨rfl, rfl, fun i j _ _ => by simp [ofReal, mul]⟩

theorem ofReal_eye (n : ℕ) : ofReal (eye n) ≈ eye n := ⟨rfl, rfl, fun i j _ _ => by simp only [ofReal, eye]; split_ifs <;> simp⟩

theorem ofReal_congr {M N : NpMat ℝ} (h : M ≈ N) : ofReal M ≈ ofReal N := by
  obtain ⟨h1, h2, h3⟩ := h
  exact ⟨h1, h2, fun i j hi hj => by simp only [ofReal, h3 i j hi hj]⟩

theorem ofReal_transpose (M : NpMat ℝ) : ofReal (transpose M) ≈ transpose (ofReal M) := ⟨rfl, rfl, fun _ _ _ _ => rfl⟩

/-- A sum over twice the range. -/
theorem sum_range_two_mul (n : ℕ) (f : ℕ → ℝ) : ∑ k ∈ Finset.range (2 * n), f k = ∑ k ∈ Finset.range n, (f k + f (n + k)) := by
  rw [two_mul, Finset.sum_range_add, Finset.sum_add_distrib]

theorem realify_mul_stack (Z W : NpMat ℂ) (h : Z.cols = W.rows) : mul (realify Z) (stack W) ≈ stack (mul Z W) := by
  refine ⟨rfl, rfl, fun i j hi hj => ?_⟩
  simp only [mul, realify_cols, stack]
  rw [sum_range_two_mul]
  by_cases c : i < Z.rows
  · refine Eq.trans ?_ (if_pos (show i < (mul Z W).rows from c)).symm
    rw [Complex.re_sum]
    refine Finset.sum_congr rfl fun k hk => ?_
    rw [Finset.mem_range] at hk
    simp only [realify, if_pos c, if_pos hk, if_pos (h ▸ hk : k < W.rows), if_neg (show ¬ Z.cols + k < Z.cols by omega), if_neg (show ¬ Z.cols + k < W.rows by omega), Complex.mul_re]
    rw [show Z.cols + k - Z.cols = k by omega, show Z.cols + k - W.rows = k by omega]
    ring
  · refine Eq.trans ?_ (if_neg (show ¬ i < (mul Z W).rows from c)).symm
    rw [Complex.im_sum]
    refine Finset.sum_congr rfl fun k hk => ?_
    rw [Finset.mem_range] at hk
    simp only [realify, if_neg c, if_pos hk, if_pos (h ▸ hk : k < W.rows), if_neg (show ¬ Z.cols + k < Z.cols by omega), if_neg (show ¬ Z.cols + k < W.rows by omega), Complex.mul_im]
    rw [show Z.cols + k - Z.cols = k by omega, show Z.cols + k - W.rows = k by omega]
    ring

theorem stack_mul (V : NpMat ℂ) (M : NpMat ℝ) : stack (mul V (ofReal M)) ≈ mul (stack V) M := by
  refine ⟨rfl, rfl, fun i j hi hj => ?_⟩
  simp only [stack, mul, mul_rows, stack_cols, ofReal]
  by_cases c : i < V.rows
  · simp [Complex.re_sum, c]
  · simp [Complex.im_sum, c]

theorem realify_mul (Z W : NpMat ℂ) (h : Z.cols = W.rows) : mul (realify Z) (realify W) ≈ realify (mul Z W) := by
  refine ⟨rfl, rfl, fun i j hi hj => ?_⟩
  simp only [mul, realify_cols, realify_rows] at hi hj ⊢
  rw [sum_range_two_mul]
  simp only [realify, mul_rows, mul_cols]
  by_cases c : i < Z.rows <;> by_cases d : j < W.cols <;> simp only [c, d, if_true, if_false] <;> (try rw [Complex.re_sum]) <;> (try rw [Complex.im_sum]) <;> (try rw [← Finset.sum_neg_distrib]) <;>
    refine Finset.sum_congr rfl fun k hk => ?_ <;>
    (rw [Finset.mem_range] at hk
     simp only [if_pos hk, if_pos (h ▸ hk : k < W.rows), if_neg (show ¬ Z.cols + k < Z.cols by omega), if_neg (show ¬ Z.cols + k < W.rows by omega), Complex.mul_re, Complex.mul_im]
     rw [show Z.cols + k - Z.cols = k by omega, show Z.cols + k - W.rows = k by omega]
     ring)

theorem realify_eye (n : ℕ) : realify (eye n) ≈ eye (2 * n) := by
  refine ⟨rfl, rfl, fun i j hi hj => ?_⟩
  simp only [realify_rows, realify_cols, eye_rows, eye_cols] at hi hj
  simp only [realify, eye, apply_ite Complex.re, apply_ite Complex.im, Complex.one_re, Complex.one_im, Complex.zero_re, Complex.zero_im, neg_zero, ite_self]
  split_ifs <;> first | rfl | (exfalso; omega)

/-- The transposed complex conjugate. -/
def adj (Z : NpMat ℂ) : NpMat ℂ := transpose (conj Z)

@[simp] theorem adj_rows (Z : NpMat ℂ) : (adj Z).rows = Z.cols := rfl
@[simp] theorem adj_cols (Z : NpMat ℂ) : (adj Z).cols = Z.rows := rfl

theorem realify_transpose (Z : NpMat ℂ) : transpose (realify Z) ≈ realify (adj Z) := by
  refine ⟨rfl, rfl, fun i j hi hj => ?_⟩
  simp only [transpose, realify, adj, conj]
  by_cases c : i < Z.cols <;> by_cases d : j < Z.rows <;> simp [c, d]

theorem adj_kron (Z W : NpMat ℂ) : adj (kron Z W) ≈ kron (adj Z) (adj W) := ⟨rfl, rfl, fun i j _ _ => by simp [adj, transpose, conj, kron]⟩

theorem adj_congr {Z W : NpMat ℂ} (h : Z ≈ W) : adj Z ≈ adj W := transpose_congr (conj_congr h)

theorem trace_realify (Z : NpMat ℂ) (h : Z.rows = Z.cols) : trace (realify Z) = 2 * (trace Z).re := by
  simp only [trace, realify_rows]
  rw [sum_range_two_mul, Complex.re_sum, Finset.mul_sum]
  refine Finset.sum_congr rfl fun k hk => ?_
  rw [Finset.mem_range] at hk
  simp only [realify, if_pos hk, ← h, if_neg (show ¬ Z.rows + k < Z.rows by omega)]
  rw [show Z.rows + k - Z.rows = k by omega]
  ring

/-- A real array of even size which commutes with `[[0, -1], [1, 0]]` (in blocks) has complex form. -/
theorem realify_complexify {M : NpMat ℝ} {n : ℕ} (hr : M.rows = 2 * n) (hc : M.cols = 2 * n) (h : mul M (kron (ofRows 2 [[0, -1], [1, 0]]) (eye n)) ≈ mul (kron (ofRows 2 [[0, -1], [1, 0]]) (eye n)) M) :
    realify (complexify M) ≈ M := by
  have l : ∀ i j, i < 2 * n → j < n → (mul M (kron (ofRows 2 [[0, -1], [1, 0]]) (eye n))).get i j = M.get i (n + j) := by
    intro i j hi hj
    simp only [mul, kron, ofRows, eye_rows, eye_cols, hc]
    rw [sum_range_two_mul, Finset.sum_add_distrib, Finset.sum_eq_zero, zero_add, Finset.sum_eq_single j]
    · have hn : 0 < n := by omega
      simp [Nat.add_div_left, hn, Nat.div_eq_of_lt hj, Nat.mod_eq_of_lt hj, eye]
    · intro b hb hbj
      rw [Finset.mem_range] at hb
      simp [eye, Nat.mod_eq_of_lt hb, Nat.mod_eq_of_lt hj, hbj]
    · intro hh; exact absurd (Finset.mem_range.2 hj) hh
    · intro b hb
      rw [Finset.mem_range] at hb
      simp [Nat.div_eq_of_lt hb, Nat.div_eq_of_lt hj]
  have r : ∀ i j, i < 2 * n → j < 2 * n → (mul (kron (ofRows 2 [[0, -1], [1, 0]]) (eye n)) M).get i j = if i < n then -M.get (n + i) j else M.get (i - n) j := by
    intro i j hi hj
    have hn : 0 < n := by omega
    have hcols : (kron (ofRows 2 [[0, -1], [1, 0]]) (eye n) : NpMat ℝ).cols = 2 * n := rfl
    simp only [mul, hcols]
    rw [sum_range_two_mul]
    split_ifs with c
    · rw [Finset.sum_eq_single i]
      · simp [kron, ofRows, eye, Nat.div_eq_of_lt c, Nat.mod_eq_of_lt c, hn]
      · intro b hb hbi
        rw [Finset.mem_range] at hb
        simp [kron, ofRows, eye, Nat.div_eq_of_lt c, Nat.mod_eq_of_lt c, Nat.div_eq_of_lt hb, Nat.mod_eq_of_lt hb, Ne.symm hbi]
      · intro hh; exact absurd (Finset.mem_range.2 c) hh
    · obtain ⟨k, rfl⟩ : ∃ k, i = n + k := ⟨i - n, by omega⟩
      have hk : k < n := by omega
      rw [Finset.sum_eq_single k]
      · simp [kron, ofRows, eye, Nat.div_eq_of_lt hk, Nat.mod_eq_of_lt hk, hn]
      · intro b hb hbi
        rw [Finset.mem_range] at hb
        simp [kron, ofRows, eye, Nat.div_eq_of_lt hk, Nat.mod_eq_of_lt hk, Nat.div_eq_of_lt hb, Nat.mod_eq_of_lt hb, Ne.symm hbi, hn]
      · intro hh; exact absurd (Finset.mem_range.2 hk) hh
  have key : ∀ i j, i < 2 * n → j < n → M.get i (n + j) = if i < n then -M.get (n + i) j else M.get (i - n) j := by
    intro i j hi hj
    rw [← l i j hi hj, ← r i j hi (by omega)]
    exact h.2.2 i j (by simpa [hr] using hi) (by show j < 2 * n; omega)
  have e1 : M.rows / 2 = n := by omega
  have e2 : M.cols / 2 = n := by omega
  refine ⟨by simp [e1, hr], by simp [e2, hc], fun i j hi hj => ?_⟩
  simp only [realify_rows, realify_cols, complexify_rows, complexify_cols, e1, e2] at hi hj
  simp only [realify, complexify, e1, e2]
  split_ifs with c d d
  · rfl
  · have := key i (j - n) hi (by omega)
    rw [show n + (j - n) = j by omega, if_pos c] at this
    rw [this, add_comm]
  · rw [show i - n + n = i by omega]
  · have := key i (j - n) hi (by omega)
    rw [show n + (j - n) = j by omega, if_neg c] at this
    rw [this]

end NpMat

end Escnn
