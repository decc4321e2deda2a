import Verif.Lemmas.Realify

/-!
# Matrices which intertwine Kronecker products and realifications
-/

namespace Escnn

open NpMat

namespace NpMat

variable {R : Type} [CommRing R]

/-- The block of `M` at `(a, b)`, of size `n × n`. -/
def outer (M : NpMat R) (n a b : ℕ) : NpMat R := ⟨n, n, fun i j => M.get (a * n + i) (b * n + j)⟩

/-- The entries of `M` at position `(i, j)` of its `n × n` blocks. -/
def inner (M : NpMat R) (m n i j : ℕ) : NpMat R := ⟨m, m, fun a b => M.get (a * n + i) (b * n + j)⟩

theorem mul_add_lt {m n a i : ℕ} (ha : a < m) (hi : i < n) : a * n + i < m * n := by
  calc a * n + i < a * n + n := by omega
    _ = (a + 1) * n := by ring
    _ ≤ m * n := Nat.mul_le_mul_right _ ha

theorem mul_add_div' {n a i : ℕ} (hi : i < n) : (a * n + i) / n = a := by
  rw [mul_comm, Nat.mul_add_div (by omega), Nat.div_eq_of_lt hi, add_zero]

theorem mul_add_mod'' {n a i : ℕ} (hi : i < n) : (a * n + i) % n = i := by
  rw [mul_comm, Nat.mul_add_mod, Nat.mod_eq_of_lt hi]

theorem mul_kron_eye_get (M A : NpMat R) (n : ℕ) (hM : M.cols = A.rows * n) {x b j : ℕ} (hj : j < n) :
    (mul M (kron A (eye n))).get x (b * n + j) = ∑ c ∈ Finset.range A.rows, M.get x (c * n + j) * A.get c b := by
  simp only [mul, hM, kron, eye_rows, eye_cols]
  have := sum_range_mul' A.rows n (fun c r => M.get x (c * n + r) * (A.get c ((b * n + j) / n) * (eye n : NpMat R).get r ((b * n + j) % n)))
  refine (Finset.sum_congr rfl fun k _ => ?_).trans (this.trans (Finset.sum_congr rfl fun c _ => ?_))
  · rw [show k / n * n + k % n = k by rw [mul_comm]; exact Nat.div_add_mod k n]
  · rw [Finset.sum_eq_single j, mul_add_div' hj, mul_add_mod'' hj]
    · simp [eye]
    · intro r _ hr
      rw [mul_add_mod'' hj]
      simp [eye, hr]
    · intro h; exact absurd (Finset.mem_range.2 hj) h

theorem mul_kron_eye_left_get (M B : NpMat R) (m n : ℕ) (hB : B.rows = n) (hB' : B.cols = n) (hM : M.cols = m * n) {x b j : ℕ} (hb : b < m) (hj : j < n) :
    (mul M (kron (eye m) B)).get x (b * n + j) = ∑ r ∈ Finset.range n, M.get x (b * n + r) * B.get r j := by
  simp only [mul, hM, kron, hB, hB']
  have := sum_range_mul' m n (fun c r => M.get x (c * n + r) * ((eye m : NpMat R).get c ((b * n + j) / n) * B.get r ((b * n + j) % n)))
  refine (Finset.sum_congr rfl fun k _ => ?_).trans (this.trans ?_)
  · rw [show k / n * n + k % n = k by rw [mul_comm]; exact Nat.div_add_mod k n]
  · rw [Finset.sum_eq_single b, mul_add_div' hj, mul_add_mod'' hj]
    · simp [eye]
    · intro c _ hc
      rw [mul_add_div' hj]
      simp [eye, hc]
    · intro h; exact absurd (Finset.mem_range.2 hb) h

theorem kron_eye_mul_get (M A : NpMat R) (n : ℕ) {a i y : ℕ} (hi : i < n) :
    (mul (kron A (eye n)) M).get (a * n + i) y = ∑ c ∈ Finset.range A.cols, A.get a c * M.get (c * n + i) y := by
  simp only [mul, kron, eye_rows, eye_cols]
  have := sum_range_mul' A.cols n (fun c r => A.get ((a * n + i) / n) c * (eye n : NpMat R).get ((a * n + i) % n) r * M.get (c * n + r) y)
  refine (Finset.sum_congr rfl fun k _ => ?_).trans (this.trans (Finset.sum_congr rfl fun c _ => ?_))
  · rw [show k / n * n + k % n = k by rw [mul_comm]; exact Nat.div_add_mod k n]
  · rw [Finset.sum_eq_single i, mul_add_div' hi, mul_add_mod'' hi]
    · simp [eye]
    · intro r _ hr
      rw [mul_add_mod'' hi]
      simp [eye, Ne.symm hr]
    · intro h; exact absurd (Finset.mem_range.2 hi) h

theorem kron_eye_left_mul_get (M B : NpMat R) (m n : ℕ) (hB : B.rows = n) (hB' : B.cols = n) {a i y : ℕ} (ha : a < m) (hi : i < n) :
    (mul (kron (eye m) B) M).get (a * n + i) y = ∑ r ∈ Finset.range n, B.get i r * M.get (a * n + r) y := by
  simp only [mul, kron, eye_cols, hB, hB']
  have := sum_range_mul' m n (fun c r => (eye m : NpMat R).get ((a * n + i) / n) c * B.get ((a * n + i) % n) r * M.get (c * n + r) y)
  refine (Finset.sum_congr rfl fun k _ => ?_).trans (this.trans ?_)
  · rw [show k / n * n + k % n = k by rw [mul_comm]; exact Nat.div_add_mod k n]
  · rw [Finset.sum_eq_single a, mul_add_div' hi, mul_add_mod'' hi]
    · simp [eye]
    · intro c _ hc
      rw [mul_add_div' hi]
      simp [eye, Ne.symm hc]
    · intro h; exact absurd (Finset.mem_range.2 ha) h

/-- A matrix which intertwines `A₁ ⊗ 1` and `A₂ ⊗ 1` consists of matrices which intertwine `A₁` and `A₂`. -/
theorem inner_intertwines {M A₁ A₂ : NpMat R} {m n : ℕ} (hr : M.rows = m * n) (hc : M.cols = m * n) (h1 : A₁.rows = m) (h1' : A₁.cols = m) (h2' : A₂.cols = m)
    (h2 : A₂.rows = m) (h : mul M (kron A₁ (eye n)) ≈ mul (kron A₂ (eye n)) M) {i j : ℕ} (hi : i < n) (hj : j < n) : mul (inner M m n i j) A₁ ≈ mul A₂ (inner M m n i j) := by
  refine ⟨h2.symm, h1', fun a b ha hb => ?_⟩
  have := h.2.2 (a * n + i) (b * n + j) (by rw [mul_rows, hr]; exact mul_add_lt ha hi) (by simp only [mul_cols, kron_cols, eye_cols, h1'] at hb ⊢; exact mul_add_lt hb hj)
  rw [mul_kron_eye_get _ _ _ (by rw [hc, h1]) hj, kron_eye_mul_get _ _ _ hi] at this
  rw [h1, h2'] at this
  simpa only [mul, inner, h2'] using this

/-- A matrix which intertwines `1 ⊗ B₁` and `1 ⊗ B₂` consists of blocks which intertwine `B₁` and `B₂`. -/
theorem outer_intertwines {M B₁ B₂ : NpMat R} {m n : ℕ} (hr : M.rows = m * n) (hc : M.cols = m * n) (h1 : B₁.rows = n) (h1' : B₁.cols = n) (h2 : B₂.rows = n) (h2' : B₂.cols = n)
    (h : mul M (kron (eye m) B₁) ≈ mul (kron (eye m) B₂) M) {a b : ℕ} (ha : a < m) (hb : b < m) : mul (outer M n a b) B₁ ≈ mul B₂ (outer M n a b) := by
  refine ⟨h2.symm, h1', fun i j hi hj => ?_⟩
  simp only [mul_rows, mul_cols, h1'] at hi hj
  have := h.2.2 (a * n + i) (b * n + j) (by rw [mul_rows, hr]; exact mul_add_lt ha hi) (by simp only [mul_cols, kron_cols, eye_cols, h1']; exact mul_add_lt hb hj)
  rw [mul_kron_eye_left_get _ _ m n h1 h1' hc hb hj, kron_eye_left_mul_get _ _ m n h2 h2' ha hi] at this
  simpa only [mul, outer, h2'] using this

/-! ### The linear and the antilinear part of a real matrix -/

/-- Twice the linear part of the real `2n × 2n` array `M`, as a complex array. -/
def linPart (M : NpMat ℝ) (n : ℕ) : NpMat ℂ := ⟨n, n, fun i j => ⟨M.get i j + M.get (n + i) (n + j), M.get (n + i) j - M.get i (n + j)⟩⟩

/-- Twice the antilinear part of the real `2n × 2n` array `M`, as a complex array. -/
def antiPart (M : NpMat ℝ) (n : ℕ) : NpMat ℂ := ⟨n, n, fun i j => ⟨M.get i j - M.get (n + i) (n + j), M.get (n + i) j + M.get i (n + j)⟩⟩

section parts

variable {M : NpMat ℝ} {W₁ W₂ : NpMat ℂ} {n : ℕ}

theorem mul_realify_get (hc : M.cols = 2 * n) (hW : W₁.rows = n) {x j : ℕ} (hj : j < W₁.cols) :
    (mul M (realify W₁)).get x j = ∑ k ∈ Finset.range n, M.get x k * (W₁.get k j).re + ∑ k ∈ Finset.range n, M.get x (n + k) * (W₁.get k j).im ∧
    (mul M (realify W₁)).get x (W₁.cols + j) = -∑ k ∈ Finset.range n, M.get x k * (W₁.get k j).im + ∑ k ∈ Finset.range n, M.get x (n + k) * (W₁.get k j).re := by
  simp only [mul, hc]
  rw [sum_range_two_mul, sum_range_two_mul, ← Finset.sum_neg_distrib, ← Finset.sum_add_distrib, ← Finset.sum_add_distrib]
  constructor <;> refine Finset.sum_congr rfl fun k hk => ?_ <;> rw [Finset.mem_range] at hk
  · simp only [realify, hW, if_pos hk, if_pos hj, if_neg (show ¬ n + k < n by omega)]
    rw [show n + k - n = k by omega]
  · simp only [realify, hW, if_pos hk, if_neg (show ¬ W₁.cols + j < W₁.cols by omega), if_neg (show ¬ n + k < n by omega)]
    rw [show n + k - n = k by omega, show W₁.cols + j - W₁.cols = j by omega]
    ring

theorem realify_mul_get (hW : W₂.cols = n) {i y : ℕ} (hi : i < W₂.rows) :
    (mul (realify W₂) M).get i y = ∑ k ∈ Finset.range n, (W₂.get i k).re * M.get k y - ∑ k ∈ Finset.range n, (W₂.get i k).im * M.get (n + k) y ∧
    (mul (realify W₂) M).get (W₂.rows + i) y = ∑ k ∈ Finset.range n, (W₂.get i k).im * M.get k y + ∑ k ∈ Finset.range n, (W₂.get i k).re * M.get (n + k) y := by
  simp only [mul, realify_cols, hW]
  rw [sum_range_two_mul, sum_range_two_mul, ← Finset.sum_sub_distrib, ← Finset.sum_add_distrib]
  constructor <;> refine Finset.sum_congr rfl fun k hk => ?_ <;> rw [Finset.mem_range] at hk
  · simp only [realify, hW, if_pos hk, if_pos hi, if_neg (show ¬ n + k < n by omega)]
    rw [show n + k - n = k by omega]
    ring
  · simp only [realify, hW, if_pos hk, if_neg (show ¬ W₂.rows + i < W₂.rows by omega), if_neg (show ¬ n + k < n by omega)]
    rw [show n + k - n = k by omega, show W₂.rows + i - W₂.rows = i by omega]

theorem parts_intertwine (hr : M.rows = 2 * n) (hc : M.cols = 2 * n) (h1 : W₁.rows = n) (h1' : W₁.cols = n) (h2 : W₂.rows = n) (h2' : W₂.cols = n)
    (h : mul M (realify W₁) ≈ mul (realify W₂) M) : mul (linPart M n) W₁ ≈ mul W₂ (linPart M n) ∧ mul (antiPart M n) (conj W₁) ≈ mul W₂ (antiPart M n) := by
  have key : ∀ i j, i < n → j < n → _ := fun i j hi hj =>
    And.intro (h.2.2 i j (by simp [hr]; omega) (by simp [h1']; omega)) (And.intro (h.2.2 (n + i) j (by simp [hr]; omega) (by simp [h1']; omega))
      (And.intro (h.2.2 i (n + j) (by simp [hr]; omega) (by simp [h1']; omega)) (h.2.2 (n + i) (n + j) (by simp [hr]; omega) (by simp [h1']; omega))))
  constructor <;> refine ⟨h2.symm, h1', fun i j hi hj => ?_⟩ <;> simp only [mul_cols, conj_cols, h1'] at hj <;> change i < n at hi <;> obtain ⟨k1, k2, k3, k4⟩ := key i j hi hj <;>
    (rw [(mul_realify_get hc h1 (h1'.symm ▸ hj)).1, (realify_mul_get h2' (h2.symm ▸ hi)).1] at k1
     rw [(mul_realify_get hc h1 (h1'.symm ▸ hj)).1] at k2
     have e2 := (realify_mul_get (M := M) (y := j) h2' (h2.symm ▸ hi)).2
     rw [h2] at e2
     rw [e2] at k2
     rw [(realify_mul_get h2' (h2.symm ▸ hi)).1] at k3
     have e3 := (mul_realify_get (M := M) (x := i) hc h1 (h1'.symm ▸ hj)).2
     rw [h1'] at e3
     rw [e3] at k3
     have e4 := (mul_realify_get (M := M) (x := n + i) hc h1 (h1'.symm ▸ hj)).2
     have e4' := (realify_mul_get (M := M) (y := n + j) h2' (h2.symm ▸ hi)).2
     rw [h1'] at e4
     rw [h2] at e4'
     rw [e4, e4'] at k4)
  · simp only [mul, h2']
    refine Complex.ext ?_ ?_
    · simp only [linPart, Complex.re_sum, Complex.mul_re, add_mul, sub_mul, mul_add, mul_sub, Finset.sum_add_distrib, Finset.sum_sub_distrib]
      linarith
    · simp only [linPart, Complex.im_sum, Complex.mul_im, add_mul, sub_mul, mul_add, mul_sub, Finset.sum_add_distrib, Finset.sum_sub_distrib]
      linarith
  · simp only [mul, h2']
    refine Complex.ext ?_ ?_
    · simp only [antiPart, conj, Complex.star_def, Complex.conj_re, Complex.conj_im, Complex.re_sum, Complex.mul_re, add_mul, sub_mul, mul_add, mul_sub, mul_neg, Finset.sum_add_distrib, Finset.sum_sub_distrib, Finset.sum_neg_distrib]
      linarith
    · simp only [antiPart, conj, Complex.star_def, Complex.conj_re, Complex.conj_im, Complex.im_sum, Complex.mul_im, add_mul, sub_mul, mul_add, mul_sub, mul_neg, Finset.sum_add_distrib, Finset.sum_sub_distrib, Finset.sum_neg_distrib]
      linarith

end parts

end NpMat

end Escnn
