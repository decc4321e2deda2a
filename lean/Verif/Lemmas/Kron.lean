import Verif.Lemmas.MatAlg
import Verif.Model.Endo
import Mathlib.Data.List.GetD

/-!
# Kronecker products and padded blocks
-/

namespace Escnn

open NpMat

theorem sum_range_mul' {M : Type} [AddCommMonoid M] (p n : ℕ) (f : ℕ → ℕ → M) :
    ∑ i ∈ Finset.range (p * n), f (i / n) (i % n) = ∑ a ∈ Finset.range p, ∑ r ∈ Finset.range n, f a r := by
  rcases Nat.eq_zero_or_pos n with rfl | hn
  · simp
  induction p with
  | zero => simp
  | succ p ih =>
    rw [Finset.sum_range_succ, ← ih, show (p + 1) * n = p * n + n by ring, Finset.sum_range_add]
    congr 1
    refine Finset.sum_congr rfl fun r hr => ?_
    rw [Finset.mem_range] at hr
    rw [show (p * n + r) / n = p by rw [mul_comm, Nat.mul_add_div hn, Nat.div_eq_of_lt hr, add_zero],
      show (p * n + r) % n = r by rw [mul_comm, Nat.mul_add_mod, Nat.mod_eq_of_lt hr]]

namespace NpMat

@[simp] theorem kron_rows {R : Type} [CommRing R] (A B : NpMat R) : (kron A B).rows = A.rows * B.rows := rfl
@[simp] theorem kron_cols {R : Type} [CommRing R] (A B : NpMat R) : (kron A B).cols = A.cols * B.cols := rfl

/-- A scalar multiple of an array. -/
def smul (s : ℝ) (A : NpMat ℝ) : NpMat ℝ := ⟨A.rows, A.cols, fun i j => s * A.get i j⟩

theorem kron_mul {R : Type} [CommRing R] (A B C D : NpMat R) (h : A.cols = C.rows) (h' : B.cols = D.rows) :
    mul (kron A B) (kron C D) ≈ kron (mul A C) (mul B D) := by
  refine ⟨rfl, rfl, fun i j _ _ => ?_⟩
  simp only [mul, kron, ← h']
  rw [sum_range_mul' A.cols B.cols (fun a r => A.get (i / B.rows) a * B.get (i % B.rows) r *
    (C.get a (j / D.cols) * D.get r (j % D.cols))), Finset.sum_mul_sum]
  refine Finset.sum_congr rfl fun a _ => Finset.sum_congr rfl fun r _ => by ring

theorem kron_congr {R : Type} [CommRing R] {A A' B B' : NpMat R} (h : A ≈ A') (h' : B ≈ B') : kron A B ≈ kron A' B' := by
  obtain ⟨h1, h2, h3⟩ := h
  obtain ⟨k1, k2, k3⟩ := h'
  refine ⟨by simp [h1, k1], by simp [h2, k2], fun i j hi hj => ?_⟩
  simp only [kron_rows, kron_cols] at hi hj
  have hb : 0 < B.rows := Nat.pos_of_ne_zero fun h => by simp [h] at hi
  have hc : 0 < B.cols := Nat.pos_of_ne_zero fun h => by simp [h] at hj
  simp only [kron, ← k1, ← k2]
  rw [h3 _ _ (Nat.div_lt_of_lt_mul (by rwa [mul_comm])) (Nat.div_lt_of_lt_mul (by rwa [mul_comm])), k3 _ _ (Nat.mod_lt _ hb) (Nat.mod_lt _ hc)]

theorem kron_eye_eye {R : Type} [CommRing R] (m n : ℕ) : kron (eye m : NpMat R) (eye n) ≈ eye (m * n) := by
  refine ⟨rfl, rfl, fun i j hi hj => ?_⟩
  simp only [kron, eye]
  by_cases h : i = j
  · subst h; simp
  · rw [if_neg h]
    by_cases h1 : i / n = j / n
    · have : i % n ≠ j % n := fun h2 => h (by rw [← Nat.div_add_mod i n, h1, h2, Nat.div_add_mod])
      rw [if_neg this, mul_zero]
    · rw [if_neg h1, zero_mul]

theorem kron_transpose {R : Type} [CommRing R] (A B : NpMat R) : transpose (kron A B) ≈ kron (transpose A) (transpose B) := ⟨rfl, rfl, fun _ _ _ _ => rfl⟩

theorem kron_eye_one (A : NpMat ℝ) : kron A (eye 1) ≈ A := by
  refine ⟨by simp, by simp, fun i j _ _ => ?_⟩
  simp [kron, eye, Nat.mod_one]

theorem trace_kron {R : Type} [CommRing R] (A B : NpMat R) (h : A.rows = A.cols) (h' : B.rows = B.cols) : trace (kron A B) = trace A * trace B := by
  simp only [trace, kron]
  rw [← h', sum_range_mul' A.rows B.rows (fun a r => A.get a a * B.get r r), Finset.sum_mul_sum]

/-- Entrywise inner product. -/
noncomputable def frob (A B : NpMat ℝ) : ℝ := ∑ i ∈ Finset.range A.rows, ∑ j ∈ Finset.range A.cols, A.get i j * B.get i j

theorem frob_congr {A A' B B' : NpMat ℝ} (h : A ≈ A') (h' : B ≈ B') (hr : A.rows = B.rows) (hc : A.cols = B.cols) :
    frob A B = frob A' B' := by
  unfold frob
  rw [← h.1, ← h.2.1]
  refine Finset.sum_congr rfl fun i hi => Finset.sum_congr rfl fun j hj => ?_
  rw [Finset.mem_range] at hi hj
  rw [h.2.2 i j hi hj, h'.2.2 i j (hr ▸ hi) (hc ▸ hj)]

theorem frob_kron (A B C D : NpMat ℝ) (h1 : A.rows = C.rows) (h2 : A.cols = C.cols) (h3 : B.rows = D.rows) (h4 : B.cols = D.cols) :
    frob (kron A B) (kron C D) = frob A C * frob B D := by
  unfold frob
  simp only [kron, ← h3, ← h4]
  have e : ∀ i, ∑ j ∈ Finset.range (A.cols * B.cols), A.get (i / B.rows) (j / B.cols) * B.get (i % B.rows) (j % B.cols) *
      (C.get (i / B.rows) (j / B.cols) * D.get (i % B.rows) (j % B.cols)) =
      (∑ a ∈ Finset.range A.cols, A.get (i / B.rows) a * C.get (i / B.rows) a) *
      (∑ b ∈ Finset.range B.cols, B.get (i % B.rows) b * D.get (i % B.rows) b) := by
    intro i
    rw [sum_range_mul' A.cols B.cols (fun a r => A.get (i / B.rows) a * B.get (i % B.rows) r *
      (C.get (i / B.rows) a * D.get (i % B.rows) r)), Finset.sum_mul_sum]
    refine Finset.sum_congr rfl fun a _ => Finset.sum_congr rfl fun r _ => by ring
  rw [Finset.sum_congr rfl fun i _ => e i,
    sum_range_mul' A.rows B.rows (fun a r => (∑ x ∈ Finset.range A.cols, A.get a x * C.get a x) *
      (∑ y ∈ Finset.range B.cols, B.get r y * D.get r y)), Finset.sum_mul_sum]

theorem frob_eye (n : ℕ) : frob (eye n) (eye n) = n := by
  have : ∀ i ∈ Finset.range n, ∑ j ∈ Finset.range n, (eye n : NpMat ℝ).get i j * (eye n : NpMat ℝ).get i j = 1 := by
    intro i hi
    rw [Finset.mem_range] at hi
    simp [eye, hi]
  unfold frob
  rw [show (eye n : NpMat ℝ).rows = n from rfl, show (eye n : NpMat ℝ).cols = n from rfl, Finset.sum_congr rfl this]
  simp

theorem frob_comm (A B : NpMat ℝ) (hr : A.rows = B.rows) (hc : A.cols = B.cols) : frob A B = frob B A := by
  unfold frob
  rw [hr, hc]
  exact Finset.sum_congr rfl fun i _ => Finset.sum_congr rfl fun j _ => mul_comm _ _

/-! ### A block inside of a zero array -/

/-- `M = np.zeros((m, n)); M[p:p+h, q:q+w] = E` -/
noncomputable abbrev pad (m n p q : ℕ) (E : NpMat ℝ) : NpMat ℝ := setBlock (zeros m n) p q E

@[simp] theorem pad_rows (m n p q : ℕ) (E : NpMat ℝ) : (pad m n p q E).rows = m := rfl
@[simp] theorem pad_cols (m n p q : ℕ) (E : NpMat ℝ) : (pad m n p q E).cols = n := rfl

theorem pad_get (m n p q : ℕ) (E : NpMat ℝ) (i j : ℕ) : (pad m n p q E).get i j =
    if p ≤ i ∧ i < p + E.rows ∧ q ≤ j ∧ j < q + E.cols then E.get (i - p) (j - q) else 0 := rfl

theorem pad_congr (m n p q : ℕ) {E E' : NpMat ℝ} (h : E ≈ E') : pad m n p q E ≈ pad m n p q E' := by
  refine ⟨rfl, rfl, fun i j _ _ => ?_⟩
  rw [pad_get, pad_get, ← h.1, ← h.2.1]
  split_ifs with hh
  · exact h.2.2 _ _ (by omega) (by omega)
  · rfl

theorem sum_range_window (m p w : ℕ) (h : p + w ≤ m) (f : ℕ → ℝ) :
    ∑ i ∈ Finset.range m, (if p ≤ i ∧ i < p + w then f (i - p) else 0) = ∑ i ∈ Finset.range w, f i := by
  obtain ⟨r, rfl⟩ := Nat.exists_eq_add_of_le h
  rw [Finset.sum_range_add, Finset.sum_range_add]
  rw [Finset.sum_eq_zero (s := Finset.range p), zero_add, Finset.sum_eq_zero (s := Finset.range r), add_zero]
  · refine Finset.sum_congr rfl fun i hi => ?_
    rw [Finset.mem_range] at hi
    rw [if_pos (by omega)]; congr 1; omega
  · intro i _; rw [if_neg (by omega)]
  · intro i hi; rw [Finset.mem_range] at hi; rw [if_neg (by omega)]

theorem frob_pad_same (m n p q : ℕ) (E E' : NpMat ℝ) (hr : E.rows = E'.rows) (hc : E.cols = E'.cols)
    (h1 : p + E.rows ≤ m) (h2 : q + E.cols ≤ n) : frob (pad m n p q E) (pad m n p q E') = frob E E' := by
  unfold frob
  simp only [pad_rows, pad_cols]
  have e1 : ∀ i, ∑ j ∈ Finset.range n, (pad m n p q E).get i j * (pad m n p q E').get i j =
      if p ≤ i ∧ i < p + E.rows then ∑ j ∈ Finset.range E.cols, E.get (i - p) j * E'.get (i - p) j else 0 := by
    intro i
    split_ifs with h
    · rw [← sum_range_window n q E.cols h2 (fun j => E.get (i - p) j * E'.get (i - p) j)]
      refine Finset.sum_congr rfl fun j _ => ?_
      rw [pad_get, pad_get, ← hr, ← hc]
      by_cases hj : q ≤ j ∧ j < q + E.cols
      · rw [if_pos ⟨h.1, h.2, hj⟩, if_pos ⟨h.1, h.2, hj⟩, if_pos hj]
      · rw [if_neg (fun hh => hj hh.2.2), if_neg hj, zero_mul]
    · refine Finset.sum_eq_zero fun j _ => ?_
      rw [pad_get, if_neg (fun hh => h ⟨hh.1, hh.2.1⟩), zero_mul]
  rw [Finset.sum_congr rfl fun i _ => e1 i]
  exact sum_range_window m p E.rows h1 (fun i => ∑ j ∈ Finset.range E.cols, E.get i j * E'.get i j)

theorem frob_pad_disjoint (m n p q p' q' : ℕ) (E E' : NpMat ℝ)
    (h : p + E.rows ≤ p' ∨ p' + E'.rows ≤ p ∨ q + E.cols ≤ q' ∨ q' + E'.cols ≤ q) :
    frob (pad m n p q E) (pad m n p' q' E') = 0 := by
  unfold frob
  refine Finset.sum_eq_zero fun i _ => Finset.sum_eq_zero fun j _ => ?_
  rw [pad_get, pad_get]
  split_ifs with h1 h2 <;> first | (exfalso; omega) | simp

theorem mul_pad_left (X A Y : NpMat ℝ) (n q : ℕ) (E : NpMat ℝ) (hX : X.rows = X.cols) (hA : A.rows = A.cols)
    (hE : E.rows = A.rows) :
    mul (diag2 X (diag2 A Y)) (pad (X.rows + (A.rows + Y.rows)) n X.rows q E) ≈
      pad (X.rows + (A.rows + Y.rows)) n X.rows q (mul A E) := by
  refine ⟨rfl, rfl, fun i j _ _ => ?_⟩
  have e0 : (pad (X.rows + (A.rows + Y.rows)) n X.rows q (mul A E)).get i j =
      if X.rows ≤ i ∧ i < X.rows + A.rows ∧ q ≤ j ∧ j < q + E.cols then
        ∑ k ∈ Finset.range A.cols, A.get (i - X.rows) k * E.get k (j - q) else 0 := rfl
  rw [e0]
  simp only [mul, diag2_cols]
  rw [Finset.sum_range_add, Finset.sum_range_add]
  have z1 : ∑ x ∈ Finset.range X.cols, (diag2 X (diag2 A Y)).get i x *
      (pad (X.rows + (A.rows + Y.rows)) n X.rows q E).get x j = 0 := by
    refine Finset.sum_eq_zero fun x hx => ?_
    rw [Finset.mem_range] at hx
    rw [pad_get, if_neg (by omega), mul_zero]
  have z2 : ∑ x ∈ Finset.range Y.cols, (diag2 X (diag2 A Y)).get i (X.cols + (A.cols + x)) *
      (pad (X.rows + (A.rows + Y.rows)) n X.rows q E).get (X.cols + (A.cols + x)) j = 0 := by
    refine Finset.sum_eq_zero fun x _ => ?_
    rw [pad_get, if_neg (by omega), mul_zero]
  rw [z1, z2, zero_add, add_zero]
  by_cases hj : q ≤ j ∧ j < q + E.cols
  · by_cases hi : X.rows ≤ i ∧ i < X.rows + A.rows
    · rw [if_pos ⟨hi.1, hi.2, hj⟩]
      refine Finset.sum_congr rfl fun x hx => ?_
      rw [Finset.mem_range] at hx
      rw [pad_get, if_pos (by omega)]
      simp only [diag2]
      rw [if_neg (by omega), if_neg (by omega), if_pos (by omega), if_pos (by omega)]
      congr 2 <;> omega
    · rw [if_neg (fun h => hi ⟨h.1, h.2.1⟩)]
      refine Finset.sum_eq_zero fun x hx => ?_
      rw [Finset.mem_range] at hx
      simp only [diag2]
      by_cases h1 : i < X.rows
      · rw [if_pos h1, if_neg (by omega), zero_mul]
      · rw [if_neg h1, if_neg (by omega), if_neg (by omega), if_pos (by omega), zero_mul]
  · rw [if_neg (fun h => hj h.2.2)]
    refine Finset.sum_eq_zero fun x _ => ?_
    rw [pad_get, if_neg (fun h => hj h.2.2), mul_zero]

theorem transpose_pad (m n p q : ℕ) (E : NpMat ℝ) : transpose (pad m n p q E) ≈ pad n m q p (transpose E) := by
  refine ⟨rfl, rfl, fun i j _ _ => ?_⟩
  simp only [transpose, pad_get]
  exact if_congr (by tauto) rfl rfl

theorem mul_pad_right (X A Y : NpMat ℝ) (m p : ℕ) (E : NpMat ℝ) (hX : X.rows = X.cols) (hA : A.rows = A.cols)
    (hY : Y.rows = Y.cols) (hE : E.cols = A.rows) :
    mul (pad m (X.rows + (A.rows + Y.rows)) p X.rows E) (diag2 X (diag2 A Y)) ≈
      pad m (X.rows + (A.rows + Y.rows)) p X.rows (mul E A) := by
  have h := mul_pad_left (transpose X) (transpose A) (transpose Y) m p (transpose E) hX.symm hA.symm (by simp [hE, hA])
  simp only [transpose_rows, ← hX, ← hA, ← hY] at h
  have h' := transpose_congr h
  have hd : transpose (diag2 X (diag2 A Y)) ≈ diag2 (transpose X) (diag2 (transpose A) (transpose Y)) :=
    (diag2_transpose _ _).trans (diag2_congr (Eqv.refl _) (diag2_transpose _ _))
  have hh : mul (pad m (X.rows + (A.rows + Y.rows)) p X.rows E) (diag2 X (diag2 A Y)) ≈
      transpose (mul (diag2 (transpose X) (diag2 (transpose A) (transpose Y)))
        (pad (X.rows + (A.rows + Y.rows)) m X.rows p (transpose E))) := by
    refine Eqv.trans ?_ (transpose_mul _ _ ?_).symm
    · refine mul_congr ?_ (transpose_congr hd) ?_
      · exact transpose_congr (transpose_pad m (X.rows + (A.rows + Y.rows)) p X.rows E)
      · simp
    · simp [← hX, ← hA, ← hY]
  refine hh.trans (h'.trans ?_)
  refine (transpose_pad _ _ _ _ _).trans (pad_congr _ _ _ _ ?_)
  refine (transpose_mul _ _ (by simp [hE])).trans ?_
  exact Eqv.refl _

end NpMat
end Escnn
