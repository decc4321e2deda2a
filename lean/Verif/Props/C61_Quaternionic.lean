import Verif.Props.C61_Types

/-!
# C61: the tensor product of two irreps of quaternionic type

The library has no irreps of quaternionic type; a group defined by a user may have some (`IrreducibleRepresentation` accepts the type `'H'`).
-/

namespace Escnn

open NpMat

theorem antiReal_antiReal {A B : NpMat ℂ} (h : A.cols = B.rows) : mul (antiReal A) (antiReal B) ≈ realify (mul A (conj B)) := by
  refine ⟨rfl, rfl, fun i j hi hj => ?_⟩
  have hc : (antiReal A).cols = 2 * A.cols := rfl
  simp only [mul, hc]
  rw [sum_range_two_mul]
  simp only [antiReal, realify, mul_rows, mul_cols, conj]
  by_cases c : i < A.rows <;> by_cases d : j < B.cols <;> simp only [c, d, if_true, if_false] <;> (try rw [Complex.re_sum]) <;> (try rw [Complex.im_sum]) <;> (try rw [← Finset.sum_neg_distrib]) <;>
    refine Finset.sum_congr rfl fun k hk => ?_ <;>
    (rw [Finset.mem_range] at hk
     simp only [if_pos hk, if_pos (h ▸ hk : k < B.rows), if_neg (show ¬ A.cols + k < A.cols by omega), if_neg (show ¬ A.cols + k < B.rows by omega), Complex.mul_re, Complex.mul_im, Complex.star_def, Complex.conj_re, Complex.conj_im]
     rw [show A.cols + k - A.cols = k by omega, show A.cols + k - B.rows = k by omega]
     try ring)

theorem antiReal_symm {A : NpMat ℂ} (h : A ≈ transpose A) : antiReal A ≈ transpose (antiReal A) := by
  obtain ⟨h1, h2, h3⟩ := h
  have sq : A.rows = A.cols := h1
  refine ⟨by simp [antiReal, sq], by simp [antiReal, sq], fun i j hi hj => ?_⟩
  change i < 2 * A.rows at hi
  change j < 2 * A.cols at hj
  have h3' : ∀ i j, i < A.rows → j < A.cols → A.get i j = A.get j i := h3
  simp only [antiReal, transpose, sq]
  by_cases c : i < A.cols <;> by_cases d : j < A.cols <;> simp only [c, d, if_true, if_false] <;> rw [h3' _ _ (by omega) (by omega)]

theorem quatS_conj (q : ℕ) : mul (quatS q) (conj (quatS q)) ≈ scalar (2 * q) (-1) := by
  have e : conj (quatS q) ≈ kron (conj (ofRows 2 [[0, -Complex.I], [Complex.I, 0]])) (eye q) := (conj_kron _ _).trans (kron_congr (Eqv.refl _) (conj_eye q))
  refine (mul_congr (Eqv.refl _) e rfl).trans ((kron_mul _ _ _ _ rfl rfl).trans (Eqv.trans (kron_congr (A' := scalar 2 (-1)) (B' := scalar q 1) ?_ ?_) ?_))
  · refine ⟨rfl, rfl, fun i j hi hj => ?_⟩
    change i < 2 at hi
    change j < 2 at hj
    interval_cases i <;> interval_cases j <;> simp [mul, ofRows, conj, scalar, Finset.sum_range_succ]
  · exact mul_eye (eye q : NpMat ℂ)
  · simpa using kron_scalar 2 q (-1 : ℂ) 1

theorem quatS_transpose (q : ℕ) {i j : ℕ} (hi : i < 2 * q) (hj : j < 2 * q) : (quatS q).get i j = -(quatS q).get j i := by
  obtain ⟨i1, i2, -⟩ := index_split hi
  obtain ⟨j1, j2, -⟩ := index_split hj
  simp only [quatS, kron, eye_rows, eye_cols]
  have : (eye q : NpMat ℂ).get (i % q) (j % q) = (eye q : NpMat ℂ).get (j % q) (i % q) := by simp only [eye, eq_comm]
  rw [this]
  generalize i / q = a at *
  generalize j / q = b at *
  interval_cases a <;> interval_cases b <;> simp [ofRows]

theorem conj_mul_kron {Z₁ Z₂ S₁ S₂ : NpMat ℂ} (c1 : S₁.cols = Z₁.rows) (c2 : S₂.cols = Z₂.rows) (c3 : Z₁.cols = S₁.rows) (c4 : Z₂.cols = S₂.rows) (h₁ : mul S₁ (conj Z₁) ≈ mul Z₁ S₁) (h₂ : mul S₂ (conj Z₂) ≈ mul Z₂ S₂) :
    mul (kron S₁ S₂) (conj (kron Z₁ Z₂)) ≈ mul (kron Z₁ Z₂) (kron S₁ S₂) :=
  (mul_congr (Eqv.refl _) (conj_kron _ _) (by simp [c1, c2])).trans ((kron_mul _ _ _ _ (by simp [c1]) (by simp [c2])).trans ((kron_congr h₁ h₂).trans (kron_mul _ _ _ _ c3 c4).symm))

variable {G₁ I₁ G₂ I₂ : Type}
variable {El₁ : G₁ → Prop} {op₁ : G₁ → G₁ → G₁} {one₁ : G₁} {T₁ : IrrepTable G₁ I₁} {typ₁ : I₁ → IrrType}
variable {El₂ : G₂ → Prop} {op₂ : G₂ → G₂ → G₂} {one₂ : G₂} {T₂ : IrrepTable G₂ I₂} {typ₂ : I₂ → IrrType}

theorem TypedIrreps.quat {G I : Type} {El : G → Prop} {op : G → G → G} {one : G} {T : IrrepTable G I} {typ : I → IrrType} (h : TypedIrreps El op one T typ) {a : I} (ha : T.ok a = true) (hH : typ a = .H) :
    ∃ q, 0 < q ∧ T.size a = 4 * q ∧ ∀ g, El g → mul (quatS q) (conj (complexify (T.mat a g))) ≈ mul (complexify (T.mat a g)) (quatS q) := by
  obtain ⟨e, u, r⟩ := h.complex ha (by rw [hH]; decide)
  obtain ⟨hs, hc⟩ := h.endo a ha
  rw [hH] at hs hc
  have v := h.valid a ha
  obtain ⟨q, hq⟩ : ∃ q, T.size a = 4 * q := ⟨T.size a / 4, by have := hs.2; omega⟩
  refine ⟨q, by have := hs.1; omega, hq, fun g hg => ?_⟩
  refine quatS_intertwines ((u.rows g hg).trans (by omega)) ((u.cols g hg).trans (by omega)) ?_
  have k := hc (kron (ofRows 4 [[0, 0, 0, -1], [0, 0, 1, 0], [0, -1, 0, 0], [1, 0, 0, 0]]) (eye (T.size a / 4))) (by simp [endoBasis, endoCore]) g hg
  rw [show T.size a / 4 = q by omega] at k
  refine (mul_congr (r g hg) (Eqv.refl _) ?_).trans (k.trans (mul_congr (Eqv.refl _) (r g hg).symm ?_))
  · rw [(r g hg).2.1, v.cols g hg, hq]; rfl
  · rw [v.rows g hg, hq]; rfl

/-- **C61 does not hold** for two irreps of quaternionic type: the representation returned by `irrep`, declared irreducible of type `'H'` and of half the size of the tensor product, is reducible (the tensor product is four copies of an
irrep of real type, of a quarter of its size). -/
theorem C61_quaternionic_violation (h₁ : TypedIrreps El₁ op₁ one₁ T₁ typ₁) (h₂ : TypedIrreps El₂ op₂ one₂ T₂ typ₂) (junk : ℕ → ℕ → ℝ) {a : I₁} {b : I₂} (ha : T₁.ok a = true) (hb : T₂.ok b = true)
    (hH₁ : typ₁ a = .H) (hH₂ : typ₂ b = .H) : (dpTable junk T₁ typ₁ T₂ typ₂).ok (a, b, 0) = true ∧ dpType (typ₁ a) (typ₂ b) = .H ∧ (dpTable junk T₁ typ₁ T₂ typ₂).size (a, b, 0) = T₁.size a * T₂.size b / 2 ∧
    ¬ IrreducibleRep (prodEl El₁ El₂) ((dpTable junk T₁ typ₁ T₂ typ₂).mat (a, b, 0)) ((dpTable junk T₁ typ₁ T₂ typ₂).size (a, b, 0)) := by
  refine ⟨by simp [dpTable, ha, hb, hH₁], by rw [hH₁, hH₂]; rfl, by simp [dpTable, hH₁, hH₂], ?_⟩
  have hR₁ : typ₁ a ≠ .R := by rw [hH₁]; decide
  have hR₂ : typ₂ b ≠ .R := by rw [hH₂]; decide
  obtain ⟨e, e'⟩ := (dpTable_mat h₁ h₂ junk ha hb 0).2.2 hR₁ hR₂
  obtain ⟨-, u₁, -⟩ := h₁.complex ha hR₁
  obtain ⟨-, u₂, -⟩ := h₂.complex hb hR₂
  obtain ⟨q₁, p₁, z₁, s₁⟩ := h₁.quat ha hH₁
  obtain ⟨q₂, p₂, z₂, s₂⟩ := h₂.quat hb hH₂
  rw [e', show T₁.size a / 2 = 2 * q₁ by omega, show T₂.size b / 2 = 2 * q₂ by omega]
  rw [show T₁.size a / 2 = 2 * q₁ by omega] at u₁
  rw [show T₂.size b / 2 = 2 * q₂ by omega] at u₂
  obtain ⟨N, hN⟩ : ∃ N, N = 2 * q₁ * (2 * q₂) := ⟨_, rfl⟩
  rw [← hN]
  have Npos : 0 < N := by rw [hN]; positivity
  obtain ⟨Q, hQ⟩ : ∃ Q, Q = kron (quatS q₁) (quatS q₂) := ⟨_, rfl⟩
  have Qr : Q.rows = N := by rw [hQ, hN]; rfl
  have Qc : Q.cols = N := by rw [hQ, hN]; rfl
  have Qs : Q ≈ transpose Q := by
    refine ⟨Qr.trans Qc.symm, Qc.trans Qr.symm, fun i j hi hj => ?_⟩
    rw [Qr, hN] at hi
    rw [Qc, hN] at hj
    obtain ⟨i1, i2, -⟩ := index_split hi
    obtain ⟨j1, j2, -⟩ := index_split hj
    rw [hQ]
    show (quatS q₁).get (i / (2 * q₂)) (j / (2 * q₂)) * (quatS q₂).get (i % (2 * q₂)) (j % (2 * q₂)) = (quatS q₁).get (j / (2 * q₂)) (i / (2 * q₂)) * (quatS q₂).get (j % (2 * q₂)) (i % (2 * q₂))
    rw [quatS_transpose q₁ i1 j1, quatS_transpose q₂ i2 j2]
    ring
  have Qi : mul Q (conj Q) ≈ scalar N 1 := by
    rw [hQ]
    refine (mul_congr (Eqv.refl _) (conj_kron _ _) rfl).trans ((kron_mul _ _ _ _ rfl rfl).trans ((kron_congr (quatS_conj q₁) (quatS_conj q₂)).trans ?_))
    have := kron_scalar (2 * q₁) (2 * q₂) (-1 : ℂ) (-1)
    rw [← hN] at this
    simpa using this
  have Fi : mul (antiReal Q) (antiReal Q) ≈ eye (2 * N) := (antiReal_antiReal (Qc.trans Qr.symm)).trans ((realify_congr Qi).trans (realify_eye N))
  have Fs := antiReal_symm Qs
  have Fr : (antiReal Q).rows = 2 * N := by simp [antiReal, Qr]
  have Fc : (antiReal Q).cols = 2 * N := by simp [antiReal, Qc]
  intro hirr
  have h00 : (antiReal Q).get 0 0 = 0 := by
    simp only [antiReal, Qr, Qc, Npos, if_true]
    rw [hQ]
    simp [quatS, kron, ofRows]
  obtain ⟨P, hP⟩ : ∃ P : NpMat ℝ, P = ⟨2 * N, 2 * N, fun i j => ((eye (2 * N) : NpMat ℝ).get i j + (antiReal Q).get i j) / 2⟩ := ⟨_, rfl⟩
  have Pr : P.rows = 2 * N := by rw [hP]
  have Pc : P.cols = 2 * N := by rw [hP]
  have Pg : ∀ i j, P.get i j = ((eye (2 * N) : NpMat ℝ).get i j + (antiReal Q).get i j) / 2 := fun i j => by rw [hP]
  have mulP : ∀ R : NpMat ℝ, R.rows = 2 * N → ∀ i j, i < 2 * N → j < R.cols → (mul P R).get i j = (R.get i j + (mul (antiReal Q) R).get i j) / 2 := by
    intro R hR i j hi hj
    have := (eye_mul' R hR).2.2 i j hi hj
    rw [← this]
    simp only [mul, Pc, Pg, Fc, eye_cols]
    rw [← Finset.sum_add_distrib, Finset.sum_div]
    exact Finset.sum_congr rfl fun k _ => by ring
  have Pmul : ∀ R : NpMat ℝ, R.cols = 2 * N → ∀ i j, i < R.rows → j < 2 * N → (mul R P).get i j = (R.get i j + (mul R (antiReal Q)).get i j) / 2 := by
    intro R hR i j hi hj
    have := (mul_eye' R hR).2.2 i j hi hj
    rw [← this]
    simp only [mul, hR, Pg]
    rw [← Finset.sum_add_distrib, Finset.sum_div]
    exact Finset.sum_congr rfl fun k _ => by ring
  have key := hirr P Pr Pc ⟨Pr.trans Pc.symm, Pc.trans Pr.symm, fun i j hi hj => ?_⟩ ⟨rfl, rfl, fun i j hi hj => ?_⟩ fun g hg => ?_
  · have p0 : P.get 0 0 = 1 / 2 := by rw [Pg, h00]; simp [eye]
    rcases key with k | k
    · have := k.2.2 0 0 (by rw [Pr]; omega) (by rw [Pc]; omega)
      rw [p0] at this
      simp [zeros] at this
    · have := k.2.2 0 0 (by rw [Pr]; omega) (by rw [Pc]; omega)
      rw [p0] at this
      norm_num [eye] at this
  · rw [Pr] at hi
    rw [Pc] at hj
    show P.get i j = P.get j i
    rw [Pg, Pg, Fs.2.2 i j (by rw [Fr]; exact hi) (by rw [Fc]; exact hj)]
    simp only [transpose, eye, eq_comm]
  · have hi : i < 2 * N := by simpa [Pr] using hi
    have hj : j < 2 * N := by simpa [Pc] using hj
    rw [mulP P Pr i j hi (by rw [Pc]; exact hj), Pmul (antiReal Q) Fc i j (by rw [Fr]; exact hi) hj, Pg, Fi.2.2 i j (by simpa [Fr] using hi) (by simpa [Fc] using hj)]
    ring
  · have eg := e g hg
    have u := u₁.kron u₂
    have ur : (realify (kron (complexify (T₁.mat a g.1)) (complexify (T₂.mat b g.2)))).rows = 2 * N := by rw [hN]; exact u.realify.rows g hg
    have uc : (realify (kron (complexify (T₁.mat a g.1)) (complexify (T₂.mat b g.2)))).cols = 2 * N := by rw [hN]; exact u.realify.cols g hg
    simp only [twist, show ¬ (0 : ℤ) = 1 by norm_num, if_false] at eg
    have comm : mul (antiReal Q) (realify (kron (complexify (T₁.mat a g.1)) (complexify (T₂.mat b g.2)))) ≈ mul (realify (kron (complexify (T₁.mat a g.1)) (complexify (T₂.mat b g.2)))) (antiReal Q) := by
      have kr := u.rows g hg
      have kc := u.cols g hg
      refine (antiReal_mul (by rw [Qc, hN]; exact kr.symm)).trans (Eqv.trans (antiReal_congr ?_) (realify_antiReal (by rw [Qr, hN]; exact kc)).symm)
      rw [hQ]
      exact conj_mul_kron (u₁.rows _ hg.1).symm (u₂.rows _ hg.2).symm (u₁.cols _ hg.1) (u₂.cols _ hg.2) (s₁ _ hg.1) (s₂ _ hg.2)
    refine (mul_congr (Eqv.refl P) eg (by rw [eg.1, ur, Pc])).trans (Eqv.trans ?_ (mul_congr eg.symm (Eqv.refl P) (by rw [uc, Pr])))
    refine ⟨by rw [mul_rows, mul_rows, Pr, ur], by rw [mul_cols, mul_cols, Pc, uc], fun i j hi hj => ?_⟩
    have hi : i < 2 * N := by rwa [mul_rows, Pr] at hi
    rw [mul_cols] at hj
    rw [mulP _ ur i j hi hj, Pmul _ uc i j (by rw [ur]; exact hi) (by rwa [uc] at hj), comm.2.2 i j (by rw [mul_rows, Fr]; exact hi) (by rw [mul_cols]; exact hj)]

/-! ## The unit quaternions meet the hypotheses -/

/-- Quaternions `(w, x, y, z)`. -/
abbrev Quat := ℝ × ℝ × ℝ × ℝ

def Quat.op (p q : Quat) : Quat :=
  (p.1 * q.1 - p.2.1 * q.2.1 - p.2.2.1 * q.2.2.1 - p.2.2.2 * q.2.2.2, p.1 * q.2.1 + p.2.1 * q.1 + p.2.2.1 * q.2.2.2 - p.2.2.2 * q.2.2.1,
    p.1 * q.2.2.1 - p.2.1 * q.2.2.2 + p.2.2.1 * q.1 + p.2.2.2 * q.2.1, p.1 * q.2.2.2 + p.2.1 * q.2.2.1 - p.2.2.1 * q.2.1 + p.2.2.2 * q.1)

def Quat.unit (q : Quat) : Prop := q.1 ^ 2 + q.2.1 ^ 2 + q.2.2.1 ^ 2 + q.2.2.2 ^ 2 = 1

/-- The matrix of `x ↦ x * conj q` in the basis `1, k, j, i`. -/
def Quat.mat (q : Quat) : NpMat ℝ := ofRows 4 [[q.1, q.2.2.2, q.2.2.1, q.2.1], [-q.2.2.2, q.1, q.2.1, -q.2.2.1], [-q.2.2.1, -q.2.1, q.1, q.2.2.2], [-q.2.1, q.2.2.1, -q.2.2.2, q.1]]

/-- A table with this representation. -/
def Quat.table : IrrepTable Quat Unit := ⟨fun _ => true, fun _ => 4, fun _ => Quat.mat⟩

set_option maxHeartbeats 4000000 in
-- products of 4 × 4 arrays, entry by entry
theorem Quat.typed : TypedIrreps Quat.unit Quat.op (1, 0, 0, 0) Quat.table (fun _ => .H) := by
  have rows : ∀ q, (Quat.mat q).rows = 4 := fun _ => rfl
  have cols : ∀ q, (Quat.mat q).cols = 4 := fun _ => rfl
  refine ⟨by simp [Quat.unit], fun g h hg hh => ?_, fun _ _ => ⟨fun q _ => rfl, fun q _ => rfl, ⟨rfl, rfl, fun i j hi hj => ?_⟩, fun g h _ _ => ⟨rfl, rfl, fun i j hi hj => ?_⟩, fun g hg => ⟨rfl, ⟨rfl, rfl, fun i j hi hj => ?_⟩,
    ⟨rfl, rfl, fun i j hi hj => ?_⟩⟩⟩, fun _ _ => ⟨⟨show 0 < 4 by decide, show 4 % 4 = 0 by decide⟩, fun E hE g _ => ?_⟩⟩
  · unfold Quat.unit at *
    have : ∀ a b c d e f u v : ℝ, a ^ 2 + b ^ 2 + c ^ 2 + d ^ 2 = 1 → e ^ 2 + f ^ 2 + u ^ 2 + v ^ 2 = 1 →
        (a * e - b * f - c * u - d * v) ^ 2 + (a * f + b * e + c * v - d * u) ^ 2 + (a * u - b * v + c * e + d * f) ^ 2 + (a * v + b * u - c * f + d * e) ^ 2 = 1 := by
      intro a b c d e f u v h1 h2
      have : (a ^ 2 + b ^ 2 + c ^ 2 + d ^ 2) * (e ^ 2 + f ^ 2 + u ^ 2 + v ^ 2) = 1 := by rw [h1, h2]; norm_num
      linarith [this]
    exact this _ _ _ _ _ _ _ _ hg hh
  · change i < 4 at hi
    change j < 4 at hj
    simp only [Quat.table, Quat.mat]
    interval_cases i <;> interval_cases j <;> simp [ofRows, eye]
  · change i < 4 at hi
    change j < 4 at hj
    simp only [Quat.table, mul, cols, Finset.sum_range_succ, Finset.sum_range_zero, Quat.mat, Quat.op]
    interval_cases i <;> interval_cases j <;> simp [ofRows, Finset.sum_range_succ] <;> ring
  · change i < 4 at hi
    change j < 4 at hj
    unfold Quat.unit at hg
    simp only [Quat.table, mul, cols, rows, transpose, Finset.sum_range_succ, Finset.sum_range_zero, Quat.mat]
    interval_cases i <;> interval_cases j <;> simp [ofRows, eye, Finset.sum_range_succ] <;> linarith
  · change i < 4 at hi
    change j < 4 at hj
    unfold Quat.unit at hg
    simp only [Quat.table, mul, cols, rows, transpose, transpose_cols, Finset.sum_range_succ, Finset.sum_range_zero, Quat.mat]
    interval_cases i <;> interval_cases j <;> simp [ofRows, eye, Finset.sum_range_succ] <;> linarith
  · have h1 : ∀ A : NpMat ℝ, kron A (eye (4 / 4)) ≈ A := kron_eye_one
    have key : ∀ A : NpMat ℝ, A.rows = 4 → A.cols = 4 → mul (Quat.mat g) A ≈ mul A (Quat.mat g) → mul (Quat.mat g) (kron A (eye (4 / 4))) ≈ mul (kron A (eye (4 / 4))) (Quat.mat g) := by
      intro A hr hc hA
      refine (mul_congr_right _ (h1 A) ?_).trans (hA.trans (mul_congr_left _ (h1 A) ?_).symm)
      · show 4 = A.rows * 1; omega
      · show A.cols * 1 = 4; omega
    simp only [Quat.table, endoBasis, endoCore, List.map_cons, List.map_nil, List.mem_cons, List.not_mem_nil, or_false] at hE
    rcases hE with rfl | rfl | rfl | rfl
    · exact key _ rfl rfl (commute_eye rfl rfl)
    all_goals
      refine key _ rfl rfl ⟨rfl, rfl, fun i j hi hj => ?_⟩
      change i < 4 at hi
      change j < 4 at hj
      have oc : ∀ L : List (List ℝ), (ofRows 4 L).cols = 4 := fun _ => rfl
      simp only [mul, cols, oc, Finset.sum_range_succ, Finset.sum_range_zero, Quat.mat]
      interval_cases i <;> interval_cases j <;> simp [ofRows]

example : ¬ IrreducibleRep (prodEl Quat.unit Quat.unit) ((dpTable (fun _ _ => 0) Quat.table (fun _ => .H) Quat.table (fun _ => .H)).mat ((), (), 0)) 8 :=
  (C61_quaternionic_violation Quat.typed Quat.typed (fun _ _ => 0) (a := ()) (b := ()) rfl rfl rfl rfl).2.2.2

end Escnn
