import Verif.Lemmas.TensorSplit
import Verif.Spec.IrrType

/-!
# The types of tensor products
-/

namespace Escnn

open NpMat

variable {E : Type} {El : E → Prop} {op : E → E → E} {one : E} {n : ℕ}

/-- Only multiples of the identity commute with the complex representation `Z`. -/
def LinType (El : E → Prop) (Z : E → NpMat ℂ) (n : ℕ) : Prop := ∀ P : NpMat ℂ, P.rows = n → P.cols = n → (∀ g, El g → mul P (Z g) ≈ mul (Z g) P) → ∃ z : ℂ, P ≈ scalar n z

/-- `Z` is not equivalent to its conjugate. -/
def AntiType (El : E → Prop) (Z : E → NpMat ℂ) (n : ℕ) : Prop := ∀ Q : NpMat ℂ, Q.rows = n → Q.cols = n → (∀ g, El g → mul Q (conj (Z g)) ≈ mul (Z g) Q) → Q ≈ scalar n 0

theorem scalar_conj (n : ℕ) (z : ℂ) : conj (scalar n z) ≈ scalar n (star z) := ⟨rfl, rfl, fun i j _ _ => by simp only [conj, scalar]; split_ifs <;> simp⟩

theorem LinType.conj {Z : E → NpMat ℂ} (h : LinType El Z n) (hr : ∀ g, El g → (Z g).rows = n) : LinType El (fun g => NpMat.conj (Z g)) n := by
  intro P p1 p2 hP
  obtain ⟨z, hz⟩ := h (NpMat.conj P) p1 p2 fun g hg =>
    (mul_congr (Eqv.refl _) (conj_conj _).symm (by simp [p2, hr g hg])).trans ((conj_mul _ _).symm.trans ((conj_congr (hP g hg)).trans ((conj_mul _ _).trans (mul_congr (conj_conj _) (Eqv.refl _) (by
      have := (hP g hg).2.1; simp at this; simp [this, p2, p1])))))
  exact ⟨star z, (conj_conj P).symm.trans ((conj_congr hz).trans (scalar_conj n z))⟩

theorem AntiType.conj {Z : E → NpMat ℂ} (h : AntiType El Z n) (hr : ∀ g, El g → (Z g).rows = n ∧ (Z g).cols = n) : AntiType El (fun g => NpMat.conj (Z g)) n := by
  intro Q q1 q2 hQ
  have := h (NpMat.conj Q) q1 q2 fun g hg => (conj_mul Q _).symm.trans ?_
  · exact (conj_conj Q).symm.trans ((conj_congr this).trans ((scalar_conj n 0).trans (by simp only [star_zero]; exact Eqv.refl _)))
  · refine Eqv.trans (conj_congr ?_) ((conj_mul _ _).trans (mul_congr (conj_conj _) (Eqv.refl _) (by simp [q1, hr g hg])))
    exact (mul_congr (Eqv.refl _) (conj_conj _).symm (by simp [q2, hr g hg])).trans (hQ g hg)

theorem LinType.of_congr {Z Z' : E → NpMat ℂ} (h : LinType El Z n) (hr : ∀ g, El g → (Z g).rows = n ∧ (Z g).cols = n) (e : ∀ g, El g → Z' g ≈ Z g) : LinType El Z' n := fun P p1 p2 hP =>
  h P p1 p2 fun g hg => (mul_congr (Eqv.refl _) (e g hg).symm (by simp [p2, hr g hg])).trans ((hP g hg).trans (mul_congr (e g hg) (Eqv.refl _) (by rw [(e g hg).2.1, (hr g hg).2, p1])))

/-- Real representations of real type have only scalars in their complex commutant. -/
theorem HasType.lin_real {ρ : E → NpMat ℝ} (h : HasType El ρ .R n) : LinType El (fun g => ofReal (ρ g)) n := by
  intro P p1 p2 hP
  have part : ∀ f : ℂ → ℝ, (∀ (s : Finset ℕ) (u : ℕ → ℂ), f (∑ k ∈ s, u k) = ∑ k ∈ s, f (u k)) → (∀ (x : ℂ) (r : ℝ), f (x * r) = f x * r) →
      ∃ c : ℝ, ∀ i j, i < n → j < n → f (P.get i j) = if i = j then c else 0 := by
    intro f f1 f2
    have f2' : ∀ (r : ℝ) (x : ℂ), f (r * x) = r * f x := fun r x => by rw [mul_comm, f2, mul_comm]
    have comm : ∀ g, El g → mul ⟨n, n, fun i j => f (P.get i j)⟩ (ρ g) ≈ mul (ρ g) ⟨n, n, fun i j => f (P.get i j)⟩ := by
      intro g hg
      obtain ⟨a, b, d⟩ := hP g hg
      simp only [mul_rows, mul_cols, ofReal_rows, ofReal_cols, p1, p2] at a b
      refine ⟨a, b, fun i j hi hj => ?_⟩
      have := congrArg f (d i j (by simpa [p1] using hi) (by simpa using hj))
      simpa only [mul, f1, f2, f2', ofReal, p2] using this
    obtain ⟨c, hc⟩ := h.full ⟨n, n, fun i j => f (P.get i j)⟩ rfl rfl comm
    refine ⟨c 0, fun i j hi hj => ?_⟩
    have := hc i j hi hj
    simpa [IrrType.sumsq, endoBasis, eye] using this
  obtain ⟨a, ha⟩ := part Complex.re (fun s u => Complex.re_sum s u) (fun x r => by simp)
  obtain ⟨b, hb⟩ := part Complex.im (fun s u => Complex.im_sum s u) (fun x r => by simp)
  refine ⟨⟨a, b⟩, p1, p2, fun i j hi hj => ?_⟩
  rw [p1] at hi
  rw [p2] at hj
  refine Complex.ext ((ha i j hi hj).trans ?_) ((hb i j hi hj).trans ?_) <;> simp only [scalar] <;> split_ifs <;> rfl

/-- The antilinear real matrix of `Q`. -/
def antiReal (Q : NpMat ℂ) : NpMat ℝ where
  rows := 2 * Q.rows
  cols := 2 * Q.cols
  get i j :=
    if i < Q.rows then (if j < Q.cols then (Q.get i j).re else (Q.get i (j - Q.cols)).im)
    else (if j < Q.cols then (Q.get (i - Q.rows) j).im else -(Q.get (i - Q.rows) (j - Q.cols)).re)

theorem antiReal_mul {Q W : NpMat ℂ} (h : Q.cols = W.rows) : mul (antiReal Q) (realify W) ≈ antiReal (mul Q (conj W)) := by
  refine ⟨rfl, rfl, fun i j hi hj => ?_⟩
  have hc : (antiReal Q).cols = 2 * Q.cols := rfl
  simp only [mul, hc]
  rw [sum_range_two_mul]
  simp only [antiReal, realify, mul_rows, mul_cols, conj]
  by_cases c : i < Q.rows <;> by_cases d : j < W.cols <;> simp only [c, d, if_true, if_false] <;> (try rw [Complex.re_sum]) <;> (try rw [Complex.im_sum]) <;> (try rw [← Finset.sum_neg_distrib]) <;>
    refine Finset.sum_congr rfl fun k hk => ?_ <;>
    (rw [Finset.mem_range] at hk
     simp only [if_pos hk, if_pos (h ▸ hk : k < W.rows), if_neg (show ¬ Q.cols + k < Q.cols by omega), if_neg (show ¬ Q.cols + k < W.rows by omega), Complex.mul_re, Complex.mul_im, Complex.star_def, Complex.conj_re, Complex.conj_im]
     rw [show Q.cols + k - Q.cols = k by omega, show Q.cols + k - W.rows = k by omega]
     try ring)

theorem realify_antiReal {W Q : NpMat ℂ} (h : W.cols = Q.rows) : mul (realify W) (antiReal Q) ≈ antiReal (mul W Q) := by
  refine ⟨rfl, rfl, fun i j hi hj => ?_⟩
  simp only [mul, realify_cols]
  rw [sum_range_two_mul]
  simp only [antiReal, realify, mul_rows, mul_cols]
  by_cases c : i < W.rows <;> by_cases d : j < Q.cols <;> simp only [c, d, if_true, if_false] <;> (try rw [Complex.re_sum]) <;> (try rw [Complex.im_sum]) <;> (try rw [← Finset.sum_neg_distrib]) <;>
    refine Finset.sum_congr rfl fun k hk => ?_ <;>
    (rw [Finset.mem_range] at hk
     simp only [if_pos hk, if_pos (h ▸ hk : k < Q.rows), if_neg (show ¬ W.cols + k < W.cols by omega), if_neg (show ¬ W.cols + k < Q.rows by omega), Complex.mul_re, Complex.mul_im]
     rw [show W.cols + k - W.cols = k by omega, show W.cols + k - Q.rows = k by omega]
     try ring)

theorem antiReal_congr {Z W : NpMat ℂ} (h : Z ≈ W) : antiReal Z ≈ antiReal W := by
  obtain ⟨h1, h2, h3⟩ := h
  refine ⟨by simp [antiReal, h1], by simp [antiReal, h2], fun i j hi hj => ?_⟩
  simp only [antiReal] at hi hj
  simp only [antiReal, ← h1, ← h2]
  split_ifs <;> rw [h3 _ _ (by omega) (by omega)]

/-- The entries of the basis of type `C`. -/
theorem endoC_get (n i j : ℕ) (hi : i < 2 * n) (hj : j < 2 * n) (c : ℕ → ℝ) :
    ∑ k ∈ Finset.range (IrrType.sumsq .C), c k * ((endoBasis .C (2 * n)).getD k (zeros 0 0)).get i j = (realify (scalar n ⟨c 0, c 1⟩)).get i j := by
  have hn : 0 < n := by omega
  have e2 : 2 * n / 2 = n := by omega
  simp only [IrrType.sumsq, Finset.sum_range_succ, Finset.sum_range_zero, zero_add, endoBasis, endoCore, List.map_cons, List.map_nil, List.getD_cons_zero, List.getD_cons_succ, e2]
  simp only [kron, ofRows, eye, realify, scalar]
  by_cases ci : i < n <;> by_cases cj : j < n
  · simp only [ci, cj, if_true, Nat.div_eq_of_lt ci, Nat.div_eq_of_lt cj, Nat.mod_eq_of_lt ci, Nat.mod_eq_of_lt cj]
    split_ifs <;> simp
  · obtain ⟨b, rfl⟩ : ∃ b, j = n + b := ⟨j - n, by omega⟩
    have hb : b < n := by omega
    simp only [ci, cj, if_true, if_false, Nat.div_eq_of_lt ci, Nat.mod_eq_of_lt ci, Nat.add_div_left _ hn, Nat.div_eq_of_lt hb, Nat.add_mod_left, Nat.mod_eq_of_lt hb, Nat.add_sub_cancel_left, zero_add, zero_ne_one, one_ne_zero]
    split_ifs <;> simp
  · obtain ⟨a, rfl⟩ : ∃ a, i = n + a := ⟨i - n, by omega⟩
    have ha : a < n := by omega
    simp only [ci, cj, if_true, if_false, Nat.div_eq_of_lt cj, Nat.mod_eq_of_lt cj, Nat.add_div_left _ hn, Nat.div_eq_of_lt ha, Nat.add_mod_left, Nat.mod_eq_of_lt ha, Nat.add_sub_cancel_left, zero_add, zero_ne_one, one_ne_zero]
    split_ifs <;> simp
  · obtain ⟨a, rfl⟩ : ∃ a, i = n + a := ⟨i - n, by omega⟩
    have ha : a < n := by omega
    obtain ⟨b, rfl⟩ : ∃ b, j = n + b := ⟨j - n, by omega⟩
    have hb : b < n := by omega
    simp only [ci, cj, if_false, Nat.add_div_left _ hn, Nat.div_eq_of_lt ha, Nat.div_eq_of_lt hb, Nat.add_mod_left, Nat.mod_eq_of_lt ha, Nat.mod_eq_of_lt hb, Nat.add_sub_cancel_left, zero_add, zero_ne_one, one_ne_zero]
    split_ifs <;> simp

/-- A real representation of complex type is the realification of a complex one with scalar commutant, not equivalent to its conjugate. -/
theorem HasType.complex {Z : E → NpMat ℂ} (hr : ∀ g, El g → (Z g).rows = n ∧ (Z g).cols = n) (h : HasType El (fun g => realify (Z g)) .C (2 * n)) : LinType El Z n ∧ AntiType El Z n := by
  constructor
  · intro P p1 p2 hP
    obtain ⟨c, hc⟩ := h.full (realify P) (by simp [p1]) (by simp [p2]) fun g hg =>
      (realify_mul _ _ (by simp [p2, hr g hg])).trans ((realify_congr (hP g hg)).trans (realify_mul _ _ (by simp [p1, hr g hg])).symm)
    refine ⟨⟨c 0, c 1⟩, realify_inj ⟨by simp [p1], by simp [p2], fun i j hi hj => ?_⟩⟩
    simp only [realify_rows, realify_cols, p1, p2] at hi hj
    rw [hc i j hi hj, endoC_get n i j hi hj]
  · intro Q q1 q2 hQ
    obtain ⟨c, hc⟩ := h.full (antiReal Q) (by simp [antiReal, q1]) (by simp [antiReal, q2]) fun g hg =>
      (antiReal_mul (by simp [q2, hr g hg])).trans ((antiReal_congr (hQ g hg)).trans (realify_antiReal (by simp [q1, hr g hg])).symm)
    refine ⟨q1, q2, fun i j hi hj => ?_⟩
    rw [q1] at hi
    rw [q2] at hj
    have key := fun (a b : ℕ) (ha : a < 2 * n) (hb : b < 2 * n) => (hc a b ha hb).trans (endoC_get n a b ha hb c)
    have k1 := key i j (by omega) (by omega)
    have k2 := key (n + i) (n + j) (by omega) (by omega)
    have k3 := key (n + i) j (by omega) (by omega)
    have k4 := key i (n + j) (by omega) (by omega)
    simp only [antiReal, realify, scalar, q1, q2, hi, hj, if_true, if_neg (show ¬ n + i < n by omega), if_neg (show ¬ n + j < n by omega), show n + i - n = i by omega, show n + j - n = j by omega] at k1 k2 k3 k4
    simp only [scalar, ite_self]
    refine Complex.ext ?_ ?_
    · rw [Complex.zero_re]; linarith
    · rw [Complex.zero_im]; linarith

theorem complex_hasType {Z : E → NpMat ℂ} (hr : ∀ g, El g → (Z g).rows = n ∧ (Z g).cols = n) (h : LinType El Z n) (h' : AntiType El Z n) : HasType El (fun g => realify (Z g)) .C (2 * n) := by
  refine ⟨fun B hB g hg => ?_, fun M m1 m2 hM => ?_⟩
  · have main : ∀ z : ℂ, mul (realify (Z g)) (realify (scalar n z)) ≈ mul (realify (scalar n z)) (realify (Z g)) := fun z => by
      refine (realify_mul _ _ (by simp [hr g hg])).trans (Eqv.trans (realify_congr ?_) (realify_mul _ _ (by simp [hr g hg])).symm)
      have e1 := mul_scalar_eqv (hr g hg).2 z
      have e2 := scalar_mul z (Z g)
      rw [(hr g hg).1] at e1 e2
      rw [(hr g hg).2] at e2
      exact e1.trans e2.symm
    have hB' : ∃ z : ℂ, B ≈ realify (scalar n z) := by
      simp only [endoBasis, endoCore, List.map_cons, List.map_nil, List.mem_cons, List.not_mem_nil, or_false] at hB
      rcases hB with rfl | rfl
      · refine ⟨⟨1, 0⟩, by simp <;> omega, by simp <;> omega, fun i j hi hj => ?_⟩
        have := endoC_get n i j (by simpa using hi) (by simpa using hj) (fun k => if k = 0 then 1 else 0)
        simpa [IrrType.sumsq, Finset.sum_range_succ, endoBasis, endoCore] using this
      · refine ⟨⟨0, 1⟩, by simp [ofRows] <;> omega, by simp [ofRows] <;> omega, fun i j hi hj => ?_⟩
        have := endoC_get n i j (by simpa [ofRows] using hi) (by simpa [ofRows] using hj) (fun k => if k = 1 then 1 else 0)
        simpa [IrrType.sumsq, Finset.sum_range_succ, endoBasis, endoCore] using this
    obtain ⟨z, hz⟩ := hB'
    exact (mul_congr (Eqv.refl _) hz (by rw [hz.1]; simp [hr g hg])).trans ((main z).trans (mul_congr hz.symm (Eqv.refl _) (by simp [hr g hg])))
  · have parts := fun g hg => parts_intertwine m1 m2 (hr g hg).1 (hr g hg).2 (hr g hg).1 (hr g hg).2 (hM g hg)
    obtain ⟨z, hz⟩ := h (linPart M n) rfl rfl fun g hg => (parts g hg).1
    have hq := h' (antiPart M n) rfl rfl fun g hg => (parts g hg).2
    refine ⟨fun k => if k = 0 then z.re / 2 else z.im / 2, fun i j hi hj => ?_⟩
    rw [endoC_get n i j hi hj]
    simp only [if_true, one_ne_zero, if_false]
    have key : ∀ a b, a < n → b < n → (M.get a b + M.get (n + a) (n + b) = (if a = b then z.re else 0) ∧ M.get (n + a) b - M.get a (n + b) = (if a = b then z.im else 0)) ∧
        (M.get a b - M.get (n + a) (n + b) = 0 ∧ M.get (n + a) b + M.get a (n + b) = 0) := by
      intro a b ha hb
      have u := hz.2.2 a b ha hb
      have v := hq.2.2 a b ha hb
      have ur := congrArg Complex.re u
      have ui := congrArg Complex.im u
      have vr := congrArg Complex.re v
      have vi := congrArg Complex.im v
      simp only [linPart, antiPart, scalar, ite_self, apply_ite Complex.re, apply_ite Complex.im, Complex.zero_re, Complex.zero_im] at ur ui vr vi
      exact ⟨⟨ur, ui⟩, vr, vi⟩
    simp only [realify, scalar]
    by_cases ci : i < n <;> by_cases cj : j < n
    · obtain ⟨⟨a, b⟩, d, e⟩ := key i j ci cj
      simp only [ci, cj, if_true]
      split_ifs with hij
      · rw [if_pos hij] at a
        show M.get i j = z.re / 2
        linarith
      · rw [if_neg hij] at a
        show M.get i j = 0
        linarith
    · obtain ⟨⟨a, b⟩, d, e⟩ := key i (j - n) ci (by omega)
      rw [show n + (j - n) = j by omega] at *
      simp only [ci, cj, if_true, if_false]
      split_ifs with hij
      · rw [if_pos hij] at b
        show M.get i j = -(z.im / 2)
        linarith
      · rw [if_neg hij] at b
        show M.get i j = -0
        linarith
    · obtain ⟨⟨a, b⟩, d, e⟩ := key (i - n) j (by omega) cj
      rw [show n + (i - n) = i by omega] at *
      simp only [ci, cj, if_true, if_false]
      split_ifs with hij
      · rw [if_pos hij] at b
        show M.get i j = z.im / 2
        linarith
      · rw [if_neg hij] at b
        show M.get i j = 0
        linarith
    · obtain ⟨⟨a, b⟩, d, e⟩ := key (i - n) (j - n) (by omega) (by omega)
      rw [show n + (i - n) = i by omega, show n + (j - n) = j by omega] at *
      simp only [ci, cj, if_false]
      split_ifs with hij
      · rw [if_pos hij] at a
        show M.get i j = z.re / 2
        linarith
      · rw [if_neg hij] at a
        show M.get i j = 0
        linarith

/-! ### Tensor products -/

variable {G₁ G₂ : Type} {El₁ : G₁ → Prop} {op₁ : G₁ → G₁ → G₁} {one₁ : G₁} {El₂ : G₂ → Prop} {op₂ : G₂ → G₂ → G₂} {one₂ : G₂} {m : ℕ}

section tensor

variable {R : Type} [CommRing R] {A A' : G₁ → NpMat R} {B B' : G₂ → NpMat R} {M : NpMat R}

theorem inner_of_kron (h₂ : El₂ one₂) (hA : ∀ g, El₁ g → ((A g).rows = m ∧ (A g).cols = m) ∧ (A' g).rows = m ∧ (A' g).cols = m) (hB : B one₂ ≈ eye n) (hB' : B' one₂ ≈ eye n) (mr : M.rows = m * n) (mc : M.cols = m * n)
    (h : ∀ g, prodEl El₁ El₂ g → mul M (kron (A g.1) (B g.2)) ≈ mul (kron (A' g.1) (B' g.2)) M) (g : G₁) (hg : El₁ g) {i j : ℕ} (hi : i < n) (hj : j < n) :
    mul (NpMat.inner M m n i j) (A g) ≈ mul (A' g) (NpMat.inner M m n i j) := by
  have e1 := kron_congr (Eqv.refl (A g)) hB
  have e2 := kron_congr (Eqv.refl (A' g)) hB'
  refine inner_intertwines mr mc (hA g hg).1.1 (hA g hg).1.2 (hA g hg).2.2 (hA g hg).2.1 ?_ hi hj
  exact (mul_congr (Eqv.refl _) e1.symm (by simp [mc, hA g hg])).trans ((h (g, one₂) ⟨hg, h₂⟩).trans (mul_congr e2 (Eqv.refl _) (by simp [mr, hA g hg, hB'.2.1])))

theorem outer_of_kron (h₁ : El₁ one₁) (hB : ∀ g, El₂ g → ((B g).rows = n ∧ (B g).cols = n) ∧ (B' g).rows = n ∧ (B' g).cols = n) (hA : A one₁ ≈ eye m) (hA' : A' one₁ ≈ eye m) (mr : M.rows = m * n) (mc : M.cols = m * n)
    (h : ∀ g, prodEl El₁ El₂ g → mul M (kron (A g.1) (B g.2)) ≈ mul (kron (A' g.1) (B' g.2)) M) (g : G₂) (hg : El₂ g) {a b : ℕ} (ha : a < m) (hb : b < m) :
    mul (outer M n a b) (B g) ≈ mul (B' g) (outer M n a b) := by
  have e1 := kron_congr hA (Eqv.refl (B g))
  have e2 := kron_congr hA' (Eqv.refl (B' g))
  refine outer_intertwines mr mc (hB g hg).1.1 (hB g hg).1.2 (hB g hg).2.1 (hB g hg).2.2 ?_ ha hb
  exact (mul_congr (Eqv.refl _) e1.symm (by simp [mc, hB g hg])).trans ((h (one₁, g) ⟨h₁, hg⟩).trans (mul_congr e2 (Eqv.refl _) (by simp [mr, hB g hg, hA'.2.1])))

end tensor

/-- An index of the product. -/
theorem index_split {m n i : ℕ} (hi : i < m * n) : i / n < m ∧ i % n < n ∧ i = i / n * n + i % n := by
  have hn : 0 < n := Nat.pos_of_ne_zero fun h => by simp [h] at hi
  exact ⟨Nat.div_lt_of_lt_mul (by rwa [mul_comm]), Nat.mod_lt _ hn, by rw [mul_comm]; exact (Nat.div_add_mod i n).symm⟩

variable {Z₁ : G₁ → NpMat ℂ} {Z₂ : G₂ → NpMat ℂ}

theorem LinType.kron (h₁ : UnitRep El₁ op₁ one₁ m Z₁) (h₂ : UnitRep El₂ op₂ one₂ n Z₂) (o₁ : El₁ one₁) (o₂ : El₂ one₂) (t₁ : LinType El₁ Z₁ m) (t₂ : LinType El₂ Z₂ n) :
    LinType (prodEl El₁ El₂) (fun g => NpMat.kron (Z₁ g.1) (Z₂ g.2)) (m * n) := by
  intro P p1 p2 hP
  rcases Nat.eq_zero_or_pos (m * n) with h0 | h0
  · exact ⟨0, p1, p2, fun i j hi => by rw [p1, h0] at hi; omega⟩
  have hm : 0 < m := Nat.pos_of_mul_pos_right h0
  have hn : 0 < n := Nat.pos_of_mul_pos_left h0
  have hin : ∀ i j, i < n → j < n → ∃ z : ℂ, NpMat.inner P m n i j ≈ scalar m z := fun i j hi hj => t₁ _ rfl rfl fun g hg =>
    inner_of_kron o₂ (fun g hg => ⟨⟨h₁.rows g hg, h₁.cols g hg⟩, h₁.rows g hg, h₁.cols g hg⟩) h₂.map_one h₂.map_one p1 p2 hP g hg hi hj
  have hout : ∀ a b, a < m → b < m → ∃ z : ℂ, outer P n a b ≈ scalar n z := fun a b ha hb => t₂ _ rfl rfl fun g hg =>
    outer_of_kron o₁ (fun g hg => ⟨⟨h₂.rows g hg, h₂.cols g hg⟩, h₂.rows g hg, h₂.cols g hg⟩) h₁.map_one h₁.map_one p1 p2 hP g hg ha hb
  obtain ⟨z, hz⟩ := hin 0 0 hn hn
  refine ⟨z, p1, p2, fun i j hi hj => ?_⟩
  rw [p1] at hi
  rw [p2] at hj
  obtain ⟨ha, hi', ei⟩ := index_split hi
  obtain ⟨hb, hj', ej⟩ := index_split hj
  obtain ⟨w, hw⟩ := hout (i / n) (j / n) ha hb
  have u := hw.2.2 (i % n) (j % n) hi' hj'
  have u0 := hw.2.2 0 0 hn hn
  have v := hz.2.2 (i / n) (j / n) ha hb
  simp only [outer, NpMat.inner, scalar, ← ei, ← ej] at u u0 v
  rw [u0, if_pos trivial] at v
  rw [u, v]
  simp only [scalar]
  by_cases hij : i = j
  · subst hij; simp
  · rw [if_neg hij]
    by_cases h1 : i % n = j % n
    · rw [if_pos h1, if_neg]
      intro h2; exact hij (by rw [ei, ej, h1, h2])
    · rw [if_neg h1]

theorem AntiType.kron_left (h₁ : UnitRep El₁ op₁ one₁ m Z₁) (h₂ : UnitRep El₂ op₂ one₂ n Z₂) (o₂ : El₂ one₂) (t₁ : AntiType El₁ Z₁ m) :
    AntiType (prodEl El₁ El₂) (fun g => NpMat.kron (Z₁ g.1) (Z₂ g.2)) (m * n) := by
  intro Q q1 q2 hQ
  refine ⟨q1, q2, fun i j hi hj => ?_⟩
  rw [q1] at hi
  rw [q2] at hj
  obtain ⟨ha, hi', ei⟩ := index_split hi
  obtain ⟨hb, hj', ej⟩ := index_split hj
  have := t₁ (NpMat.inner Q m n (i % n) (j % n)) rfl rfl fun g hg => inner_of_kron (A := fun g => NpMat.conj (Z₁ g)) (B := fun g => NpMat.conj (Z₂ g)) (B' := Z₂) o₂
    (fun g hg => ⟨⟨h₁.rows g hg, h₁.cols g hg⟩, h₁.rows g hg, h₁.cols g hg⟩) h₂.conj.map_one h₂.map_one q1 q2
    (fun g hg => (mul_congr (Eqv.refl _) (conj_kron _ _).symm (by simp [q2, h₁.rows _ hg.1, h₂.rows _ hg.2])).trans (hQ g hg)) g hg hi' hj'
  have v := this.2.2 (i / n) (j / n) ha hb
  simp only [NpMat.inner, scalar, ← ei, ← ej, ite_self] at v ⊢
  exact v

theorem AntiType.kron_right (h₁ : UnitRep El₁ op₁ one₁ m Z₁) (h₂ : UnitRep El₂ op₂ one₂ n Z₂) (o₁ : El₁ one₁) (t₂ : AntiType El₂ Z₂ n) :
    AntiType (prodEl El₁ El₂) (fun g => NpMat.kron (Z₁ g.1) (Z₂ g.2)) (m * n) := by
  intro Q q1 q2 hQ
  refine ⟨q1, q2, fun i j hi hj => ?_⟩
  rw [q1] at hi
  rw [q2] at hj
  obtain ⟨ha, hi', ei⟩ := index_split hi
  obtain ⟨hb, hj', ej⟩ := index_split hj
  have := t₂ (outer Q n (i / n) (j / n)) rfl rfl fun g hg => outer_of_kron (A := fun g => NpMat.conj (Z₁ g)) (A' := Z₁) (B := fun g => NpMat.conj (Z₂ g)) o₁
    (fun g hg => ⟨⟨h₂.rows g hg, h₂.cols g hg⟩, h₂.rows g hg, h₂.cols g hg⟩) h₁.conj.map_one h₁.map_one q1 q2
    (fun g hg => (mul_congr (Eqv.refl _) (conj_kron _ _).symm (by simp [q2, h₁.rows _ hg.1, h₂.rows _ hg.2])).trans (hQ g hg)) g hg ha hb
  have v := this.2.2 (i % n) (j % n) hi' hj'
  simp only [outer, scalar, ← ei, ← ej, ite_self] at v ⊢
  exact v

/-- A real matrix vanishes if its linear and antilinear parts do. -/
theorem zero_of_parts {M : NpMat ℝ} (mr : M.rows = 2 * n) (mc : M.cols = 2 * n) (h : linPart M n ≈ scalar n 0) (h' : antiPart M n ≈ scalar n 0) : M ≈ zeros (2 * n) (2 * n) := by
  have key : ∀ a b, a < n → b < n → M.get a b = 0 ∧ M.get (n + a) b = 0 ∧ M.get a (n + b) = 0 ∧ M.get (n + a) (n + b) = 0 := by
    intro a b ha hb
    have u := h.2.2 a b ha hb
    have v := h'.2.2 a b ha hb
    have ur := congrArg Complex.re u
    have ui := congrArg Complex.im u
    have vr := congrArg Complex.re v
    have vi := congrArg Complex.im v
    simp only [linPart, antiPart, scalar, ite_self, Complex.zero_re, Complex.zero_im] at ur ui vr vi
    exact ⟨by linarith, by linarith, by linarith, by linarith⟩
  refine ⟨mr, mc, fun i j hi hj => ?_⟩
  rw [mr] at hi
  rw [mc] at hj
  show M.get i j = 0
  by_cases ci : i < n <;> by_cases cj : j < n
  · exact (key i j ci cj).1
  · have := (key i (j - n) ci (by omega)).2.2.1
    rwa [show n + (j - n) = j by omega] at this
  · have := (key (i - n) j (by omega) cj).2.1
    rwa [show n + (i - n) = i by omega] at this
  · have := (key (i - n) (j - n) (by omega) (by omega)).2.2.2
    rwa [show n + (j - n) = j by omega, show n + (i - n) = i by omega] at this

/-- `Z₁ ⊗ Z₂` and `Z₁ ⊗ Z̄₂` are inequivalent over the reals. -/
theorem inequivalent_conj (h₁ : UnitRep El₁ op₁ one₁ m Z₁) (h₂ : UnitRep El₂ op₂ one₂ n Z₂) (o₁ : El₁ one₁) (o₂ : El₂ one₂) (t₁ : AntiType El₁ Z₁ m) (t₂ : AntiType El₂ Z₂ n) :
    Inequivalent (prodEl El₁ El₂) (fun g => realify (kron (Z₁ g.1) (Z₂ g.2))) (fun g => realify (kron (Z₁ g.1) (conj (Z₂ g.2)))) (2 * (m * n)) (2 * (m * n)) := by
  intro M mr mc hM
  have hk := h₁.kron h₂
  have hk' := h₁.kron h₂.conj
  have parts := fun g hg => parts_intertwine mr mc (hk.rows g hg) (hk.cols g hg) (hk'.rows g hg) (hk'.cols g hg) (hM g hg)
  refine zero_of_parts mr mc ⟨rfl, rfl, fun i j hi hj => ?_⟩ ⟨rfl, rfl, fun i j hi hj => ?_⟩
  · obtain ⟨ha, hi', ei⟩ := index_split hi
    obtain ⟨hb, hj', ej⟩ := index_split hj
    have hc : AntiType El₂ (fun g => conj (Z₂ g)) n := t₂.conj fun g hg => ⟨h₂.rows g hg, h₂.cols g hg⟩
    have := hc (outer (linPart M (m * n)) n (i / n) (j / n)) rfl rfl fun g hg => ?_
    · have v := this.2.2 (i % n) (j % n) hi' hj'
      simp only [outer, scalar, ← ei, ← ej, ite_self] at v ⊢
      exact v
    · have k := outer_of_kron (A := Z₁) (A' := Z₁) (B := Z₂) (B' := fun g => conj (Z₂ g)) o₁ (fun g hg => ⟨⟨h₂.rows g hg, h₂.cols g hg⟩, h₂.rows g hg, h₂.cols g hg⟩) h₁.map_one h₁.map_one rfl rfl
        (fun g hg => (parts g hg).1) g hg ha hb
      exact (mul_congr (Eqv.refl _) (conj_conj _) (by simp [outer, h₂.rows g hg])).trans k
  · obtain ⟨ha, hi', ei⟩ := index_split hi
    obtain ⟨hb, hj', ej⟩ := index_split hj
    have := t₁ (NpMat.inner (antiPart M (m * n)) m n (i % n) (j % n)) rfl rfl fun g hg => inner_of_kron (A := fun g => conj (Z₁ g)) (A' := Z₁) (B := fun g => conj (Z₂ g)) (B' := fun g => conj (Z₂ g)) o₂
      (fun g hg => ⟨⟨h₁.rows g hg, h₁.cols g hg⟩, h₁.rows g hg, h₁.cols g hg⟩) h₂.conj.map_one h₂.conj.map_one rfl rfl
      (fun g hg => (mul_congr (Eqv.refl _) (conj_kron _ _).symm (by simp [antiPart, h₁.rows _ hg.1, h₂.rows _ hg.2])).trans (parts g hg).2) g hg hi' hj'
    have v := this.2.2 (i / n) (j / n) ha hb
    simp only [NpMat.inner, scalar, ← ei, ← ej, ite_self] at v ⊢
    exact v

end Escnn
