import Verif.Lemmas.UnitRep
import Verif.Lemmas.Regular
import Mathlib.Analysis.SpecialFunctions.Sqrt

/-!
# Splitting the tensor product of two representations of complex form
-/

namespace Escnn

open NpMat

namespace NpMat

/-- The array `[1, i]` of shape `n × 2n`. -/
def halfU (n : ℕ) : NpMat ℂ := ⟨n, 2 * n, fun i j => if j < n then (if i = j then 1 else 0) else if i = j - n then Complex.I else 0⟩

/-- A multiple of the identity. -/
def scalar {R : Type} [CommRing R] (n : ℕ) (c : R) : NpMat R := ⟨n, n, fun i j => if i = j then c else 0⟩

@[simp] theorem scalar_rows {R : Type} [CommRing R] (n : ℕ) (c : R) : (scalar n c).rows = n := rfl
@[simp] theorem scalar_cols {R : Type} [CommRing R] (n : ℕ) (c : R) : (scalar n c).cols = n := rfl

theorem kron_scalar {R : Type} [CommRing R] (m n : ℕ) (a b : R) : kron (scalar m a) (scalar n b) ≈ scalar (m * n) (a * b) := by
  refine ⟨rfl, rfl, fun i j hi hj => ?_⟩
  simp only [kron, scalar]
  by_cases h : i = j
  · subst h; simp
  · rw [if_neg h]
    by_cases h1 : i / n = j / n
    · have : i % n ≠ j % n := fun h2 => h (by rw [← Nat.div_add_mod i n, h1, h2, Nat.div_add_mod])
      rw [if_neg this, mul_zero]
    · rw [if_neg h1, zero_mul]

theorem scalar_mul {R : Type} [CommRing R] (c : R) (A : NpMat R) : mul (scalar A.rows c) A ≈ ⟨A.rows, A.cols, fun i j => c * A.get i j⟩ := by
  refine ⟨rfl, rfl, fun i j hi hj => ?_⟩
  simp only [mul, scalar]
  rw [Finset.sum_eq_single i]
  · simp
  · intro b _ hb; simp [Ne.symm hb]
  · intro h; exact absurd (Finset.mem_range.2 hi) h

end NpMat

/-- `U` is the projection of the real representation matrix `R` of size `2n` to its complex form `Z`. -/
structure Half (n : ℕ) (U : NpMat ℂ) : Prop where
  rows : U.rows = n
  cols : U.cols = 2 * n
  norm : mul U (adj U) ≈ scalar n 2
  zero : mul U (transpose U) ≈ scalar n 0

theorem halfU_half (n : ℕ) : Half n (halfU n) := by
  have key : ∀ i j, i < n → j < n → ∀ f : ℂ → ℂ, f 0 = 0 → ∑ k ∈ Finset.range (2 * n), (halfU n).get i k * f ((halfU n).get j k) = if i = j then f 1 + Complex.I * f Complex.I else 0 := by
    intro i j hi hj f hf
    rw [two_mul, Finset.sum_range_add, Finset.sum_eq_single i, Finset.sum_eq_single i]
    · simp only [halfU, if_pos hi, if_true, if_neg (show ¬ n + i < n by omega), show n + i - n = i by omega]
      by_cases h : i = j
      · subst h; simp
      · simp [h, Ne.symm h, hf]
    · intro b hb hbi
      rw [Finset.mem_range] at hb
      simp only [halfU, if_neg (show ¬ n + b < n by omega), show n + b - n = b by omega, if_neg (Ne.symm hbi), zero_mul]
    · intro h; exact absurd (Finset.mem_range.2 hi) h
    · intro b hb hbi
      rw [Finset.mem_range] at hb
      simp only [halfU, if_pos hb, if_neg (Ne.symm hbi), zero_mul]
    · intro h; exact absurd (Finset.mem_range.2 hi) h
  refine ⟨rfl, rfl, ⟨rfl, rfl, fun i j hi hj => ?_⟩, ⟨rfl, rfl, fun i j hi hj => ?_⟩⟩
  · refine (key i j hi hj star (by simp)).trans ?_
    simp only [scalar, star_one, Complex.star_def, Complex.conj_I, mul_neg, Complex.I_mul_I]
    norm_num
  · refine (key i j hi hj id (by simp)).trans ?_
    simp [scalar]

theorem halfU_mul {Z : NpMat ℂ} {n : ℕ} (hr : Z.rows = n) (hc : Z.cols = n) : mul (halfU n) (ofReal (realify Z)) ≈ mul Z (halfU n) := by
  refine ⟨hr.symm, by simp [halfU, hc], fun i j hi hj => ?_⟩
  change i < n at hi
  simp only [mul_cols, ofReal_cols, realify_cols, hc] at hj
  have l : (mul (halfU n) (ofReal (realify Z))).get i j = ((realify Z).get i j : ℂ) + Complex.I * ((realify Z).get (n + i) j : ℂ) := by
    show ∑ k ∈ Finset.range (2 * n), (halfU n).get i k * ((realify Z).get k j : ℂ) = _
    rw [two_mul, Finset.sum_range_add, Finset.sum_eq_single i, Finset.sum_eq_single i]
    · simp [halfU, hi]
    · intro b hb hbi
      rw [Finset.mem_range] at hb
      simp [halfU, Ne.symm hbi]
    · intro h; exact absurd (Finset.mem_range.2 hi) h
    · intro b hb hbi
      rw [Finset.mem_range] at hb
      simp [halfU, hb, Ne.symm hbi]
    · intro h; exact absurd (Finset.mem_range.2 hi) h
  have r : (mul Z (halfU n)).get i j = if j < n then Z.get i j else Z.get i (j - n) * Complex.I := by
    show ∑ k ∈ Finset.range Z.cols, Z.get i k * (halfU n).get k j = _
    rw [hc]
    split_ifs with c
    · rw [Finset.sum_eq_single j]
      · simp [halfU, c]
      · intro b _ hb; simp [halfU, c, hb]
      · intro h; exact absurd (Finset.mem_range.2 c) h
    · rw [Finset.sum_eq_single (j - n)]
      · simp [halfU, c]
      · intro b _ hb; simp [halfU, c, hb]
      · intro h; exact absurd (Finset.mem_range.2 (by omega)) h
  rw [l, r]
  simp only [realify, hr, hc, if_pos hi, if_neg (show ¬ n + i < n by omega), show n + i - n = i by omega]
  split_ifs with c
  · refine Complex.ext ?_ ?_ <;> simp
  · refine Complex.ext ?_ ?_ <;> simp

theorem Half.conj {n : ℕ} {U : NpMat ℂ} (h : Half n U) : Half n (conj U) where
  rows := h.rows
  cols := h.cols
  norm := (conj_mul U (adj U)).symm.trans ((conj_congr h.norm).trans ⟨rfl, rfl, fun i j _ _ => by simp only [NpMat.conj, scalar]; split_ifs <;> simp⟩)
  zero := (conj_mul U (transpose U)).symm.trans ((conj_congr h.zero).trans ⟨rfl, rfl, fun i j _ _ => by simp [NpMat.conj, scalar]⟩)

theorem adj_mul (Z W : NpMat ℂ) (h : Z.cols = W.rows) : adj (mul Z W) ≈ mul (adj W) (adj Z) :=
  (transpose_congr (conj_mul Z W)).trans (transpose_mul _ _ h)

theorem mul_scalar_eqv {Z : NpMat ℂ} {n : ℕ} (hc : Z.cols = n) (c : ℂ) : mul Z (scalar n c) ≈ ⟨Z.rows, n, fun i j => c * Z.get i j⟩ := by
  refine ⟨rfl, rfl, fun i j hi hj => ?_⟩
  simp only [mul, scalar, hc]
  rw [Finset.sum_eq_single j]
  · simp [mul_comm]
  · intro b _ hb; simp [hb]
  · intro h; exact absurd (Finset.mem_range.2 hj) h

/-- `S Uᶜ` for a unitary `S`. -/
theorem Half.mul {n : ℕ} {U S : NpMat ℂ} (h : Half n U) (hr : S.rows = n) (hc : S.cols = n) (hS : mul S (adj S) ≈ eye n) : Half n (mul S U) where
  rows := hr
  cols := h.cols
  norm := by
    refine (mul_congr (Eqv.refl _) (adj_mul S U (by rw [hc, h.rows])) (by simp)).trans ((mul_assoc' _ _ _).trans ?_)
    refine (mul_congr (Eqv.refl S) ((mul_assoc' _ _ _).symm.trans (mul_congr h.norm (Eqv.refl _) (by simp [h.rows, hc]))) (by simp [hc, h.rows])).trans ?_
    refine (mul_assoc' _ _ _).symm.trans ((mul_congr (mul_scalar_eqv hc 2) (Eqv.refl _) (by simp [hc])).trans ⟨hr, by simp [hr], fun i j hi hj => ?_⟩)
    have := hS.2.2 i j hi (by simpa [hr] using hj)
    simp only [NpMat.mul, hc] at this ⊢
    simp only [mul_assoc, ← Finset.mul_sum, this]
    simp [eye, scalar]
  zero := by
    refine (mul_congr (Eqv.refl _) (transpose_mul S U (by rw [hc, h.rows])) (by simp)).trans ((mul_assoc' _ _ _).trans ?_)
    refine (mul_congr (Eqv.refl S) ((mul_assoc' _ _ _).symm.trans (mul_congr h.zero (Eqv.refl _) (by simp [h.rows, hc]))) (by simp [hc, h.rows])).trans ?_
    exact ⟨hr, by simp [hr], fun i j hi hj => by simp [NpMat.mul, scalar]⟩

/-- The gram matrix of the real and imaginary parts. -/
theorem stack_gram {V W : NpMat ℂ} {N : ℕ} (c : ℝ) (hV : V.rows = N) (hW : W.rows = N) (h1 : mul V (adj W) ≈ scalar N (c : ℂ)) (h2 : mul V (transpose W) ≈ scalar N 0) :
    mul (stack V) (transpose (stack W)) ≈ scalar (2 * N) (c / 2) := by
  have key : ∀ i j, i < N → j < N → _ := fun i j hi hj => And.intro (h1.2.2 i j (by simp [hV, hi]) (by simp [hW, hj])) (h2.2.2 i j (by simp [hV, hi]) (by simp [hW, hj]))
  simp only [NpMat.mul, adj, NpMat.conj, transpose, scalar] at key
  have re : ∀ i j, i < N → j < N →
      ∑ k ∈ Finset.range V.cols, (V.get i k).re * (W.get j k).re = (if i = j then c / 2 else 0) ∧ ∑ k ∈ Finset.range V.cols, (V.get i k).im * (W.get j k).im = (if i = j then c / 2 else 0) ∧
      ∑ k ∈ Finset.range V.cols, (V.get i k).re * (W.get j k).im = 0 ∧ ∑ k ∈ Finset.range V.cols, (V.get i k).im * (W.get j k).re = 0 := by
    intro i j hi hj
    obtain ⟨k1, k2⟩ := key i j hi hj
    have a := congrArg Complex.re k1
    have b := congrArg Complex.im k1
    have d := congrArg Complex.re k2
    have e := congrArg Complex.im k2
    simp only [Complex.re_sum, Complex.im_sum, Complex.mul_re, Complex.mul_im, Complex.star_def, Complex.conj_re, Complex.conj_im, mul_neg, Finset.sum_add_distrib, Finset.sum_sub_distrib, Finset.sum_neg_distrib, apply_ite Complex.re,
      apply_ite Complex.im, Complex.ofReal_re, Complex.ofReal_im, Complex.zero_re, Complex.zero_im, ite_self] at a b d e
    split_ifs with hij
    · rw [if_pos hij] at a
      exact ⟨by linarith, by linarith, by linarith, by linarith⟩
    · rw [if_neg hij] at a
      exact ⟨by linarith, by linarith, by linarith, by linarith⟩
  refine ⟨by simp [hV], by simp [hW], fun i j hi hj => ?_⟩
  simp only [mul_rows, stack_rows, hV, mul_cols, transpose_cols, hW] at hi hj
  simp only [NpMat.mul, transpose, stack, scalar, hV, hW]
  by_cases ci : i < N <;> by_cases cj : j < N
  · simp only [if_pos ci, if_pos cj]
    exact (re i j ci cj).1
  · simp only [if_pos ci, if_neg cj]
    rw [(re i (j - N) ci (by omega)).2.2.1, if_neg (by omega)]
  · simp only [if_neg ci, if_pos cj]
    rw [(re (i - N) j (by omega) cj).2.2.2, if_neg (by omega)]
  · simp only [if_neg ci, if_neg cj]
    rw [(re (i - N) (j - N) (by omega) (by omega)).2.1]
    exact if_congr (by omega) rfl rfl

/-- The rows of `A` above the rows of `B`. -/
def NpMat.vcat (A B : NpMat ℝ) : NpMat ℝ := ⟨A.rows + B.rows, A.cols, fun i j => if i < A.rows then A.get i j else B.get (i - A.rows) j⟩

theorem vcat_mul (A B K : NpMat ℝ) (h : A.cols = B.cols) : NpMat.mul (vcat A B) K ≈ vcat (NpMat.mul A K) (NpMat.mul B K) := by
  refine ⟨rfl, rfl, fun i j hi hj => ?_⟩
  simp only [NpMat.mul, vcat]
  by_cases c : i < A.rows <;> simp [c, h]

theorem diag2_vcat {A B X Y : NpMat ℝ} (h1 : X.cols = A.rows) (h2 : Y.cols = B.rows) : NpMat.mul (diag2 X Y) (vcat A B) ≈ vcat (NpMat.mul X A) (NpMat.mul Y B) := by
  refine ⟨rfl, rfl, fun i j hi hj => ?_⟩
  simp only [NpMat.mul, diag2_cols, vcat]
  rw [Finset.sum_range_add]
  by_cases c : i < X.rows
  · refine Eq.trans ?_ (if_pos c).symm
    rw [Finset.sum_congr rfl (g := fun k => X.get i k * A.get k j), Finset.sum_eq_zero (s := Finset.range Y.cols), add_zero]
    · intro k hk
      simp [diag2, c]
    · intro k hk
      rw [Finset.mem_range] at hk
      simp [diag2, c, hk, h1 ▸ hk]
  · refine Eq.trans ?_ (if_neg c).symm
    rw [Finset.sum_eq_zero (s := Finset.range X.cols), zero_add]
    · refine Finset.sum_congr rfl fun k hk => ?_
      simp [diag2, c, h1]
    · intro k hk
      rw [Finset.mem_range] at hk
      simp [diag2, c, hk]

theorem vcat_gram {A B : NpMat ℝ} {N : ℕ} (hA : A.rows = N) (hB : B.rows = N) (h : A.cols = B.cols) (h1 : NpMat.mul A (transpose A) ≈ scalar N 1) (h2 : NpMat.mul B (transpose B) ≈ scalar N 1)
    (h3 : NpMat.mul A (transpose B) ≈ scalar N 0) : NpMat.mul (vcat A B) (transpose (vcat A B)) ≈ eye (2 * N) := by
  have k3 : ∀ i j, i < N → j < N → ∑ k ∈ Finset.range A.cols, A.get i k * B.get j k = 0 := by
    intro i j hi hj
    have := h3.2.2 i j (by simp [hA, hi]) (by simp [hB, hj])
    simpa [NpMat.mul, transpose, scalar] using this
  refine ⟨by simp [vcat, hA, hB]; omega, by simp [vcat, hA, hB]; omega, fun i j hi hj => ?_⟩
  simp only [mul_rows, mul_cols, transpose_cols, vcat, hA, hB] at hi hj
  simp only [NpMat.mul, transpose, vcat, eye, hA]
  by_cases ci : i < N <;> by_cases cj : j < N
  · simp only [if_pos ci, if_pos cj]
    exact h1.2.2 i j (by simp [hA, ci]) (by simp [hA, cj])
  · simp only [if_pos ci, if_neg cj]
    rw [k3 i (j - N) ci (by omega), if_neg (by omega)]
  · simp only [if_neg ci, if_pos cj]
    rw [if_neg (by omega), ← k3 j (i - N) cj (by omega)]
    exact Finset.sum_congr rfl fun k _ => mul_comm _ _
  · simp only [if_neg ci, if_neg cj]
    have := h2.2.2 (i - N) (j - N) (by simp [hB]; omega) (by simp [hB]; omega)
    simp only [NpMat.mul, transpose, scalar] at this
    rw [h, this]
    exact if_congr (by omega) rfl rfl

/-- From a square matrix with orthonormal rows which intertwines `K` and `X`. -/
theorem split_of_rows {Q : NpMat ℝ} {D : ℕ} (hr : Q.rows = D) (hc : Q.cols = D) (hQ : NpMat.mul Q (transpose Q) ≈ eye D) : IsOrtho (transpose Q) ∧
    ∀ K X : NpMat ℝ, K.rows = D → K.cols = D → X.rows = D → X.cols = D → NpMat.mul Q K ≈ NpMat.mul X Q → K ≈ NpMat.mul (NpMat.mul (transpose Q) X) (transpose (transpose Q)) := by
  have hQ' : NpMat.mul (transpose Q) Q ≈ eye D := mul_eye_comm hr hc (by simp [hc]) (by simp [hr]) hQ
  refine ⟨⟨by simp [hr, hc], by simpa [transpose_transpose, hc] using hQ', by simpa [transpose_transpose, hc] using hQ⟩, fun K X hK hK' hX hX' h => ?_⟩
  rw [transpose_transpose]
  calc K ≈ NpMat.mul (eye D) K := (eye_mul' K hK).symm
    _ ≈ NpMat.mul (NpMat.mul (transpose Q) Q) K := mul_congr hQ'.symm (Eqv.refl _) (by simp [hK])
    _ ≈ NpMat.mul (transpose Q) (NpMat.mul Q K) := mul_assoc' _ _ _
    _ ≈ NpMat.mul (transpose Q) (NpMat.mul X Q) := mul_congr (Eqv.refl _) h (by simp)
    _ ≈ NpMat.mul (NpMat.mul (transpose Q) X) Q := (mul_assoc' _ _ _).symm

theorem smul_mul_eqv (c : ℝ) (A K : NpMat ℝ) : NpMat.mul (smul c A) K ≈ smul c (NpMat.mul A K) := ⟨rfl, rfl, fun i j _ _ => by simp [NpMat.mul, smul, Finset.mul_sum, mul_assoc]⟩
theorem mul_smul_eqv (c : ℝ) (A K : NpMat ℝ) : NpMat.mul A (smul c K) ≈ smul c (NpMat.mul A K) := ⟨rfl, rfl, fun i j _ _ => by simp [NpMat.mul, smul, Finset.mul_sum, mul_left_comm]⟩

theorem smul_congr' (c : ℝ) {A B : NpMat ℝ} (h : A ≈ B) : smul c A ≈ smul c B := ⟨h.1, h.2.1, fun i j hi hj => by simp only [smul, h.2.2 i j hi hj]⟩

theorem vcat_congr {A B A' B' : NpMat ℝ} (h : A ≈ A') (h' : B ≈ B') (hc : A.cols = B.cols) : vcat A B ≈ vcat A' B' := by
  obtain ⟨h1, h2, h3⟩ := h
  obtain ⟨k1, k2, k3⟩ := h'
  refine ⟨by simp [vcat, h1, k1], h2, fun i j hi hj => ?_⟩
  simp only [vcat] at hi hj
  simp only [vcat, ← h1]
  split_ifs with c
  · exact h3 _ _ c hj
  · exact k3 _ _ (by omega) (hc ▸ hj)

/-- **Splitting in two.**  Two complex projections which are orthogonal to each other and to their conjugates. -/
theorem split_two {V₀ V₁ : NpMat ℂ} {N : ℕ} (r₀ : V₀.rows = N) (r₁ : V₁.rows = N) (c₀ : V₀.cols = 2 * (2 * N)) (c₁ : V₁.cols = 2 * (2 * N)) (n₀ : NpMat.mul V₀ (adj V₀) ≈ scalar N 4)
    (n₁ : NpMat.mul V₁ (adj V₁) ≈ scalar N 4) (z₀ : NpMat.mul V₀ (transpose V₀) ≈ scalar N 0) (z₁ : NpMat.mul V₁ (transpose V₁) ≈ scalar N 0) (o : NpMat.mul V₀ (adj V₁) ≈ scalar N 0)
    (o' : NpMat.mul V₀ (transpose V₁) ≈ scalar N 0) : ∃ S : NpMat ℝ, S.rows = 2 * (2 * N) ∧ IsOrtho S ∧ ∀ (K : NpMat ℝ) (W₀ W₁ : NpMat ℂ), K.rows = 2 * (2 * N) → K.cols = 2 * (2 * N) →
      W₀.rows = N → W₀.cols = N → W₁.rows = N → W₁.cols = N → NpMat.mul V₀ (ofReal K) ≈ NpMat.mul W₀ V₀ → NpMat.mul V₁ (ofReal K) ≈ NpMat.mul W₁ V₁ →
      K ≈ NpMat.mul (NpMat.mul S (diag2 (realify W₀) (realify W₁))) (transpose S) := by
  have hs : (1 / √2 : ℝ) * (1 / √2) = 1 / 2 := by
    rw [div_mul_div_comm, Real.mul_self_sqrt (by norm_num)]; norm_num
  have gram : ∀ (V W : NpMat ℂ) (c : ℝ), V.rows = N → W.rows = N → NpMat.mul V (adj W) ≈ scalar N (c : ℂ) → NpMat.mul V (transpose W) ≈ scalar N 0 →
      NpMat.mul (smul (1 / √2) (stack V)) (transpose (smul (1 / √2) (stack W))) ≈ scalar (2 * N) (c / 4) := by
    intro V W c hV hW h1 h2
    have e : transpose (smul (1 / √2) (stack W)) = smul (1 / √2) (transpose (stack W)) := rfl
    rw [e]
    refine (smul_mul_eqv _ _ _).trans ((smul_congr' _ ((mul_smul_eqv _ _ _).trans (smul_congr' _ (stack_gram c hV hW h1 h2)))).trans ⟨rfl, rfl, fun i j _ _ => ?_⟩)
    simp only [smul, scalar]
    rw [← mul_assoc, hs]
    split_ifs <;> ring
  have hrows : (vcat (smul (1 / √2) (stack V₀)) (smul (1 / √2) (stack V₁))).rows = 2 * (2 * N) := by simp [vcat, smul, r₀, r₁]; omega
  have hcols : (vcat (smul (1 / √2) (stack V₀)) (smul (1 / √2) (stack V₁))).cols = 2 * (2 * N) := by simp [vcat, smul, c₀]
  have hQ : NpMat.mul (vcat (smul (1 / √2) (stack V₀)) (smul (1 / √2) (stack V₁))) (transpose (vcat (smul (1 / √2) (stack V₀)) (smul (1 / √2) (stack V₁)))) ≈ eye (2 * (2 * N)) := by
    have g1 := gram V₀ V₀ 4 r₀ r₀ (by exact_mod_cast n₀) z₀
    have g2 := gram V₁ V₁ 4 r₁ r₁ (by exact_mod_cast n₁) z₁
    have g3 := gram V₀ V₁ 0 r₀ r₁ (by exact_mod_cast o) o'
    norm_num at g1 g2 g3
    exact vcat_gram (N := 2 * N) (by simp [smul, r₀]) (by simp [smul, r₁]) (by simp [smul, c₀, c₁]) (by simpa using g1) (by simpa using g2) (by simpa using g3)
  obtain ⟨s1, s2⟩ := split_of_rows hrows hcols hQ
  refine ⟨_, by simpa using hcols, s1, fun K W₀ W₁ hK hK' a1 a2 b1 b2 e₀ e₁ => s2 K _ hK hK' ?_ ?_ ?_⟩
  · simp [a1, b1]; omega
  · simp [a2, b2]; omega
  · have step : ∀ (V W : NpMat ℂ), V.rows = N → W.cols = N → NpMat.mul V (ofReal K) ≈ NpMat.mul W V → NpMat.mul (smul (1 / √2) (stack V)) K ≈ NpMat.mul (realify W) (smul (1 / √2) (stack V)) := by
      intro V W hV hW h
      refine (smul_mul_eqv _ _ _).trans (Eqv.trans (smul_congr' _ ((stack_mul V K).symm.trans ((stack_congr h).trans (realify_mul_stack W V (by rw [hV, hW])).symm))) (mul_smul_eqv _ _ _).symm)
    refine (vcat_mul _ _ _ (by simp [smul, c₀, c₁])).trans ((vcat_congr (step V₀ W₀ r₀ a2 e₀) (step V₁ W₁ r₁ b2 e₁) rfl).trans ?_)
    exact (diag2_vcat (by simp [smul, a2, r₀]) (by simp [smul, b2, r₁])).symm

/-- **One block.** -/
theorem split_one {V : NpMat ℂ} {N : ℕ} (r : V.rows = N) (c : V.cols = 2 * N) (n : NpMat.mul V (adj V) ≈ scalar N 2) (z : NpMat.mul V (transpose V) ≈ scalar N 0) :
    ∃ S : NpMat ℝ, S.rows = 2 * N ∧ IsOrtho S ∧ ∀ (K : NpMat ℝ) (W : NpMat ℂ), K.rows = 2 * N → K.cols = 2 * N → W.rows = N → W.cols = N → NpMat.mul V (ofReal K) ≈ NpMat.mul W V →
      K ≈ NpMat.mul (NpMat.mul S (realify W)) (transpose S) := by
  have hQ : NpMat.mul (stack V) (transpose (stack V)) ≈ eye (2 * N) := by
    have := stack_gram 2 r r (by exact_mod_cast n) z
    norm_num at this
    exact this
  obtain ⟨s1, s2⟩ := split_of_rows (by simp [r]) (by simp [c]) hQ
  refine ⟨_, by simp [c], s1, fun K W hK hK' a1 a2 e => s2 K _ hK hK' (by simp [a1]) (by simp [a2]) ?_⟩
  exact (stack_mul V K).symm.trans ((stack_congr e).trans (realify_mul_stack W V (by rw [r, a2])).symm)

end Escnn
