import Verif.Model.RestrictIrrep
import Verif.Props.C10_DihedralIrreps
import Verif.Props.C11_SO2O2Irreps

/-!
# Helper lemmas on restriction of irreps
-/

namespace Escnn

open Real NpMat

/-- Conjugation `Q @ X @ Q.T`. -/
def conj (Q X : NpMat ℝ) : NpMat ℝ := mul (mul Q X) (transpose Q)

theorem conj_congr {Q X X' : NpMat ℝ} (h : X ≈ X') (hq : Q.cols = X.rows) (hq' : Q.cols = X.cols) :
    conj Q X ≈ conj Q X' :=
  mul_congr (mul_congr (Eqv.refl _) h hq) (Eqv.refl _) hq'.symm

theorem conj_mul (P Q X : NpMat ℝ) (h1 : P.cols = Q.rows) (h2 : Q.cols = X.rows) (h3 : X.cols = Q.cols) :
    conj (mul P Q) X ≈ conj P (conj Q X) := by
  unfold conj
  have e1 : mul (mul (mul P Q) X) (transpose (mul P Q)) ≈
      mul (mul P (mul Q X)) (mul (transpose Q) (transpose P)) :=
    mul_congr (mul_assoc' _ _ _) (transpose_mul _ _ h1) h3
  refine e1.trans ?_
  have e2 : mul (mul P (mul Q X)) (mul (transpose Q) (transpose P)) ≈
      mul (mul (mul P (mul Q X)) (transpose Q)) (transpose P) := (mul_assoc' _ _ _).symm
  refine e2.trans ?_
  exact mul_congr (mul_assoc' _ _ _) (Eqv.refl _) (by simp [h1])

theorem conj_eye {n : ℕ} (X : NpMat ℝ) (h : X.rows = n) (h' : X.cols = n) : conj (eye n) X ≈ X := by
  unfold conj
  have e1 : mul (eye n) X ≈ X := h ▸ eye_mul X
  have e2 : mul X (eye n) ≈ X := h' ▸ mul_eye X
  exact (mul_congr e1 (transpose_eye n) h').trans e2

theorem conj_of2 (p q r t a b c d : ℝ) : conj (of2 p q r t) (of2 a b c d) ≈
    of2 ((p * a + q * c) * p + (p * b + q * d) * q) ((p * a + q * c) * r + (p * b + q * d) * t)
      ((r * a + t * c) * p + (r * b + t * d) * q) ((r * a + t * c) * r + (r * b + t * d) * t) := by
  unfold conj
  exact (mul_congr (of2_mul p q r t a b c d) (of2_transpose p q r t) rfl).trans (of2_mul _ _ _ _ _ _ _ _)

theorem chi_isOrtho (s : ℤ) : IsOrtho (chi s) :=
  of2_isOrtho (by ring) (by ring) (by linear_combination sgnR_mul_self s) (by ring) (by ring)
    (by linear_combination sgnR_mul_self s)

theorem blockDiag_single (A : NpMat ℝ) : blockDiag [A] ≈ A := diag2_empty_right A

theorem blockDiag_two (a d : ℝ) : blockDiag [of1 a, of1 d] ≈ of2 a 0 0 d :=
  (diag2_congr (Eqv.refl _) (diag2_empty_right _)).trans (of2_diag2 a d)

namespace Cyclic

theorem foldFreq_le (M f : ℕ) (hM : 0 < M) : foldFreq M f ≤ M / 2 := by
  unfold foldFreq
  have := Nat.mod_lt f hM
  split <;> omega

/-- The folded frequency has the same cosines, and the same sines up to the sign of the change of basis, on the angles of
`C_M`. -/
theorem fold_cos_sin (M f : ℕ) (hM : 0 < M) (h : ℤ) :
    cos (f * radians M h) = cos (foldFreq M f * radians M h) ∧
    sin (f * radians M h) = (if 2 * (f % M) > M then -1 else 1) * sin (foldFreq M f * radians M h) := by
  have hM' : (M : ℝ) ≠ 0 := by positivity
  have hdiv : (f : ℝ) = (f % M : ℕ) + M * (f / M : ℕ) := by exact_mod_cast (Nat.mod_add_div f M).symm
  have e1 : (f : ℝ) * radians M h = (f % M : ℕ) * radians M h + (((f / M : ℕ) : ℤ) * h : ℤ) * (2 * π) := by
    rw [hdiv]
    simp only [radians]
    rw [Int.cast_mul, Int.cast_natCast]
    field_simp
  unfold foldFreq
  split
  · have hlt := Nat.mod_lt f hM
    have e2 : ((M - f % M : ℕ) : ℝ) * radians M h = (h : ℤ) * (2 * π) - (f % M : ℕ) * radians M h := by
      rw [Nat.cast_sub hlt.le, sub_mul]
      simp only [radians]
      field_simp
    rw [e1, e2, Real.cos_add_int_mul_two_pi, Real.sin_add_int_mul_two_pi]
    constructor
    · rw [Real.cos_int_mul_two_pi_sub]
    · rw [Real.sin_int_mul_two_pi_sub]; ring
  · rw [e1, Real.cos_add_int_mul_two_pi, Real.sin_add_int_mul_two_pi]
    simp

theorem foldBasis_isOrtho (M f s : ℕ) : IsOrtho (foldBasis M f s) := by
  unfold foldBasis
  split
  · exact chi_isOrtho 1
  · exact eye_isOrtho s

/-- Rows of the folding matrix: `chi` is only used for two-dimensional irreps. -/
theorem foldBasis_two (M f : ℕ) : foldBasis M f 2 ≈ of2 1 0 0 (if 2 * (f % M) > M then -1 else 1) := by
  unfold foldBasis
  split
  · simp [chi]; rfl
  · exact of2_eye.symm

theorem foldBasis_two_rows (M f : ℕ) : (foldBasis M f 2).rows = 2 ∧ (foldBasis M f 2).cols = 2 := by
  unfold foldBasis; split <;> exact ⟨rfl, rfl⟩

/-- Folding a two-dimensional block. -/
theorem fold_block (M f : ℕ) (hM : 0 < M) (h : ℤ) (s : ℤ) :
    psichi (radians M h) s f ≈ conj (foldBasis M f 2) (psichi (radians M h) s (foldFreq M f)) := by
  obtain ⟨hc, hs⟩ := fold_cos_sin M f hM h
  have e : conj (foldBasis M f 2) (psichi (radians M h) s (foldFreq M f)) ≈
      conj (of2 1 0 0 (if 2 * (f % M) > M then -1 else 1)) (psichi (radians M h) s (foldFreq M f)) :=
    mul_congr (mul_congr (foldBasis_two M f) (Eqv.refl _) (foldBasis_two_rows M f).2)
      (transpose_congr (foldBasis_two M f)) (foldBasis_two_rows M f).2.symm
  refine Eqv.trans ?_ e.symm
  refine Eqv.trans ?_ (conj_of2 _ _ _ _ _ _ _ _).symm
  simp only [psichi]
  refine of2_congr ?_ ?_ ?_ ?_
  · rw [hc]; ring
  · rw [hs]; ring
  · rw [hs]; ring
  · rw [hc]; split <;> ring

/-- One- and two-dimensional irreps of `C_M` assemble to the rotation block at the folded frequency. -/
theorem cyc_block (M k : ℕ) (hM : 0 < M) (_hk : k ≤ M / 2) (h : ℤ) :
    blockDiag (([k] ++ (if irrepSize M k < 2 then [k] else [])).map fun f => irrepMat M f h) ≈
      psichi (radians M h) 0 k := by
  by_cases h0 : k = 0
  · subst h0
    simp only [irrepSize, irrepMat, if_true]
    refine (blockDiag_congr (L' := [of1 1, of1 1]) ?_).trans ?_
    · exact .cons of1_eye.symm (.cons of1_eye.symm .nil)
    · refine (blockDiag_two 1 1).trans ?_
      simp only [psichi]
      exact of2_congr (by simp) (by simp) (by simp) (by simp)
  by_cases h1 : M % 2 = 0 ∧ k = M / 2
  · have h2k : 2 * k = M := by omega
    have hs : irrepSize M k = 1 := by rw [irrepSize, if_neg h0, if_pos h1]
    have hm : irrepMat M k h = of1 (cos (k * radians M h)) := by rw [irrepMat, if_neg h0, if_pos h1]
    simp only [hs, show (1 : ℕ) < 2 by norm_num, if_true, List.map_append, List.map_cons, List.map_nil, hm]
    refine (blockDiag_two _ _).trans ?_
    simp only [psichi]
    have := sin_half M k hM h2k h
    exact of2_congr rfl (by rw [this]; simp) (by rw [this]) (by simp)
  · have hs : irrepSize M k = 2 := by rw [irrepSize, if_neg h0, if_neg h1]
    have hm : irrepMat M k h = psichi (radians M h) 0 k := by rw [irrepMat, if_neg h0, if_neg h1, psi_eq_psichi]
    simp only [hs, lt_irrefl, if_false, List.map_append, List.map_cons, List.map_nil, hm]
    exact blockDiag_single _

end Cyclic

namespace Dihedral

/-- One- and two-dimensional irreps of `D_M` assemble to the block at the folded frequency. -/
theorem dih_block (M k : ℕ) (hM : 0 < M) (_hk : k ≤ M / 2) (h : Elem) :
    blockDiag ((if irrepSize M 1 k < 2 then [(0, k), (1, k)] else [(1, k)]).map fun i => irrepMat M i.1 i.2 h) ≈
      psichi (radians M h) h.1 k := by
  by_cases h0 : k = 0
  · subst h0
    simp only [irrepSize, irrepMat, if_true]
    refine (blockDiag_congr (L' := [of1 1, of1 (sgnR h.1)]) ?_).trans ?_
    · exact .cons of1_eye.symm (.cons (Eqv.refl _) .nil)
    · refine (blockDiag_two _ _).trans ?_
      simp only [psichi]
      exact of2_congr (by simp) (by simp) (by simp) (by simp)
  by_cases h1 : M % 2 = 0 ∧ k = M / 2
  · have h2k : 2 * k = M := by omega
    have hs : irrepSize M 1 k = 1 := by
      rw [irrepSize, if_neg one_ne_zero, if_neg h0, if_pos ⟨h1.1, h2k⟩]
    have hm : irrepMat M 1 k h = of1 (cos (k * radians M h) * sgnR h.1) := by
      rw [irrepMat, if_neg one_ne_zero, if_neg h0, if_pos ⟨h1.1, h2k⟩]
    have hm' : irrepMat M 0 k h = of1 (cos (k * radians M h)) := by
      rw [irrepMat, if_pos rfl, if_neg h0, if_pos h1]
    simp only [hs, show (1 : ℕ) < 2 by norm_num, if_true, List.map_cons, List.map_nil, hm, hm']
    refine (blockDiag_two _ _).trans ?_
    simp only [psichi]
    have : sin (k * radians M h) = 0 := Cyclic.sin_half M k hM h2k h.2
    exact of2_congr rfl (by rw [this]; simp) (by rw [this]) (by ring)
  · have h1' : ¬ (M % 2 = 0 ∧ 2 * k = M) := by omega
    have hs : irrepSize M 1 k = 2 := by rw [irrepSize, if_neg one_ne_zero, if_neg h0, if_neg h1']
    have hm : irrepMat M 1 k h = psichi (radians M h) h.1 k := by
      rw [irrepMat, if_neg one_ne_zero, if_neg h0, if_neg h1']
    simp only [hs, lt_irrefl, if_false, List.map_cons, List.map_nil, hm]
    exact blockDiag_single _

end Dihedral

/-- Moving the reflection axis by `β` is conjugation with the rotation by `β/2`. -/
theorem conj_axis (θ β : ℝ) (s : ℤ) (hs : s = 0 ∨ s = 1) (k : ℕ) :
    psichi (θ + s * β) s k ≈ conj (psi (β / 2) k) (psichi θ s k) := by
  have ht : transpose (psi (β / 2) k) ≈ psi (-(β / 2)) k := by
    refine (of2_transpose _ _ _ _).trans (of2_congr ?_ ?_ ?_ ?_) <;> simp [mul_neg]
  have h1 : mul (psi (β / 2) k) (psichi θ s k) ≈ psichi (β / 2 + θ) s k := by
    have := psichi_mul (β / 2) θ 0 s (.inl rfl) hs k
    rw [psi_eq_psichi]
    refine this.trans (Eqv.of_eq ?_)
    rcases hs with rfl | rfl <;> simp
  have h2 := psichi_mul (β / 2 + θ) (-(β / 2)) s 0 hs (.inl rfl) k
  unfold conj
  refine Eqv.symm ((mul_congr h1 ht rfl).trans ?_)
  rw [psi_eq_psichi]
  refine h2.trans (Eqv.of_eq ?_)
  rcases hs with rfl | rfl
  · norm_num
  · norm_num; congr 1; ring

end Escnn
