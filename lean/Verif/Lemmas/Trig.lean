import Verif.Model.Irreps
import Verif.Spec.Rep
import Mathlib.Tactic

/-!
# Algebra of the rotation/reflection matrices (helper lemmas)
-/

namespace Escnn

open Real NpMat

theorem of2_congr {a b c d a' b' c' d' : ℝ} (h1 : a = a') (h2 : b = b') (h3 : c = c') (h4 : d = d') :
    of2 a b c d ≈ of2 a' b' c' d' := by subst h1 h2 h3 h4; rfl

theorem of2_mul (a b c d a' b' c' d' : ℝ) :
    mul (of2 a b c d) (of2 a' b' c' d') ≈
      of2 (a * a' + b * c') (a * b' + b * d') (c * a' + d * c') (c * b' + d * d') := by
  refine ⟨rfl, rfl, fun i j hi hj => ?_⟩
  simp only [mul_rows, mul_cols, of2_rows, of2_cols] at hi hj
  simp only [mul, of2, Finset.sum_range_succ, Finset.sum_range_zero]
  interval_cases i <;> interval_cases j <;> simp

theorem of2_transpose (a b c d : ℝ) : transpose (of2 a b c d) ≈ of2 a c b d := by
  refine ⟨rfl, rfl, fun i j hi hj => ?_⟩
  simp only [transpose_rows, transpose_cols, of2_rows, of2_cols] at hi hj
  interval_cases i <;> interval_cases j <;> simp [transpose, of2]

theorem of2_eye : of2 1 0 0 1 ≈ (eye 2 : NpMat ℝ) := by
  refine ⟨rfl, rfl, fun i j hi hj => ?_⟩
  simp only [of2_rows, of2_cols] at hi hj
  interval_cases i <;> interval_cases j <;> simp [of2, eye]

theorem of2_diag2 (a d : ℝ) : diag2 (of1 a) (of1 d) ≈ of2 a 0 0 d := by
  refine ⟨rfl, rfl, fun i j hi hj => ?_⟩
  simp only [diag2_rows, diag2_cols, of1_rows, of1_cols] at hi hj
  interval_cases i <;> interval_cases j <;> simp [of2, of1, diag2]

theorem of1_mul (a b : ℝ) : mul (of1 a) (of1 b) ≈ of1 (a * b) := by
  refine ⟨rfl, rfl, fun i j _ _ => ?_⟩
  simp [mul, of1]

theorem of1_congr {a b : ℝ} (h : a = b) : of1 a ≈ of1 b := by subst h; rfl

theorem of1_eye : of1 1 ≈ (eye 1 : NpMat ℝ) := by
  refine ⟨rfl, rfl, fun i j hi hj => ?_⟩
  simp only [of1_rows, of1_cols] at hi hj
  interval_cases i; interval_cases j; simp [of1, eye]

theorem of2_isOrtho {a b c d : ℝ} (h1 : a * a + b * b = 1) (h2 : a * c + b * d = 0) (h3 : c * c + d * d = 1)
    (h4 : a * a + c * c = 1) (h5 : a * b + c * d = 0) (h6 : b * b + d * d = 1) : IsOrtho (of2 a b c d) := by
  refine ⟨rfl, ?_, ?_⟩
  · refine (mul_congr (Eqv.refl _) (of2_transpose _ _ _ _) rfl).trans ((of2_mul _ _ _ _ _ _ _ _).trans ?_)
    refine (of2_congr h1 h2 ?_ h3).trans of2_eye
    linarith
  · refine (mul_congr (of2_transpose _ _ _ _) (Eqv.refl _) rfl).trans ((of2_mul _ _ _ _ _ _ _ _).trans ?_)
    refine (of2_congr h4 h5 ?_ h6).trans of2_eye
    linarith

theorem of1_isOrtho {a : ℝ} (h : a * a = 1) : IsOrtho (of1 a) := by
  have : mul (of1 a) (of1 a) ≈ (eye 1 : NpMat ℝ) :=
    (of1_mul _ _).trans ((of1_congr h).trans of1_eye)
  exact ⟨rfl, this, this⟩

theorem eye_isOrtho (n : ℕ) : IsOrtho (eye n : NpMat ℝ) := by
  refine ⟨rfl, ?_, ?_⟩
  · exact (mul_congr (Eqv.refl _) (transpose_eye n) rfl).trans (eye_mul (eye n))
  · exact (mul_congr (transpose_eye n) (Eqv.refl _) rfl).trans (eye_mul (eye n))

theorem sgnR_mul_self (s : ℤ) : sgnR s * sgnR s = 1 := by unfold sgnR; split <;> norm_num
@[simp] theorem sgnR_zero : sgnR 0 = 1 := by simp [sgnR]
@[simp] theorem sgnR_one : sgnR 1 = -1 := by simp [sgnR]

theorem psi_eq_psichi (θ : ℝ) (k : ℕ) : psi θ k = psichi θ 0 k := by simp [psi, psichi]

theorem psichi_isOrtho (θ : ℝ) (s : ℤ) (k : ℕ) : IsOrtho (psichi θ s k) := by
  have h := Real.cos_sq_add_sin_sq (k * θ)
  have hs := sgnR_mul_self s
  refine of2_isOrtho ?_ ?_ ?_ ?_ ?_ ?_
  · linear_combination h + (sin (k * θ)) ^ 2 * hs
  · linear_combination (-(sin (k * θ)) * cos (k * θ)) * hs
  · linear_combination h + (cos (k * θ)) ^ 2 * hs
  · linear_combination h
  · ring
  · linear_combination sgnR s ^ 2 * h + hs

theorem psi_isOrtho (θ : ℝ) (k : ℕ) : IsOrtho (psi θ k) := psi_eq_psichi θ k ▸ psichi_isOrtho θ 0 k

/-- Composition law of `psichi`. -/
theorem psichi_mul (θ θ' : ℝ) (s s' : ℤ) (hs : s = 0 ∨ s = 1) (hs' : s' = 0 ∨ s' = 1) (k : ℕ) :
    mul (psichi θ s k) (psichi θ' s' k) ≈ psichi (θ + sgnR s * θ') ((s + s') % 2) k := by
  refine (of2_mul _ _ _ _ _ _ _ _).trans ?_
  rcases hs with rfl | rfl <;> rcases hs' with rfl | rfl <;>
  · refine of2_congr ?_ ?_ ?_ ?_ <;>
      norm_num [mul_add, Real.cos_add, Real.sin_add, ← sub_eq_add_neg, mul_sub, Real.cos_sub, Real.sin_sub] <;> ring

theorem psi_mul (θ θ' : ℝ) (k : ℕ) : mul (psi θ k) (psi θ' k) ≈ psi (θ + θ') k := by
  have := psichi_mul θ θ' 0 0 (.inl rfl) (.inl rfl) k
  simpa [psi_eq_psichi] using this

/-- `psichi` only depends on the angle through `cos` and `sin` of the multiple. -/
theorem psichi_congr {θ θ' : ℝ} (s : ℤ) (k : ℕ) (hc : cos (k * θ) = cos (k * θ')) (hs : sin (k * θ) = sin (k * θ')) :
    psichi θ s k = psichi θ' s k := by simp [psichi, hc, hs]

theorem cos_nat_mul_sub (k : ℕ) (θ : ℝ) (q : ℤ) : cos (k * (θ - q * (2 * π))) = cos (k * θ) := by
  have : (k : ℝ) * (θ - q * (2 * π)) = k * θ - ((k * q : ℤ) : ℝ) * (2 * π) := by push_cast; ring
  rw [this, Real.cos_sub_int_mul_two_pi]

theorem sin_nat_mul_sub (k : ℕ) (θ : ℝ) (q : ℤ) : sin (k * (θ - q * (2 * π))) = sin (k * θ) := by
  have : (k : ℝ) * (θ - q * (2 * π)) = k * θ - ((k * q : ℤ) : ℝ) * (2 * π) := by push_cast; ring
  rw [this, Real.sin_sub_int_mul_two_pi]

theorem trace_of1 (a : ℝ) : trace (of1 a) = a := by simp [trace, of1]
theorem trace_of2 (a b c d : ℝ) : trace (of2 a b c d) = a + d := by
  simp [trace, of2, Finset.sum_range_succ]
theorem trace_eye1 : trace (eye 1 : NpMat ℝ) = 1 := by simp [trace, eye]

theorem psichi_zero (k : ℕ) : psichi 0 0 k ≈ (eye 2 : NpMat ℝ) := by
  refine Eqv.trans ?_ of2_eye
  simp only [psichi]
  exact of2_congr (by simp) (by simp) (by simp) (by simp)

/-! ### One-dimensional and two-dimensional building blocks as `OrthoRep`s -/

theorem orthoRep_eye1 {E : Type} (El : E → Prop) (op : E → E → E) (one : E) :
    OrthoRep El op one 1 (fun _ => (eye 1 : NpMat ℝ)) :=
  ⟨fun _ _ => rfl, fun _ _ => rfl, Eqv.refl _, fun _ _ _ _ => (eye_mul (eye 1)).symm, fun _ _ => eye_isOrtho 1⟩

theorem orthoRep_of1 {E : Type} {El : E → Prop} {op : E → E → E} {one : E} (f : E → ℝ) (h1 : f one = 1)
    (hm : ∀ g h, El g → El h → f (op g h) = f g * f h) (hs : ∀ g, El g → f g * f g = 1) :
    OrthoRep El op one 1 (fun g => of1 (f g)) :=
  ⟨fun _ _ => rfl, fun _ _ => rfl, (of1_congr h1).trans of1_eye,
    fun g h hg hh => (of1_congr (hm g h hg hh)).trans (of1_mul _ _).symm, fun g hg => of1_isOrtho (hs g hg)⟩

/-- `g ↦ psichi (θ g) (s g) k` is a representation as soon as `(θ, s)` compose like the elements of `O(2)` up to full turns. -/
theorem orthoRep_psichi {E : Type} {El : E → Prop} {op : E → E → E} {one : E} (θ : E → ℝ) (s : E → ℤ) (k : ℕ)
    (hs01 : ∀ g, El g → s g = 0 ∨ s g = 1) (h1 : θ one = 0) (h1' : s one = 0)
    (hm : ∀ g h, El g → El h → ∃ q : ℤ, θ (op g h) = θ g + sgnR (s g) * θ h - q * (2 * π))
    (hs : ∀ g h, El g → El h → s (op g h) = (s g + s h) % 2) :
    OrthoRep El op one 2 (fun g => psichi (θ g) (s g) k) := by
  refine ⟨fun _ _ => rfl, fun _ _ => rfl, ?_, fun g h hg hh => ?_, fun g _ => psichi_isOrtho _ _ _⟩
  · simp only [h1, h1']; exact psichi_zero k
  · obtain ⟨q, hq⟩ := hm g h hg hh
    refine Eqv.trans ?_ (psichi_mul _ _ _ _ (hs01 g hg) (hs01 h hh) k).symm
    refine Eqv.of_eq ?_
    simp only [hq, hs g h hg hh]
    exact psichi_congr _ _ (cos_nat_mul_sub _ _ _) (sin_nat_mul_sub _ _ _)

end Escnn
