import Verif.Lemmas.Ico
import Verif.Lemmas.OctaIrreps
import Verif.Lemmas.Dirichlet
import Verif.Lemmas.CGCount
import Verif.Spec.Ico
import Mathlib.Analysis.SpecialFunctions.Trigonometric.Chebyshev.Basic

/-!
# The icosahedral group: representations, characters and types
-/

namespace Escnn

open Real NpMat Quaternion
open scoped Matrix

namespace Ico

open Gold
open Octa (toNp)

theorem orthoRep_of (n : ℕ) [NeZero n] {F : Elem → Matrix (Fin n) (Fin n) ℝ} (h1 : F identity = 1)
    (hm : ∀ a ∈ elements, ∀ b ∈ elements, F (combine a b) = F a * F b) (hi : ∀ a ∈ elements, F (inverse a) = (F a)ᵀ) :
    OrthoRep (· ∈ elements) combine identity n (fun e => toNp n (F e)) where
  rows _ _ := rfl
  cols _ _ := rfl
  map_one := by rw [h1]; exact Octa.toNp_one n
  map_mul a b ha hb := by rw [hm a ha b hb]; exact Octa.toNp_mul n _ _
  ortho a ha := by
    refine ⟨rfl, ?_, ?_⟩
    · rw [← Octa.toNp_transpose, ← hi a ha]
      refine (Octa.toNp_mul n _ _).symm.trans ?_
      rw [← hm a ha _ (finGroup.inv_mem a ha), finGroup.mul_inv a ha, h1]
      exact Octa.toNp_one n
    · rw [← Octa.toNp_transpose, ← hi a ha]
      refine (Octa.toNp_mul n _ _).symm.trans ?_
      rw [← hm _ (finGroup.inv_mem a ha) a ha, finGroup.inv_mul a ha, h1]
      exact Octa.toNp_one n

/-! ### The conjugate of the rotation matrix -/

namespace Gold

theorem conj_add (x y : Gold) : (x + y).conj = x.conj + y.conj := by
  apply Gold.ext
  · show x.a + y.a + (x.b + y.b) = x.a + x.b + (y.a + y.b); ring
  · show -(x.b + y.b) = -x.b + -y.b; ring

theorem conj_mul2 (x y : Gold) : (mul2 x y).conj = mul2 x.conj y.conj := by
  apply Gold.ext <;> simp only [mul2, conj] <;> ring

theorem eq_of_val {x c : Gold} (h : x.val = 2 * c.val) : x.conj.val = 2 * c.conj.val := by
  have e : x = ⟨2 * c.a, 2 * c.b⟩ := val_inj (by rw [h]; simp only [val]; push_cast; ring)
  rw [e]
  simp only [val, conj]; push_cast; ring

end Gold

theorem smat_combine {a b : Elem} (ha : a ∈ elements) (hb : b ∈ elements) : smat (combine a b) = smat a * smat b := by
  have e := fun i j => congrFun (congrFun (mat_combine ha hb) i) j
  have key : ∀ {x₁ x₂ x₃ y₁ y₂ y₃ c : Gold}, c.val = x₁.val * y₁.val + x₂.val * y₂.val + x₃.val * y₃.val →
      c.conj.val = x₁.conj.val * y₁.conj.val + x₂.conj.val * y₂.conj.val + x₃.conj.val * y₃.conj.val := by
    intro x₁ x₂ x₃ y₁ y₂ y₃ c h
    have h2 : (mul2 x₁ y₁ + mul2 x₂ y₂ + mul2 x₃ y₃).val = 2 * c.val := by simp only [val_add, val_mul2, h]; ring
    have h3 := eq_of_val h2
    simp only [conj_add, conj_mul2, val_add, val_mul2] at h3
    linarith
  ext i j
  have e := e i j
  generalize combine a b = c at e ⊢
  simp only [mat, smat, Matrix.mul_apply, Fin.sum_univ_three] at e ⊢
  fin_cases i <;> fin_cases j <;> exact key e

theorem smat_inverse (a : Elem) : smat (inverse a) = (smat a)ᵀ := by
  ext i j
  fin_cases i <;> fin_cases j <;> simp [smat, inverse]

theorem smat_identity : smat identity = 1 := by
  have h1 : (1 : Gold).conj = 1 := by decide
  have h0 : (0 : Gold).conj = 0 := by decide
  ext i j
  fin_cases i <;> fin_cases j <;> simp [smat, identity, h0, h1]

theorem nu_sq : nu ^ 2 = phi + 2 := by
  have : 0 ≤ phi + 2 := by unfold phi; positivity
  rw [nu, Real.sq_sqrt this]

theorem basisA_mul : basisA * basisAᵀ = 1 := by
  have h1 := phi_sq; have h2 := nu_sq
  ext i j
  fin_cases i <;> fin_cases j <;> simp [basisA, Matrix.mul_apply, Fin.sum_univ_three] <;> grind

theorem basisA_mul' : basisAᵀ * basisA = 1 := by
  have h1 := phi_sq; have h2 := nu_sq
  ext i j
  fin_cases i <;> fin_cases j <;> simp [basisA, Matrix.mul_apply, Fin.sum_univ_three] <;> grind

/-! ### The permutations of the frames -/

theorem img_gens : ∀ g ∈ generators, ∀ x ∈ elements, img (combine g x) = (img x).map fun k => (img g).getD k 0 := by decide +kernel

theorem img_inv : ∀ x ∈ elements, (img x).map (fun k => (img (inverse x)).getD k 0) = [0, 1, 2, 3, 4] := by decide +kernel

theorem img_length (e : Elem) : (img e).length = 5 := by simp [img, axes5]

theorem img_mul : ∀ a ∈ elements, ∀ b ∈ elements, img (combine a b) = (img b).map fun k => (img a).getD k 0 := by
  have hlt : ∀ x ∈ elements, ∀ k ∈ img x, k < 5 := by decide +kernel
  have hid : img identity = [0, 1, 2, 3, 4] := by decide +kernel
  have hget : ∀ (L : List ℕ) (f : ℕ → ℕ) {k : ℕ}, k < L.length → (L.map f).getD k 0 = f (L.getD k 0) := by
    intro L f k hk
    simp [List.getD_eq_getElem?_getD, hk]
  refine generate (fun b hb => ?_) fun x hx ih g hg b hb => ?_
  · rw [finGroup.one_mul b hb, hid]
    have : (img b).map (fun k => [0, 1, 2, 3, 4].getD k 0) = (img b).map id := List.map_congr_left fun k hk => by
      have := hlt b hb k hk
      interval_cases k <;> rfl
    rw [this, List.map_id]
  · rw [finGroup.assoc g (gens_el g hg) x hx b hb, img_gens g hg _ (combine_mem x hx b hb), ih b hb, List.map_map, img_gens g hg x hx]
    refine List.map_congr_left fun k hk => ?_
    rw [hget _ _ (by rw [img_length]; exact hlt b hb k hk)]
    rfl

theorem img_lt {x : Elem} (hx : x ∈ elements) (k : Fin 5) : (img x).getD k 0 < 5 := by
  have hlt : ∀ x ∈ elements, ∀ k < 5, (img x).getD k 0 < 5 := by decide +kernel
  exact hlt x hx k k.2

theorem pmat_mul {a b : Elem} (ha : a ∈ elements) (hb : b ∈ elements) : pmat (combine a b) = pmat a * pmat b := by
  ext j k
  rw [Matrix.mul_apply]
  simp only [pmat, img_mul a ha b hb]
  rw [Finset.sum_eq_single ⟨(img b).getD k 0, img_lt hb k⟩]
  · have hk : (k : ℕ) < (img b).length := by rw [img_length]; exact k.2
    simp [List.getD_eq_getElem?_getD, hk]
  · intro i _ hi
    rw [if_neg (c := (img b).getD k 0 = i), mul_zero]
    exact fun h => hi (Fin.ext h.symm)
  · simp

theorem pmat_one : pmat identity = 1 := by
  have hid : img identity = [0, 1, 2, 3, 4] := by decide +kernel
  ext j k
  rw [pmat, hid]
  fin_cases j <;> fin_cases k <;> simp

theorem pmat_inv {a : Elem} (ha : a ∈ elements) : pmat (inverse a) = (pmat a)ᵀ := by
  have key : ∀ {x : Elem}, x ∈ elements → ∀ k : Fin 5, (img (inverse x)).getD ((img x).getD k 0) 0 = k := fun {x} hx k => by
    have h := congrArg (fun L => L.getD k 0) (img_inv x hx)
    have hk : (k : ℕ) < (img x).length := by rw [img_length]; exact k.2
    have e : ((img x).map (fun k => (img (inverse x)).getD k 0)).getD k 0 = (img (inverse x)).getD ((img x).getD k 0) 0 := by
      simp [List.getD_eq_getElem?_getD, hk]
    rw [e] at h
    rw [h]
    fin_cases k <;> rfl
  have hi := inverse_mem a ha
  have hii : inverse (inverse a) = a := rfl
  ext j k
  simp only [pmat, Matrix.transpose_apply]
  refine if_congr ⟨fun h => ?_, fun h => ?_⟩ rfl rfl
  · rw [← h]
    have := key hi k
    rwa [hii] at this
  · rw [← h]; exact key ha j

/-- The matrix of ones. -/
def ones : Matrix (Fin 5) (Fin 5) ℝ := fun _ _ => 1

theorem pmat_ones {a : Elem} (ha : a ∈ elements) : pmat a * ones = ones := by
  ext j k
  rw [Matrix.mul_apply]
  simp only [ones, mul_one]
  have e : pmat a = (pmat (inverse a))ᵀ := by rw [pmat_inv ha, Matrix.transpose_transpose]
  rw [e]
  simp only [Matrix.transpose_apply, pmat]
  rw [Finset.sum_eq_single ⟨(img (inverse a)).getD j 0, img_lt (inverse_mem a ha) j⟩]
  · simp
  · intro i _ hi
    rw [if_neg]
    exact fun h => hi (Fin.ext h.symm)
  · simp

theorem r_sq : √(2 / 5) * √(2 / 5) = (2 / 5 : ℝ) := Real.mul_self_sqrt (by norm_num)

theorem basisC_mul : basisC * basisCᵀ = 1 - (1 / 5 : ℝ) • ones := by
  have h1 := phi_sq; have h2 := nu_sq; have h3 := r_sq
  rw [basisC, Matrix.transpose_smul, Matrix.smul_mul, Matrix.mul_smul, smul_smul, h3]
  ext i j
  rw [Matrix.smul_apply, Matrix.mul_apply, Fin.sum_univ_four, Matrix.sub_apply, Matrix.smul_apply, Matrix.one_apply]
  fin_cases i <;> fin_cases j <;> simp [ones] <;> grind

theorem basisC_mul' : basisCᵀ * basisC = 1 := by
  have h1 := phi_sq; have h2 := nu_sq; have h3 := r_sq
  rw [basisC, Matrix.transpose_smul, Matrix.smul_mul, Matrix.mul_smul, smul_smul, h3]
  ext i j
  fin_cases i <;> fin_cases j <;> simp [Matrix.mul_apply, Fin.sum_univ_five, Matrix.one_apply] <;> grind

theorem basisC_ones : basisCᵀ * ones = 0 := by
  rw [basisC, Matrix.transpose_smul, Matrix.smul_mul]
  suffices h : ∀ M : Matrix (Fin 4) (Fin 5) ℝ, M = 0 → √(2 / 5) • M = 0 by
    apply h
    ext i j
    fin_cases i <;> simp [ones, Matrix.mul_apply, Fin.sum_univ_five] <;> ring
  rintro M rfl
  simp

theorem perm_hom {a b : Elem} (ha : a ∈ elements) (hb : b ∈ elements) :
    basisCᵀ * pmat (combine a b) * basisC = basisCᵀ * pmat a * basisC * (basisCᵀ * pmat b * basisC) := by
  have e : basisCᵀ * pmat a * basisC * (basisCᵀ * pmat b * basisC) = basisCᵀ * pmat a * (basisC * basisCᵀ) * pmat b * basisC := by
    simp only [Matrix.mul_assoc]
  rw [e, basisC_mul, Matrix.mul_sub, Matrix.mul_one, Matrix.mul_smul, Matrix.mul_assoc basisCᵀ (pmat a) ones, pmat_ones ha, basisC_ones, smul_zero, sub_zero,
    pmat_mul ha hb]
  simp only [Matrix.mul_assoc]

variable {W : ℕ → UQuat → NpMat ℝ}

theorem psi_rep (h2 : Wigner 2 (W 2)) (l : ℤ) : OrthoRep (· ∈ elements) combine identity (dim l) (psi W l) := by
  unfold dim psi
  by_cases e1 : l = 1
  · simp only [e1, true_or, if_true]
    exact orthoRep_of 3 (F := fun e => (mat e).submatrix Octa.ax Octa.ax) (by rw [mat_identity, Octa.sub_one]) (fun a ha b hb => by rw [mat_combine ha hb, Octa.sub_mul])
      (fun a _ => by rw [mat_inverse, Matrix.transpose_submatrix])
  by_cases e2 : l = 2
  · subst e2
    norm_num
    have hR := SO3.wigner_rep h2
    refine ⟨fun g hg => h2.rows _ (toQ_unit hg), fun g hg => h2.cols _ (toQ_unit hg), hR.one _ (toQ_unit identity_mem) (by rw [rotOf_toQ identity_mem, mat_identity]), fun a b ha hb => ?_,
      fun g hg => h2.ortho _ (toQ_unit hg)⟩
    exact hR.hom _ _ _ (toQ_unit ha) (toQ_unit hb) (toQ_unit (combine_mem a ha b hb)) (by rw [rotOf_toQ (combine_mem a ha b hb), rotOf_toQ ha, rotOf_toQ hb, mat_combine ha hb])
  by_cases e3 : l = 3
  · subst e3
    norm_num
    refine orthoRep_of 3 (F := fun e => basisAᵀ * smat e * basisA) (by rw [smat_identity, Matrix.mul_one, basisA_mul']) (fun a ha b hb => ?_) (fun a ha => ?_)
    · have e : basisAᵀ * smat a * basisA * (basisAᵀ * smat b * basisA) = basisAᵀ * smat a * (basisA * basisAᵀ) * smat b * basisA := by simp only [Matrix.mul_assoc]
      rw [e, basisA_mul, Matrix.mul_one, smat_combine ha hb]
      simp only [Matrix.mul_assoc]
    · rw [smat_inverse, Matrix.transpose_mul, Matrix.transpose_mul, Matrix.transpose_transpose, Matrix.mul_assoc]
  by_cases e4 : l = 4
  · subst e4
    norm_num
    refine orthoRep_of 4 (F := fun e => basisCᵀ * pmat e * basisC) (by rw [pmat_one, Matrix.mul_one, basisC_mul']) (fun a ha b hb => perm_hom ha hb) (fun a ha => ?_)
    rw [pmat_inv ha, Matrix.transpose_mul, Matrix.transpose_mul, Matrix.transpose_transpose, Matrix.mul_assoc]
  · simp only [e1, e2, e3, e4, or_self, if_false]
    exact orthoRep_of 1 (F := fun _ => 1) rfl (fun _ _ _ _ => (Matrix.mul_one _).symm) (fun _ _ => Matrix.transpose_one.symm)

/-! ### Characters -/

theorem chi_even : ∀ e ∈ elements, Even (mul2 (e.m₀₀ + e.m₁₁ + e.m₂₂) (e.m₀₀ + e.m₁₁ + e.m₂₂)) ∧ Even (mul2 (e.m₀₀ + e.m₁₁ + e.m₂₂) (e.m₀₀ + e.m₁₁ + e.m₂₂).conj) := by
  decide +kernel

theorem chi_fixed : ∀ e ∈ elements, chi 4 e = ⟨2 * (fixed e - 1), 0⟩ := by decide +kernel

/-- The trace of the Wigner matrix of frequency two. -/
theorem trace_two {D₁ D₂ : UQuat → NpMat ℝ} (h1 : Wigner 1 D₁) (h2 : Wigner 2 D₂) {q : UQuat} (hq : normSq q = 1) :
    trace (D₂ q) = (rotOf q).trace ^ 2 - (rotOf q).trace - 1 := by
  have e1 := h1.trace hq
  have e2 := h2.trace hq
  have e3 : trace (D₁ q) = (rotOf q).trace := by
    rw [trace_congr' (h1.one rfl q hq) (by rw [h1.rows q hq, h1.cols q hq])]
    simp only [trace, Finset.sum_range_succ, Finset.sum_range_zero, harmonicAxis, Matrix.trace, Fin.sum_univ_three, Matrix.diag]
    simp; ring
  rw [e2, ← e3, e1]
  generalize 2 * arctan2 (√(q.imI ^ 2 + q.imJ ^ 2 + q.imK ^ 2)) q.re = θ
  rw [← trace_zRot, ← trace_zRot]
  simp only [trace, zRot, Finset.sum_range_succ, Finset.sum_range_zero]
  simp
  norm_num
  rw [cos_two_mul]
  ring

theorem psi_trace (h1 : Wigner 1 (W 1)) (h2 : Wigner 2 (W 2)) (l : ℤ) (e : Elem) (he : e ∈ elements) : trace (psi W l e) = (chi l e).val := by
  have ht : (mat e).trace = (e.m₀₀ + e.m₁₁ + e.m₂₂).val := by
    simp [Matrix.trace, Fin.sum_univ_three, mat]
  have hs : (smat e).trace = (e.m₀₀ + e.m₁₁ + e.m₂₂).conj.val := by
    simp [Matrix.trace, Fin.sum_univ_three, smat, conj_add]
  obtain ⟨v1, v2⟩ := chi_even e he
  unfold psi chi
  split_ifs with h h' h3 h4
  · rw [Octa.toNp_trace, ← ht, Matrix.trace, Matrix.trace, Fin.sum_univ_three, Fin.sum_univ_three]
    change mat e 1 1 + mat e 2 2 + mat e 0 0 = mat e 0 0 + mat e 1 1 + mat e 2 2
    ring
  · rw [trace_two h1 h2 (toQ_unit he), rotOf_toQ he, ht]
    simp only [val_sub, val_half v1.1 v1.2, val_mul2, val_one]
    ring
  · rw [Octa.toNp_trace, Matrix.mul_assoc, Matrix.trace_mul_comm, Matrix.mul_assoc, basisA_mul, Matrix.mul_one, hs]
  · have hf := chi_fixed e he
    have hc : chi 4 e = Gold.half (mul2 (e.m₀₀ + e.m₁₁ + e.m₂₂) (e.m₀₀ + e.m₁₁ + e.m₂₂).conj) - (Gold.half (mul2 (e.m₀₀ + e.m₁₁ + e.m₂₂) (e.m₀₀ + e.m₁₁ + e.m₂₂)) - (e.m₀₀ + e.m₁₁ + e.m₂₂) - 1) := rfl
    rw [← hc, hf, Octa.toNp_trace, Matrix.mul_assoc, Matrix.trace_mul_comm, Matrix.mul_assoc, basisC_mul, Matrix.mul_sub, Matrix.mul_one, Matrix.mul_smul, pmat_ones he]
    have hp : (pmat e).trace = (fixed e : ℝ) := by
      rw [Matrix.trace, Fin.sum_univ_five, fixed]
      simp only [Matrix.diag, pmat]
      generalize img e = L
      simp only [show List.range 5 = [0, 1, 2, 3, 4] from rfl, List.filter_cons, List.filter_nil]
      by_cases a0 : L.getD 0 0 = 0 <;> by_cases a1 : L.getD 1 0 = 1 <;> by_cases a2 : L.getD 2 0 = 2 <;> by_cases a3 : L.getD 3 0 = 3 <;> by_cases a4 : L.getD 4 0 = 4 <;>
        simp_all <;> norm_num
    rw [Matrix.trace_sub, hp]
    simp [val, Matrix.trace, ones]
  · rw [Octa.toNp_trace, val_one]; simp [Matrix.trace]

/-- The sum of numbers. -/
def gsum (L : List Gold) : Gold := L.foldr (· + ·) 0

theorem val_gsum (L : List Gold) : (gsum L).val = (L.map val).sum := by
  induction L with
  | nil => simp [gsum]
  | cons x L ih => simpa [gsum] using ih

theorem chi_orth : ∀ i ∈ irrepIds, ∀ j ∈ irrepIds, gsum (elements.map fun g => mul2 (chi i g) (chi j g)) = if i = j then ⟨240, 0⟩ else 0 := by
  decide +kernel

theorem chi_reg : ∀ g ∈ elements, gsum (irrepIds.map fun l => mul2 ⟨dim l, 0⟩ (chi l g)) = if g = identity then ⟨120, 0⟩ else 0 := by
  decide +kernel

/-! ### Real type -/

/-- A representation of a finite group whose character has norm one is irreducible of real type. -/
theorem type_of_char {G : Type} {els : List G} {op : G → G → G} {inv : G → G} {one : G} (hG : FinGroup els op inv one) {d : ℕ} {ρ : G → NpMat ℝ} (hρ : OrthoRep (· ∈ els) op one d ρ)
    (hd : 0 < d) (h : (els.map fun g => trace (ρ g) * trace (ρ g)).sum = els.length) : HasType (· ∈ els) ρ .R d := by
  have hn : (els.length : ℝ) ≠ 0 := by exact_mod_cast hG.length_pos.ne'
  have h0 : els ≠ [] := List.length_pos_iff.1 hG.length_pos
  refine ⟨fun B hB g hg => endoR (hρ.rows g hg) (hρ.cols g hg) B hB, fun M hMr hMc hM => ?_⟩
  obtain ⟨C, -, hcols, hker⟩ := buildSylvester_spec (rho₁ := els.map ρ) (rho₂ := els.map ρ) (d₁ := d) (d₂ := d)
    (by
      intro A hA
      obtain ⟨g, hg, rfl⟩ := List.mem_map.1 hA
      exact ⟨hρ.rows g hg, hρ.cols g hg⟩)
    (by
      intro A hA
      obtain ⟨g, hg, rfl⟩ := List.mem_map.1 hA
      exact ⟨hρ.rows g hg, hρ.cols g hg⟩)
    (by simp) (by simpa using h0)
  obtain ⟨B, hr, hsp, hor⟩ := exists_null C
  have hB : ∀ v, InSpan B v ↔ ∀ g ∈ els, mul (ρ g) (unflatF d d v) ≈ mul (unflatF d d v) (ρ g) := fun v => by
    rw [← hsp, hker, List.zip_map', List.forall_mem_map]
  have hc := hom_count hG hρ hρ (by rw [hr, hcols]) hor hB
  rw [h] at hc
  have hc1 : B.cols = 1 := by
    have : (B.cols : ℝ) = 1 := mul_right_cancel₀ hn (by rw [hc, one_mul])
    exact_mod_cast this
  have span : ∀ N : NpMat ℝ, N.rows = d → N.cols = d → (∀ g ∈ els, mul N (ρ g) ≈ mul (ρ g) N) → ∃ x : ℝ, ∀ r c, r < d → c < d → N.get r c = B.get (c * d + r) 0 * x := by
    intro N hNr hNc hN
    have hu : unflatF d d (fun a => N.get (a % d) (a / d)) ≈ N := by
      refine ⟨hNr.symm, hNc.symm, fun r c hr hc => ?_⟩
      have hr : r < d := hr
      show N.get ((c * d + r) % d) ((c * d + r) / d) = _
      rw [mul_add_div' hr, mul_add_mod'' hr]
    have hs : InSpan B fun a => N.get (a % d) (a / d) := by
      rw [hB]
      intro g hg
      refine (mul_congr_right _ hu (hρ.cols g hg)).trans ((hN g hg).symm.trans (mul_congr_left _ hu.symm ?_))
      rw [hρ.rows g hg, hNc]
    obtain ⟨x, hx⟩ := hs
    refine ⟨x 0, fun r c hr' hc' => ?_⟩
    have := hx (c * d + r) (by rw [hr, hcols]; exact mul_add_lt hc' hr')
    dsimp only at this
    rw [hc1, mul_add_div' hr', mul_add_mod'' hr'] at this
    simpa using this
  obtain ⟨x, hx⟩ := span M hMr hMc hM
  obtain ⟨y, hy⟩ := span (eye d) rfl rfl fun g hg => (eye_mul' _ (hρ.rows g hg)).trans (mul_eye' _ (hρ.cols g hg)).symm
  have hy0 : y ≠ 0 := by
    intro hy0
    have := hy 0 0 hd hd
    simp [eye, hy0] at this
  refine ⟨fun _ => x / y, fun i j hi hj => ?_⟩
  have e := hy i j hi hj
  rw [hx i j hi hj]
  simp only [IrrType.sumsq, endoBasis, Finset.sum_range_one, List.getD_cons_zero]
  rw [e]
  field_simp

/-! ### The generators -/

theorem sqrt5 : √5 = 2 * phi - 1 := by rw [phi]; ring

theorem inv5 : 1 / √5 = (2 * phi - 1) / 5 := by
  have : √5 * √5 = (5 : ℝ) := Real.mul_self_sqrt (by norm_num)
  have h0 : √5 ≠ 0 := (Real.sqrt_pos.2 (by norm_num)).ne'
  rw [← sqrt5]; field_simp; nlinarith

theorem cos36 : cos (π / 5) = phi / 2 := by rw [Real.cos_pi_div_five, phi]; ring

theorem one_lt_phi : 1 < phi := by
  have : (1 : ℝ) < √5 := by rw [Real.lt_sqrt] <;> norm_num
  rw [phi]; linarith

theorem sin36 : sin (π / 5) = nu * (phi - 1) / 2 := by
  have h1 := phi_sq; have h2 := nu_sq
  have hp := one_lt_phi
  have hn : 0 ≤ nu := Real.sqrt_nonneg _
  have hs : 0 ≤ sin (π / 5) := sin_nonneg_of_nonneg_of_le_pi (by positivity) (by linarith [pi_pos])
  have hsq : sin (π / 5) ^ 2 = (nu * (phi - 1) / 2) ^ 2 := by
    rw [sin_sq, cos36]; grind
  exact (pow_left_inj₀ hs (by have : 0 ≤ phi - 1 := by linarith
                              positivity) two_ne_zero).1 hsq

theorem cos72 : cos (72 / 180 * π) = (phi - 1) / 2 := by
  have h1 := phi_sq
  rw [show 72 / 180 * π = 2 * (π / 5) by ring, cos_two_mul, cos36]; linear_combination h1 / 2

theorem sin72 : sin (72 / 180 * π) = nu / 2 := by
  have h1 := phi_sq
  rw [show 72 / 180 * π = 2 * (π / 5) by ring, sin_two_mul, cos36, sin36]; linear_combination nu * h1 / 2

theorem cos144 : cos (144 / 180 * π) = -phi / 2 := by
  rw [show 144 / 180 * π = π - π / 5 by ring, cos_pi_sub, cos36]; ring

theorem sin144 : sin (144 / 180 * π) = nu * (phi - 1) / 2 := by
  rw [show 144 / 180 * π = π - π / 5 by ring, sin_pi_sub, sin36]

theorem nth21 : nth 21 = ⟨⟨0, 1⟩, ⟨1, 0⟩, ⟨-1, 1⟩, ⟨-1, 0⟩, ⟨-1, 1⟩, ⟨0, 1⟩, ⟨-1, 1⟩, ⟨0, -1⟩, ⟨1, 0⟩⟩ := by decide +kernel
theorem nth0 : nth 0 = ⟨⟨2, 0⟩, 0, 0, 0, ⟨-2, 0⟩, 0, 0, 0, ⟨-2, 0⟩⟩ := by decide +kernel
theorem img21 : img (nth 21) = [1, 2, 3, 4, 0] := by decide +kernel
theorem img0 : img (nth 0) = [0, 2, 1, 4, 3] := by decide +kernel

theorem conj_zero : (0 : Gold).conj = 0 := by decide

theorem psi3_p : psi W 3 (nth 21) ≈ Octa.lit 3 [[cos (144 / 180 * π), -sin (144 / 180 * π), 0], [sin (144 / 180 * π), cos (144 / 180 * π), 0], [0, 0, 1]] := by
  rw [psi, if_neg (by norm_num), if_neg (by norm_num), if_pos rfl, nth21, cos144, sin144]
  have h1 := phi_sq; have h2 := nu_sq
  refine ⟨rfl, rfl, fun i j hi hj => ?_⟩
  change i < 3 at hi; change j < 3 at hj
  simp only [toNp, Matrix.mul_apply, Fin.sum_univ_three, Matrix.transpose_apply]
  interval_cases i <;> interval_cases j <;> simp [Octa.lit, smat, basisA, Fin.ofNat, Gold.conj, Gold.val] <;> grind

theorem psi3_q : psi W 3 (nth 0) ≈ Octa.lit 3 [[1 / √5, 0, -2 / √5], [0, -1, 0], [-2 / √5, 0, -1 / √5]] := by
  rw [psi, if_neg (by norm_num), if_neg (by norm_num), if_pos rfl, nth0, show -2 / √5 = -2 * (1 / √5) by ring, show -1 / √5 = -(1 / √5) by ring, inv5]
  have h1 := phi_sq; have h2 := nu_sq
  refine ⟨rfl, rfl, fun i j hi hj => ?_⟩
  change i < 3 at hi; change j < 3 at hj
  simp only [toNp, Matrix.mul_apply, Fin.sum_univ_three, Matrix.transpose_apply]
  interval_cases i <;> interval_cases j <;> simp [Octa.lit, smat, basisA, Fin.ofNat, conj_zero] <;> simp [Gold.conj, Gold.val] <;> grind

theorem psi4_p : psi W 4 (nth 21) ≈ Octa.lit 4 [[cos (72 / 180 * π), -sin (72 / 180 * π), 0, 0], [sin (72 / 180 * π), cos (72 / 180 * π), 0, 0],
        [0, 0, cos (144 / 180 * π), -sin (144 / 180 * π)], [0, 0, sin (144 / 180 * π), cos (144 / 180 * π)]] := by
  rw [psi, if_neg (by norm_num), if_neg (by norm_num), if_neg (by norm_num), if_pos rfl, cos144, sin144, cos72, sin72, basisC, Matrix.transpose_smul, Matrix.smul_mul, Matrix.smul_mul, Matrix.mul_smul,
    smul_smul, r_sq]
  have h1 := phi_sq; have h2 := nu_sq
  refine ⟨rfl, rfl, fun i j hi hj => ?_⟩
  change i < 4 at hi; change j < 4 at hj
  simp only [toNp, Matrix.smul_apply, Matrix.mul_apply, Fin.sum_univ_five, Matrix.transpose_apply, pmat, img21]
  interval_cases i <;> interval_cases j <;> simp [Octa.lit, Fin.ofNat] <;> grind

theorem psi4_q : psi W 4 (nth 0) ≈ Octa.lit 4 [[0, 0, -1, 0], [0, 2 / √5, 0, 1 / √5], [-1, 0, 0, 0], [0, 1 / √5, 0, -2 / √5]] := by
  rw [psi, if_neg (by norm_num), if_neg (by norm_num), if_neg (by norm_num), if_pos rfl, basisC, Matrix.transpose_smul, Matrix.smul_mul, Matrix.smul_mul, Matrix.mul_smul,
    smul_smul, r_sq, show -2 / √5 = -2 * (1 / √5) by ring, show 2 / √5 = 2 * (1 / √5) by ring, inv5]
  have h1 := phi_sq; have h2 := nu_sq
  refine ⟨rfl, rfl, fun i j hi hj => ?_⟩
  change i < 4 at hi; change j < 4 at hj
  simp only [toNp, Matrix.smul_apply, Matrix.mul_apply, Fin.sum_univ_five, Matrix.transpose_apply, pmat, img0]
  interval_cases i <;> interval_cases j <;> simp [Octa.lit, Fin.ofNat] <;> grind

end Ico

end Escnn
