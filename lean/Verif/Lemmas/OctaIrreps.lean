import Verif.Lemmas.Octa
import Verif.Spec.Rep
import Verif.Props.C61_Instances

/-!
# The octahedral group: representations, characters and types
-/

namespace Escnn

open Real NpMat
open scoped Matrix

/-- A representation is determined by its matrices up to `≈`. -/
theorem OrthoRep.congr {E : Type} {El : E → Prop} {op : E → E → E} {one : E} {d : ℕ} {ρ σ : E → NpMat ℝ} (h : OrthoRep El op one d ρ) (he : ∀ g, El g → σ g ≈ ρ g) (h1 : El one)
    (hm : ∀ a, El a → ∀ b, El b → El (op a b)) : OrthoRep El op one d σ where
  rows g hg := (he g hg).1.trans (h.rows g hg)
  cols g hg := (he g hg).2.1.trans (h.cols g hg)
  map_one := (he one h1).trans h.map_one
  map_mul a b ha hb := (he _ (hm a ha b hb)).trans ((h.map_mul a b ha hb).trans (mul_congr (he a ha).symm (he b hb).symm (by rw [h.cols a ha, h.rows b hb])))
  ortho g hg := by
    have e := he g hg
    obtain ⟨o1, o2, o3⟩ := h.ortho g hg
    refine ⟨by rw [e.1, e.2.1, o1], ?_, ?_⟩
    · rw [e.1]; exact (mul_congr e (transpose_congr e) (by rw [transpose_rows])).trans o2
    · rw [e.1]; exact (mul_congr (transpose_congr e) e (by rw [transpose_cols])).trans o3

namespace Octa

theorem toNp_get (n : ℕ) [NeZero n] (M : Matrix (Fin n) (Fin n) ℝ) (i j : Fin n) : (toNp n M).get i j = M i j := by
  simp [toNp, Fin.ofNat, Nat.mod_eq_of_lt]

theorem toNp_mul (n : ℕ) [NeZero n] (M N : Matrix (Fin n) (Fin n) ℝ) : toNp n (M * N) ≈ mul (toNp n M) (toNp n N) := by
  refine ⟨rfl, rfl, fun i j hi hj => ?_⟩
  change (M * N) (Fin.ofNat n i) (Fin.ofNat n j) = ∑ k ∈ Finset.range n, M (Fin.ofNat n i) (Fin.ofNat n k) * N (Fin.ofNat n k) (Fin.ofNat n j)
  rw [Matrix.mul_apply, Finset.sum_range]
  refine Finset.sum_congr rfl fun k _ => ?_
  simp [Fin.ofNat, Nat.mod_eq_of_lt]

theorem toNp_one (n : ℕ) [NeZero n] : toNp n 1 ≈ eye n := by
  refine ⟨rfl, rfl, fun i j hi hj => ?_⟩
  change i < n at hi; change j < n at hj
  simp only [toNp, eye, Matrix.one_apply, Fin.ext_iff, Fin.ofNat, Nat.mod_eq_of_lt hi, Nat.mod_eq_of_lt hj]

theorem toNp_transpose (n : ℕ) [NeZero n] (M : Matrix (Fin n) (Fin n) ℝ) : toNp n Mᵀ = transpose (toNp n M) := rfl

theorem toNp_trace (n : ℕ) [NeZero n] (M : Matrix (Fin n) (Fin n) ℝ) : trace (toNp n M) = M.trace := by
  change ∑ k ∈ Finset.range n, M (Fin.ofNat n k) (Fin.ofNat n k) = _
  rw [Finset.sum_range, Matrix.trace]
  refine Finset.sum_congr rfl fun k _ => ?_
  simp [Fin.ofNat, Nat.mod_eq_of_lt]

theorem orthoRep_of (n : ℕ) [NeZero n] {F : Elem → Matrix (Fin n) (Fin n) ℝ} (h1 : F identity = 1)
    (hm : ∀ a ∈ elements, ∀ b ∈ elements, F (combine a b) = F a * F b) (hi : ∀ a ∈ elements, F (inverse a) = (F a)ᵀ) :
    OrthoRep (· ∈ elements) combine identity n (fun e => toNp n (F e)) where
  rows _ _ := rfl
  cols _ _ := rfl
  map_one := by rw [h1]; exact toNp_one n
  map_mul a b ha hb := by rw [hm a ha b hb]; exact toNp_mul n _ _
  ortho a ha := by
    refine ⟨rfl, ?_, ?_⟩
    · rw [← toNp_transpose, ← hi a ha]
      refine (toNp_mul n _ _).symm.trans ?_
      rw [← hm a ha _ (finGroup.inv_mem a ha), finGroup.mul_inv a ha, h1]
      exact toNp_one n
    · rw [← toNp_transpose, ← hi a ha]
      refine (toNp_mul n _ _).symm.trans ?_
      rw [← hm _ (finGroup.inv_mem a ha) a ha, finGroup.inv_mul a ha, h1]
      exact toNp_one n

theorem ax_bij : Function.Bijective ax := by decide +kernel

theorem sub_mul (M N : Mat3) : (M * N).submatrix ax ax = M.submatrix ax ax * N.submatrix ax ax :=
  Matrix.submatrix_mul M N ax ax ax ax_bij

theorem sub_one : (1 : Mat3).submatrix ax ax = 1 := Matrix.submatrix_one ax ax_bij.1

theorem sgn_mul : ∀ a ∈ elements, ∀ b ∈ elements, sgn (combine a b) = sgn a * sgn b := by decide +kernel

theorem sgn_inv : ∀ a ∈ elements, sgn (inverse a) = sgn a := by decide +kernel

theorem perm_mul : ∀ a ∈ elements, ∀ b ∈ elements, perm (combine a b) = combine (perm a) (perm b) := by decide +kernel

theorem perm_inv : ∀ a ∈ elements, perm (inverse a) = inverse (perm a) := by decide +kernel

theorem perm_rows : ∀ a ∈ elements, (perm a).m₀₀ + (perm a).m₀₁ + (perm a).m₀₂ = 1 ∧ (perm a).m₁₀ + (perm a).m₁₁ + (perm a).m₁₂ = 1 ∧
    (perm a).m₂₀ + (perm a).m₂₁ + (perm a).m₂₂ = 1 := by decide +kernel

/-- The matrix of ones. -/
def ones : Mat3 := fun _ _ => 1

theorem sq3 : √3 * √3 = (3 : ℝ) := Real.mul_self_sqrt (by norm_num)

theorem plane_mul : plane * planeᵀ = 1 - (1 / 3 : ℝ) • ones := by
  have := sq3
  ext i j
  fin_cases i <;> fin_cases j <;> simp [plane, ones, Matrix.mul_apply, Fin.sum_univ_two, Matrix.one_apply] <;> nlinarith

theorem plane_mul' : planeᵀ * plane = 1 := by
  have := sq3
  ext i j
  fin_cases i <;> fin_cases j <;> simp [plane, Matrix.mul_apply, Fin.sum_univ_three, Matrix.one_apply] <;> nlinarith

theorem plane_ones : planeᵀ * ones = 0 := by
  ext i j
  fin_cases i <;> fin_cases j <;> simp [plane, ones, Matrix.mul_apply, Fin.sum_univ_three] <;> ring

theorem perm_ones {a : Elem} (ha : a ∈ elements) : mat (perm a) * ones = ones := by
  obtain ⟨h0, h1, h2⟩ := perm_rows a ha
  ext i j
  fin_cases i <;> simp [mat, ones, Matrix.mul_apply, Fin.sum_univ_three]
  · exact_mod_cast h0
  · exact_mod_cast h1
  · exact_mod_cast h2

theorem plane_hom {a b : Elem} (ha : a ∈ elements) (hb : b ∈ elements) :
    planeᵀ * mat (perm (combine a b)) * plane = planeᵀ * mat (perm a) * plane * (planeᵀ * mat (perm b) * plane) := by
  have e : planeᵀ * mat (perm a) * plane * (planeᵀ * mat (perm b) * plane) = planeᵀ * mat (perm a) * (plane * planeᵀ) * mat (perm b) * plane := by
    simp only [Matrix.mul_assoc]
  rw [e, plane_mul, Matrix.mul_sub, Matrix.mul_one, Matrix.mul_smul, Matrix.mul_assoc planeᵀ (mat (perm a)) ones, perm_ones ha, plane_ones, smul_zero, sub_zero,
    perm_mul a ha b hb, mat_combine]
  simp only [Matrix.mul_assoc]

theorem psi_rep (l : ℤ) : OrthoRep (· ∈ elements) combine identity (dim l) (psi l) := by
  unfold dim psi
  by_cases h1 : l = 1
  · simp only [h1, true_or, if_true]
    exact orthoRep_of 3 (F := fun e => (mat e).submatrix ax ax) (by rw [mat_identity, sub_one]) (fun a _ b _ => by rw [mat_combine, sub_mul])
      (fun a _ => by rw [mat_inverse, Matrix.transpose_submatrix])
  by_cases h2 : l = -1
  · simp only [h2, or_true, if_true, show ¬ (-1 : ℤ) = 1 by norm_num, if_false]
    refine orthoRep_of 3 (F := fun e => (sgn e : ℝ) • (mat e).submatrix ax ax) ?_ (fun a ha b hb => ?_) (fun a ha => ?_)
    · rw [mat_identity, sub_one, show sgn identity = 1 by decide +kernel]; simp
    · rw [mat_combine, sub_mul, sgn_mul a ha b hb, Matrix.smul_mul, Matrix.mul_smul, smul_smul]; push_cast; rfl
    · rw [mat_inverse, sgn_inv a ha, Matrix.transpose_smul, Matrix.transpose_submatrix]
  by_cases h3 : l = 2
  · subst h3
    norm_num
    refine orthoRep_of 2 (F := fun e => planeᵀ * mat (perm e) * plane) ?_ (fun a ha b hb => plane_hom ha hb) (fun a ha => ?_)
    · rw [show perm identity = identity by decide +kernel, mat_identity, Matrix.mul_one, plane_mul']
    · rw [perm_inv a ha, mat_inverse, Matrix.transpose_mul, Matrix.transpose_mul, Matrix.transpose_transpose, Matrix.mul_assoc]
  by_cases h4 : l = 3
  · subst h4
    norm_num
    refine orthoRep_of 1 (F := fun e => (sgn e : ℝ) • 1) ?_ (fun a ha b hb => ?_) (fun a ha => ?_)
    · rw [show sgn identity = 1 by decide +kernel]; simp
    · rw [sgn_mul a ha b hb, Matrix.smul_mul, Matrix.mul_smul, smul_smul, Matrix.mul_one]; push_cast; rfl
    · rw [sgn_inv a ha, Matrix.transpose_smul, Matrix.transpose_one]
  · simp only [h1, h2, h3, h4, or_self, if_false]
    exact orthoRep_of 1 (F := fun _ => 1) rfl (fun _ _ _ _ => (Matrix.mul_one _).symm) (fun _ _ => Matrix.transpose_one.symm)

theorem sub_trace (e : Elem) : ((mat e).submatrix ax ax).trace = (e.m₀₀ : ℝ) + e.m₁₁ + e.m₂₂ := by
  rw [Matrix.trace, Fin.sum_univ_three]
  change (e.m₁₁ : ℝ) + e.m₂₂ + e.m₀₀ = _
  ring

theorem psi_trace (l : ℤ) (e : Elem) (he : e ∈ elements) : trace (psi l e) = (chi l e : ℝ) := by
  unfold psi chi
  split_ifs
  · rw [toNp_trace, sub_trace]; push_cast; rfl
  · rw [toNp_trace, Matrix.trace_smul, sub_trace]; push_cast; rfl
  · rw [toNp_trace, Matrix.mul_assoc, Matrix.trace_mul_comm, Matrix.mul_assoc, plane_mul, Matrix.mul_sub, Matrix.mul_one, Matrix.mul_smul, perm_ones he]
    simp [Matrix.trace, Fin.sum_univ_three, mat, perm, ones]
  · rw [toNp_trace]; simp [Matrix.trace]
  · rw [toNp_trace]; simp [Matrix.trace]

theorem chi_orth : ∀ i ∈ irrepIds, ∀ j ∈ irrepIds, (elements.map fun g => chi i g * chi j g).sum = if i = j then 24 else 0 := by
  decide +kernel

theorem chi_reg : ∀ g ∈ elements, (irrepIds.map fun l => (dim l : ℤ) * chi l g).sum = if g = identity then 24 else 0 := by
  decide +kernel

theorem nth0 : nth 0 = ⟨1, 0, 0, 0, -1, 0, 0, 0, -1⟩ := by decide +kernel
theorem nth1 : nth 1 = ⟨-1, 0, 0, 0, 1, 0, 0, 0, -1⟩ := by decide +kernel
theorem nth11 : nth 11 = ⟨0, 1, 0, 0, 0, 1, 1, 0, 0⟩ := by decide +kernel
theorem elemT_eq : elemT = ⟨-1, 0, 0, 0, 0, -1, 0, -1, 0⟩ := by decide +kernel

/-- The matrices of the irreps of dimension three which have no sign. -/
theorem psi3 {l : ℤ} (hl : l = 1 ∨ l = -1) {e : Elem} (h : sgn e = 1) : psi l e = toNp 3 ((mat e).submatrix ax ax) := by
  rcases hl with rfl | rfl
  · rw [psi, if_pos rfl]
  · rw [psi, if_neg (by norm_num), if_pos rfl, h]; simp

theorem psi3_0 {l : ℤ} (hl : l = 1 ∨ l = -1) : psi l (nth 0) ≈ lit 3 [[-1, 0, 0], [0, -1, 0], [0, 0, 1]] := by
  rw [psi3 hl (by decide +kernel), nth0]
  refine ⟨rfl, rfl, fun i j hi hj => ?_⟩
  change i < 3 at hi; change j < 3 at hj
  interval_cases i <;> interval_cases j <;> simp [toNp, lit, mat, ax, Fin.ofNat]

theorem psi3_1 {l : ℤ} (hl : l = 1 ∨ l = -1) : psi l (nth 1) ≈ lit 3 [[1, 0, 0], [0, -1, 0], [0, 0, -1]] := by
  rw [psi3 hl (by decide +kernel), nth1]
  refine ⟨rfl, rfl, fun i j hi hj => ?_⟩
  change i < 3 at hi; change j < 3 at hj
  interval_cases i <;> interval_cases j <;> simp [toNp, lit, mat, ax, Fin.ofNat]

theorem psi3_11 {l : ℤ} (hl : l = 1 ∨ l = -1) : psi l (nth 11) ≈ lit 3 [[0, 1, 0], [0, 0, 1], [1, 0, 0]] := by
  rw [psi3 hl (by decide +kernel), nth11]
  refine ⟨rfl, rfl, fun i j hi hj => ?_⟩
  change i < 3 at hi; change j < 3 at hj
  interval_cases i <;> interval_cases j <;> simp [toNp, lit, mat, ax, Fin.ofNat]

theorem psi2_T : psi 2 elemT ≈ lit 2 [[0, 1], [1, 0]] := by
  rw [psi, if_neg (by norm_num), if_neg (by norm_num), if_pos rfl, elemT_eq]
  have := sq3
  refine ⟨rfl, rfl, fun i j hi hj => ?_⟩
  change i < 2 at hi; change j < 2 at hj
  interval_cases i <;> interval_cases j <;> simp [toNp, lit, mat, perm, plane, Fin.ofNat, Matrix.mul_apply, Fin.sum_univ_three] <;> nlinarith

theorem psi2_0 : psi 2 (nth 0) ≈ lit 2 [[1, 0], [0, 1]] := by
  rw [psi, if_neg (by norm_num), if_neg (by norm_num), if_pos rfl, nth0]
  have := sq3
  refine ⟨rfl, rfl, fun i j hi hj => ?_⟩
  change i < 2 at hi; change j < 2 at hj
  interval_cases i <;> interval_cases j <;> simp [toNp, lit, mat, perm, plane, Fin.ofNat, Matrix.mul_apply, Fin.sum_univ_three] <;> nlinarith

theorem psi2_11 : psi 2 (nth 11) ≈ lit 2 [[1 / 2 * -1, 1 / 2 * -√3], [1 / 2 * √3, 1 / 2 * -1]] := by
  rw [psi, if_neg (by norm_num), if_neg (by norm_num), if_pos rfl, nth11]
  have := sq3
  refine ⟨rfl, rfl, fun i j hi hj => ?_⟩
  change i < 2 at hi; change j < 2 at hj
  interval_cases i <;> interval_cases j <;> simp [toNp, lit, mat, perm, plane, Fin.ofNat, Matrix.mul_apply, Fin.sum_univ_three] <;> nlinarith

theorem mem_nth {i : ℕ} (h : i < 24) : nth i ∈ elements := by
  have : ∀ i < 24, nth i ∈ elements := by decide +kernel
  exact this i h

theorem elemT_mem : elemT ∈ elements := by decide +kernel

/-- What commuting with the matrices of three elements means. -/
theorem type_three {ρ : Elem → NpMat ℝ} {l : ℤ} (hl : l = 1 ∨ l = -1) (hρ : ∀ g ∈ elements, ρ g ≈ psi l g) : HasType (· ∈ elements) ρ .R 3 := by
  have hd : dim l = 3 := if_pos hl
  have hr : ∀ g ∈ elements, (ρ g).rows = 3 ∧ (ρ g).cols = 3 := fun g hg => ⟨(hρ g hg).1.trans (((psi_rep l).rows g hg).trans hd), (hρ g hg).2.1.trans (((psi_rep l).cols g hg).trans hd)⟩
  refine ⟨fun B hB g hg => endoR (hr g hg).1 (hr g hg).2 B hB, fun M m1 m2 hM => ⟨fun _ => M.get 0 0, fun i j hi hj => ?_⟩⟩
  have key : ∀ {g : Elem}, g ∈ elements → ∀ {A : NpMat ℝ}, psi l g ≈ A → mul M A ≈ mul A M := fun {g} hg {A} hA => by
    have h := (hρ g hg).trans hA
    exact (mul_congr (Eqv.refl M) h.symm (by rw [m2, ← h.1, (hr g hg).1])).trans ((hM g hg).trans (mul_congr h (Eqv.refl M) (by rw [(hr g hg).2, m1])))
  have k0 := key (mem_nth (by norm_num)) (psi3_0 hl)
  have k1 := key (mem_nth (by norm_num)) (psi3_1 hl)
  have k2 := key (mem_nth (by norm_num)) (psi3_11 hl)
  have a02 := k0.2.2 0 2 (by simp [m1]) (by simp [lit])
  have a12 := k0.2.2 1 2 (by simp [m1]) (by simp [lit])
  have a20 := k0.2.2 2 0 (by simp [m1]) (by simp [lit])
  have a21 := k0.2.2 2 1 (by simp [m1]) (by simp [lit])
  have b01 := k1.2.2 0 1 (by simp [m1]) (by simp [lit])
  have b10 := k1.2.2 1 0 (by simp [m1]) (by simp [lit])
  have c01 := k2.2.2 0 1 (by simp [m1]) (by simp [lit])
  have c12 := k2.2.2 1 2 (by simp [m1]) (by simp [lit])
  simp only [mul, m2, lit, Finset.sum_range_succ, Finset.sum_range_zero] at a02 a12 a20 a21 b01 b10 c01 c12
  simp at a02 a12 a20 a21 b01 b10 c01 c12
  have e02 : M.get 0 2 = 0 := by linarith
  have e12 : M.get 1 2 = 0 := by linarith
  have e20 : M.get 2 0 = 0 := by linarith
  have e21 : M.get 2 1 = 0 := by linarith
  have e01 : M.get 0 1 = 0 := by linarith
  have e10 : M.get 1 0 = 0 := by linarith
  have e11 : M.get 1 1 = M.get 0 0 := by linarith
  have e22 : M.get 2 2 = M.get 0 0 := by linarith
  interval_cases i <;> interval_cases j <;> simp [IrrType.sumsq, endoBasis, eye, e01, e02, e10, e12, e20, e21, e11, e22]

theorem type_two {ρ : Elem → NpMat ℝ} (hρ : ∀ g ∈ elements, ρ g ≈ psi 2 g) : HasType (· ∈ elements) ρ .R 2 := by
  have hd : dim 2 = 2 := by decide +kernel
  have hr : ∀ g ∈ elements, (ρ g).rows = 2 ∧ (ρ g).cols = 2 := fun g hg => ⟨(hρ g hg).1.trans (((psi_rep 2).rows g hg).trans hd), (hρ g hg).2.1.trans (((psi_rep 2).cols g hg).trans hd)⟩
  refine ⟨fun B hB g hg => endoR (hr g hg).1 (hr g hg).2 B hB, fun M m1 m2 hM => ⟨fun _ => M.get 0 0, fun i j hi hj => ?_⟩⟩
  have key : ∀ {g : Elem}, g ∈ elements → ∀ {A : NpMat ℝ}, psi 2 g ≈ A → mul M A ≈ mul A M := fun {g} hg {A} hA => by
    have h := (hρ g hg).trans hA
    exact (mul_congr (Eqv.refl M) h.symm (by rw [m2, ← h.1, (hr g hg).1])).trans ((hM g hg).trans (mul_congr h (Eqv.refl M) (by rw [(hr g hg).2, m1])))
  have k0 := key elemT_mem psi2_T
  have k1 := key (mem_nth (by norm_num)) psi2_11
  have a00 := k0.2.2 0 0 (by simp [m1]) (by simp [lit])
  have a01 := k0.2.2 0 1 (by simp [m1]) (by simp [lit])
  have b00 := k1.2.2 0 0 (by simp [m1]) (by simp [lit])
  simp only [mul, m2, lit, Finset.sum_range_succ, Finset.sum_range_zero] at a00 a01 b00
  simp at a00 a01 b00
  have h3 : (0 : ℝ) < √3 := Real.sqrt_pos.2 (by norm_num)
  have e10 : M.get 1 0 = 0 := by
    have : √3 * M.get 1 0 = 0 := by rw [a00] at b00; linarith
    exact (mul_eq_zero.1 this).resolve_left h3.ne'
  have e01 : M.get 0 1 = 0 := by linarith
  interval_cases i <;> interval_cases j <;> simp [IrrType.sumsq, endoBasis, eye, e01, e10, a01]

theorem type_of {ρ : Elem → NpMat ℝ} {l : ℤ} (hl : l ∈ irrepIds) (hρ : ∀ g ∈ elements, ρ g ≈ psi l g) : HasType (· ∈ elements) ρ .R (dim l) := by
  have h0 : dim l = 1 → HasType (· ∈ elements) ρ .R (dim l) := fun h => by
    rw [h]
    exact hasType_one fun g hg => ⟨(hρ g hg).1.trans (((psi_rep l).rows g hg).trans h), (hρ g hg).2.1.trans (((psi_rep l).cols g hg).trans h)⟩
  simp only [irrepIds, List.mem_cons, List.not_mem_nil, or_false] at hl
  rcases hl with rfl | rfl | rfl | rfl | rfl
  · exact h0 (by decide +kernel)
  · exact type_three (.inl rfl) hρ
  · exact type_three (.inr rfl) hρ
  · exact type_two hρ
  · exact h0 (by decide +kernel)

end Octa

end Escnn
