import Verif.Lemmas.MatAlg
import Mathlib.Data.List.GetD
import Mathlib.LinearAlgebra.Matrix.NonsingularInverse
import Verif.Model.Regular
import Verif.Spec.FinGroup
import Verif.Props.C14_DirectSum

/-!
# Lemmas about the regular representation
-/

namespace Escnn

open NpMat

variable {G Id : Type} [DecidableEq G]

theorem regFold_get (els L : List G) (mul : G → G → G) (e : G) (M : NpMat ℝ) (a b : ℕ) :
    (L.foldl (fun r g => setBlock r (els.idxOf (mul e g)) (els.idxOf g) (of1 1)) M).get a b =
      if ∃ g ∈ L, els.idxOf (mul e g) = a ∧ els.idxOf g = b then 1 else M.get a b := by
  induction L generalizing M with
  | nil => simp
  | cons g L ih =>
    rw [List.foldl_cons, ih]
    by_cases h : ∃ g ∈ L, els.idxOf (mul e g) = a ∧ els.idxOf g = b
    · rw [if_pos h, if_pos]
      obtain ⟨x, hx, h⟩ := h
      exact ⟨x, List.mem_cons_of_mem _ hx, h⟩
    · rw [if_neg h]
      have e1 : ∀ p q : ℕ, (setBlock M p q (of1 1)).get a b = if p ≤ a ∧ a < p + 1 ∧ q ≤ b ∧ b < q + 1 then 1 else M.get a b :=
        fun p q => rfl
      rw [e1]
      have hiff : (∃ x ∈ g :: L, els.idxOf (mul e x) = a ∧ els.idxOf x = b) ↔
          (els.idxOf (mul e g) ≤ a ∧ a < els.idxOf (mul e g) + 1 ∧ els.idxOf g ≤ b ∧ b < els.idxOf g + 1) := by
        constructor
        · rintro ⟨x, hx, hx'⟩
          rcases List.mem_cons.1 hx with rfl | hx
          · omega
          · exact absurd ⟨x, hx, hx'⟩ h
        · intro h'
          exact ⟨g, List.mem_cons_self .., by omega, by omega⟩
      split_ifs with h1 h2 h2
      · rfl
      · exact absurd (hiff.2 h1) h2
      · exact absurd (hiff.1 h2) h1
      · rfl

theorem regFold_shape (els L : List G) (mul : G → G → G) (e : G) (M : NpMat ℝ) :
    (L.foldl (fun r g => setBlock r (els.idxOf (mul e g)) (els.idxOf g) (of1 1)) M).rows = M.rows ∧
    (L.foldl (fun r g => setBlock r (els.idxOf (mul e g)) (els.idxOf g) (of1 1)) M).cols = M.cols := by
  induction L generalizing M with
  | nil => exact ⟨rfl, rfl⟩
  | cons g L ih => rw [List.foldl_cons]; exact ih _

theorem regMat_rows (els : List G) (mul : G → G → G) (e : G) : (regMat els mul e).rows = els.length :=
  (regFold_shape els els mul e _).1
theorem regMat_cols (els : List G) (mul : G → G → G) (e : G) : (regMat els mul e).cols = els.length :=
  (regFold_shape els els mul e _).2

theorem regMat_get {els : List G} (mul : G → G → G) (hnd : els.Nodup) {e : G} (hmul : ∀ g ∈ els, mul e g ∈ els) {a b : ℕ}
    (ha : a < els.length) (hb : b < els.length) :
    (regMat els mul e).get a b = if els[a] = mul e els[b] then 1 else 0 := by
  unfold regMat
  rw [regFold_get]
  refine if_congr ?_ rfl rfl
  constructor
  · rintro ⟨g, hg, h1, h2⟩
    subst h1 h2
    simp
  · intro h
    refine ⟨els[b], List.getElem_mem hb, ?_, ?_⟩
    · rw [← h]; exact hnd.idxOf_getElem a ha
    · exact hnd.idxOf_getElem b hb

theorem regMat_trace {els : List G} {mul : G → G → G} {inv : G → G} {one : G} (hG : FinGroup els mul inv one) {e : G}
    (he : e ∈ els) : trace (regMat els mul e) = if e = one then (els.length : ℝ) else 0 := by
  have : ∀ i ∈ Finset.range els.length, (regMat els mul e).get i i = if e = one then (1 : ℝ) else 0 := by
    intro i hi
    rw [Finset.mem_range] at hi
    rw [regMat_get mul hG.nodup (fun g hg => hG.mul_mem e he g hg) hi hi]
    refine if_congr ?_ rfl rfl
    have hm := List.getElem_mem hi
    constructor
    · intro h
      exact hG.cancel_right hm he hG.one_mem (h.symm.trans (hG.one_mul _ hm).symm)
    · rintro rfl; exact (hG.one_mul _ hm).symm
  rw [trace, regMat_rows, Finset.sum_congr rfl this]
  split_ifs <;> simp

/-- Sum over a list without repetitions of a function supported at one element. -/
theorem sum_map_ite_eq {els : List G} (hnd : els.Nodup) {x : G} (hx : x ∈ els) (f : G → ℝ) :
    (els.map fun e => if e = x then f e else 0).sum = f x := by
  induction els with
  | nil => simp at hx
  | cons a L ih =>
    rw [List.nodup_cons] at hnd
    rw [List.map_cons, List.sum_cons]
    by_cases h : a = x
    · subst h
      rw [if_pos rfl]
      have : (L.map fun e => if e = a then f e else 0).sum = 0 := by
        apply List.sum_eq_zero
        intro y hy
        obtain ⟨e, he, rfl⟩ := List.mem_map.1 hy
        rw [if_neg]; rintro rfl; exact hnd.1 he
      rw [this, add_zero]
    · rw [if_neg h, zero_add]
      exact ih hnd.2 (by rcases List.mem_cons.1 hx with rfl | h' <;> simp_all)

theorem regMultiplicity_eq {els : List G} {mul : G → G → G} {inv : G → G} {one : G} (hG : FinGroup els mul inv one)
    (char : G → ℝ) (sumsq : ℕ) : regMultiplicity els mul inv char sumsq = char one / sumsq := by
  unfold regMultiplicity
  have : (els.map fun e => trace (regMat els mul e) * char (inv e)) =
      els.map fun e => if e = one then (els.length : ℝ) * char (inv e) else 0 := by
    refine List.map_congr_left fun e he => ?_
    rw [regMat_trace hG he]; split_ifs <;> simp
  rw [this, sum_map_ite_eq hG.nodup hG.one_mem (fun e => (els.length : ℝ) * char (inv e)), hG.inv_one]
  have : (els.length : ℝ) ≠ 0 := by have := hG.length_pos; positivity
  exact mul_div_mul_left _ _ this

theorem asNat_of {x : ℝ} {n : ℕ} (h : x = n) : asNat x = .ok n := by
  have hx : ∃ n : ℕ, x = n := ⟨n, h⟩
  unfold asNat
  rw [dif_pos hx]
  have := hx.choose_spec
  congr 1
  have e : ((hx.choose : ℕ) : ℝ) = n := by rw [← this, h]
  exact_mod_cast e

theorem regMultiplicities_eq {els : List G} {mul : G → G → G} {inv : G → G} {one : G} (hG : FinGroup els mul inv one)
    (char : Id → G → ℝ) (sumsq : Id → ℕ) (m : Id → ℕ) (ids : List Id)
    (h : ∀ i ∈ ids, char i one = m i * sumsq i ∧ sumsq i ≠ 0) :
    regMultiplicities els mul inv char sumsq ids = .ok (ids.map fun i => (i, m i)) := by
  induction ids with
  | nil => rfl
  | cons i L ih =>
    have h1 := h i (List.mem_cons_self ..)
    have : asNat (regMultiplicity els mul inv (char i) (sumsq i)) = .ok (m i) := by
      apply asNat_of
      rw [regMultiplicity_eq hG, h1.1]
      have : (sumsq i : ℝ) ≠ 0 := by exact_mod_cast h1.2
      field_simp
    simp only [regMultiplicities, this, ih fun j hj => h j (List.mem_cons_of_mem _ hj), List.map_cons]

/-! ### quadratic forms of block diagonal arrays -/

/-- `vᵀ A v` -/
noncomputable def qform (A : NpMat ℝ) (v : ℕ → ℝ) : ℝ :=
  ∑ i ∈ Finset.range A.rows, ∑ j ∈ Finset.range A.cols, v i * A.get i j * v j

theorem qform_congr {A B : NpMat ℝ} {v w : ℕ → ℝ} (h : A ≈ B) (hv : ∀ i, i < A.rows → v i = w i)
    (hv' : ∀ i, i < A.cols → v i = w i) : qform A v = qform B w := by
  unfold qform
  rw [← h.1, ← h.2.1]
  refine Finset.sum_congr rfl fun i hi => Finset.sum_congr rfl fun j hj => ?_
  rw [Finset.mem_range] at hi hj
  rw [h.2.2 i j hi hj, hv i hi, hv' j hj]

theorem qform_diag2 (A B : NpMat ℝ) (h : A.rows = A.cols) (v : ℕ → ℝ) :
    qform (diag2 A B) v = qform A v + qform B (fun t => v (A.rows + t)) := by
  unfold qform
  simp only [diag2_rows, diag2_cols, Finset.sum_range_add, diag2]
  congr 1
  · refine Finset.sum_congr rfl fun i hi => ?_
    rw [Finset.mem_range] at hi
    simp only [hi, if_true]
    have e : ∑ x ∈ Finset.range B.cols, v i * (if A.cols + x < A.cols then A.get i (A.cols + x) else 0) * v (A.cols + x) = 0 := by
      refine Finset.sum_eq_zero fun x _ => by simp
    rw [e, add_zero]
    refine Finset.sum_congr rfl fun j hj => ?_
    rw [Finset.mem_range] at hj
    rw [if_pos hj]
  · refine Finset.sum_congr rfl fun i _ => ?_
    have hi : ¬ A.rows + i < A.rows := by omega
    simp only [hi, if_false]
    have e : ∑ x ∈ Finset.range A.cols, v (A.rows + i) * (if x < A.cols then 0 else B.get (A.rows + i - A.rows) (x - A.cols)) * v x = 0 := by
      refine Finset.sum_eq_zero fun x hx => ?_
      rw [Finset.mem_range] at hx
      simp [hx]
    rw [e, zero_add]
    refine Finset.sum_congr rfl fun j _ => ?_
    rw [if_neg (by omega)]
    simp [h]

theorem qform_blockDiag (L : List (NpMat ℝ × List ℝ)) (h : ∀ p ∈ L, p.1.rows = p.2.length ∧ p.1.cols = p.2.length) :
    qform (blockDiag (L.map Prod.fst)) (fun t => (L.flatMap Prod.snd).getD t 0) =
      (L.map fun p => qform p.1 (fun t => p.2.getD t 0)).sum := by
  induction L with
  | nil => simp [qform, blockDiag, zeros]
  | cons p L ih =>
    have hp := h p (List.mem_cons_self ..)
    rw [List.map_cons, show blockDiag (p.1 :: L.map Prod.fst) = diag2 p.1 (blockDiag (L.map Prod.fst)) from rfl,
      qform_diag2 _ _ (hp.1.trans hp.2.symm), List.map_cons, List.sum_cons, ← ih fun q hq => h q (List.mem_cons_of_mem _ hq)]
    congr 1
    · refine qform_congr (Eqv.refl _) (fun i hi => ?_) (fun i hi => ?_)
      all_goals
        rw [List.flatMap_cons, List.getD_append]
        omega
    · refine qform_congr (Eqv.refl _) (fun i _ => ?_) (fun i _ => ?_)
      all_goals
        rw [List.flatMap_cons, List.getD_append_right _ _ _ _ (by omega)]
        congr 1; omega

/-- The part of `np.eye(m, s).reshape(-1) * np.sqrt(s)` multiplied with the `c`-th copy of the irrep. -/
noncomputable def unitVec (s c : ℕ) : List ℝ := (List.range s).map fun t : ℕ => (if c = t then 1 else 0) * Real.sqrt s

theorem eyeFlat_eq (m s : ℕ) : eyeFlat m s = (List.range m).flatMap (unitVec s) := by
  rcases Nat.eq_zero_or_pos s with rfl | hs
  · simp [eyeFlat, unitVec]
  induction m with
  | zero => simp [eyeFlat]
  | succ m ih =>
    rw [List.range_succ, List.flatMap_append, ← ih, eyeFlat, eyeFlat, show (m + 1) * s = m * s + s by ring, List.range_add,
      List.map_append]
    congr 1
    simp only [List.flatMap_cons, List.flatMap_nil, List.append_nil, unitVec, List.map_map]
    refine List.map_congr_left fun t ht => ?_
    rw [List.mem_range] at ht
    simp only [Function.comp]
    rw [show (m * s + t) / s = m by rw [mul_comm, Nat.mul_add_div hs, Nat.div_eq_of_lt ht, add_zero],
      show (m * s + t) % s = t by rw [mul_comm, Nat.mul_add_mod, Nat.mod_eq_of_lt ht]]

theorem qform_unitVec (A : NpMat ℝ) (s c : ℕ) (hr : A.rows = s) (hc : A.cols = s) (h : c < s) :
    qform A (fun t => (unitVec s c).getD t 0) = s * A.get c c := by
  have e : ∀ t, t < s → (unitVec s c).getD t 0 = if c = t then Real.sqrt s else 0 := by
    intro t ht
    rw [unitVec, List.getD_eq_getElem _ _ (by simpa using ht)]
    simp
  rw [qform_congr (w := fun t => if c = t then Real.sqrt s else 0) (Eqv.refl A) (fun i hi => e i (hr ▸ hi))
    (fun i hi => e i (hc ▸ hi))]
  unfold qform
  rw [hr, hc, Finset.sum_eq_single c, Finset.sum_eq_single c]
  · have := Real.mul_self_sqrt (Nat.cast_nonneg (α := ℝ) s)
    simp only [if_true]
    linear_combination A.get c c * this
  · intro b _ hb; simp [Ne.symm hb]
  · intro hh; exact absurd (Finset.mem_range.2 h) hh
  · intro b _ hb; refine Finset.sum_eq_zero fun x _ => ?_; simp [Ne.symm hb]
  · intro hh; exact absurd (Finset.mem_range.2 h) hh

theorem blockDiag_transpose (L : List (NpMat ℝ)) : transpose (blockDiag L) ≈ blockDiag (L.map transpose) := by
  induction L with
  | nil => exact ⟨rfl, rfl, fun i j hi _ => absurd hi (Nat.not_lt_zero i)⟩
  | cons A L ih =>
    rw [List.map_cons, show blockDiag (A :: L) = diag2 A (blockDiag L) from rfl,
      show blockDiag (transpose A :: L.map transpose) = diag2 (transpose A) (blockDiag (L.map transpose)) from rfl]
    exact (diag2_transpose _ _).trans (diag2_congr (Eqv.refl _) ih)

/-- A right inverse of a square array is a left inverse. -/
theorem mul_eye_comm {A B : NpMat ℝ} {n : ℕ} (hA : A.rows = n) (hA' : A.cols = n) (hB : B.rows = n) (hB' : B.cols = n)
    (h : mul A B ≈ eye n) : mul B A ≈ eye n := by
  let M : Matrix (Fin n) (Fin n) ℝ := fun i j => A.get i j
  let N : Matrix (Fin n) (Fin n) ℝ := fun i j => B.get i j
  have hm : M * N = 1 := by
    ext i j
    have := h.2.2 i j (by simp [hA]) (by simp [hB'])
    rw [Matrix.mul_apply, Matrix.one_apply]
    simp only [NpMat.mul, eye, hA', Finset.sum_range] at this
    simp only [M, N]
    rw [this]
    exact if_congr Fin.ext_iff.symm rfl rfl
  have hm' := mul_eq_one_comm.1 hm
  refine ⟨by simp [hB], by simp [hA'], fun a b ha hb => ?_⟩
  simp only [mul_rows, mul_cols, hB, hA'] at ha hb
  have := congrFun (congrFun hm' ⟨a, ha⟩) ⟨b, hb⟩
  rw [Matrix.mul_apply, Matrix.one_apply] at this
  simp only [NpMat.mul, eye, hB', Finset.sum_range]
  simp only [M, N] at this
  rw [this]
  exact if_congr Fin.ext_iff rfl rfl

variable {T : IrrepTable G Id} {El : G → Prop} {op : G → G → G} {one : G}

omit [DecidableEq G] in
/-- Block diagonals of orthogonal irreps are orthogonal representations. -/
theorem irrepsBlock_orthoRep (hT : T.Valid El op one) (hone : El one) {L : List Id}
    (hL : ∀ i ∈ L, T.ok i = true) : OrthoRep El op one (L.map T.size).sum (irrepsBlock T L) := by
  refine ⟨fun g hg => irrepsBlock_rows hT hL hg, fun g hg => irrepsBlock_cols hT hL hg, ?_, fun g k hg hk => ?_, fun g hg => ?_⟩
  · exact (blockDiag_map_congr fun i hi => (hT i (hL i hi)).map_one).trans (blockDiag_eye _ _)
  · refine Eqv.trans ?_ (blockDiag_mul L _ _ fun i hi => ?_).symm
    · exact blockDiag_map_congr fun i hi => (hT i (hL i hi)).map_mul g k hg hk
    · rw [(hT i (hL i hi)).cols g hg, (hT i (hL i hi)).rows k hk]
  · have h : IsInv (irrepsBlock T L g) (blockDiag ((L.map fun i => T.mat i g).map transpose)) := by
      refine IsInv.blockDiag ?_
      rw [List.forall₂_map_right_iff, List.forall₂_same]
      intro A hA
      obtain ⟨i, hi, rfl⟩ := List.mem_map.1 hA
      exact IsInv.of_ortho ((hT i (hL i hi)).ortho g hg)
    have h' := h.congr (Eqv.refl _) (blockDiag_transpose _).symm
    exact ⟨h'.1, h'.2.2.2.1, h'.2.2.2.2⟩

end Escnn
