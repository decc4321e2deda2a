import Verif.Model.Rep
import Verif.Spec.Rep

/-!
# Algebra of NumPy arrays: inverses, conjugation, block placement
-/

namespace Escnn

open NpMat

namespace NpMat

theorem eye_mul' {n : ℕ} (A : NpMat ℝ) (h : A.rows = n) : mul (eye n) A ≈ A := h ▸ eye_mul A
theorem mul_eye' {n : ℕ} (A : NpMat ℝ) (h : A.cols = n) : mul A (eye n) ≈ A := h ▸ mul_eye A

theorem mul_congr_left {A A' : NpMat ℝ} (B : NpMat ℝ) (h : A ≈ A') (hc : A.cols = B.rows) : mul A B ≈ mul A' B :=
  mul_congr h (Eqv.refl B) hc
theorem mul_congr_right {B B' : NpMat ℝ} (A : NpMat ℝ) (h : B ≈ B') (hc : A.cols = B.rows) : mul A B ≈ mul A B' :=
  mul_congr (Eqv.refl A) h hc

namespace IsInv

theorem symm {A B : NpMat ℝ} (h : IsInv A B) : IsInv B A := by
  obtain ⟨h1, h2, h3, h4, h5⟩ := h
  exact ⟨h2.trans h3.symm, h2.symm, by rw [← h1, h2], by rw [h2]; exact h5, by rw [h2]; exact h4⟩

theorem congr {A A' B B' : NpMat ℝ} (h : IsInv A B) (hA : A ≈ A') (hB : B ≈ B') : IsInv A' B' := by
  obtain ⟨h1, h2, h3, h4, h5⟩ := h
  refine ⟨by rw [← hA.1, ← hA.2.1, h1], by rw [← hA.1, ← hB.1, h2], by rw [← hA.1, ← hB.2.1, h3], ?_, ?_⟩
  · rw [← hA.1]; exact (mul_congr hA hB (by rw [h2, h1])).symm.trans h4
  · rw [← hA.1]; exact (mul_congr hB hA (by rw [h3])).symm.trans h5

/-- The inverse is unique. -/
theorem unique {A B C : NpMat ℝ} (h : IsInv A B) (h' : IsInv A C) : B ≈ C := by
  obtain ⟨h1, h2, h3, h4, h5⟩ := h
  obtain ⟨k1, k2, k3, k4, k5⟩ := h'
  have e1 : B ≈ mul B (mul A C) := (mul_eye' B h3).symm.trans (mul_congr_right B k4.symm (by simp [h3]))
  have e2 : mul B (mul A C) ≈ mul (mul B A) C := (mul_assoc' B A C).symm
  have e3 : mul (mul B A) C ≈ C := (mul_congr_left C h5 (by simp [k2, h1])).trans (eye_mul' C k2)
  exact e1.trans (e2.trans e3)

theorem eye (n : ℕ) : IsInv (eye n : NpMat ℝ) (NpMat.eye n) :=
  ⟨rfl, rfl, rfl, mul_eye _, mul_eye _⟩

theorem mul {A B A' B' : NpMat ℝ} (h : IsInv A A') (h' : IsInv B B') (hc : A.cols = B.rows) :
    IsInv (NpMat.mul A B) (NpMat.mul B' A') := by
  obtain ⟨h1, h2, h3, h4, h5⟩ := h
  obtain ⟨k1, k2, k3, k4, k5⟩ := h'
  refine ⟨by simp [h1, hc, k1], by simp [k2, h1, hc], by simp [h3], ?_, ?_⟩
  · have e1 : NpMat.mul (NpMat.mul A B) (NpMat.mul B' A') ≈ NpMat.mul A (NpMat.mul (NpMat.mul B B') A') :=
      (mul_assoc' _ _ _).trans (mul_congr_right A (mul_assoc' _ _ _).symm hc)
    have e2 : NpMat.mul (NpMat.mul B B') A' ≈ A' :=
      (mul_congr_left A' k4 (by simp [k3, h2, h1, hc])).trans (eye_mul' A' (by rw [h2, h1, hc]))
    exact e1.trans ((mul_congr_right A e2 (by simp [hc])).trans h4)
  · have e1 : NpMat.mul (NpMat.mul B' A') (NpMat.mul A B) ≈ NpMat.mul B' (NpMat.mul (NpMat.mul A' A) B) :=
      (mul_assoc' _ _ _).trans (mul_congr_right B' (mul_assoc' _ _ _).symm (by simp [k3, h2, h1, hc]))
    have e2 : NpMat.mul (NpMat.mul A' A) B ≈ B :=
      (mul_congr_left B h5 (by simp [hc])).trans (eye_mul' B (by rw [← hc, h1]))
    have e3 := e1.trans ((mul_congr_right B' e2 (by simp [k3, h2, h1, hc])).trans k5)
    rw [mul_rows, h1, hc]; exact e3

theorem of_ortho {A : NpMat ℝ} (h : IsOrtho A) : IsInv A (transpose A) :=
  ⟨h.1, h.1.symm, rfl, h.2.1, h.2.2⟩

theorem diag2 {A B A' B' : NpMat ℝ} (h : IsInv A A') (h' : IsInv B B') : IsInv (diag2 A B) (NpMat.diag2 A' B') := by
  obtain ⟨h1, h2, h3, h4, h5⟩ := h
  obtain ⟨k1, k2, k3, k4, k5⟩ := h'
  refine ⟨by simp [h1, k1], by simp [h2, k2], by simp [h3, k3], ?_, ?_⟩
  · exact (diag2_mul _ _ _ _ (by rw [← h1, h2])).trans ((diag2_congr h4 k4).trans (diag2_eye _ _))
  · exact (diag2_mul _ _ _ _ h3).trans ((diag2_congr h5 k5).trans (diag2_eye _ _))

theorem blockDiag {L L' : List (NpMat ℝ)} (h : List.Forall₂ IsInv L L') : IsInv (blockDiag L) (NpMat.blockDiag L') := by
  induction h with
  | nil => exact ⟨rfl, rfl, rfl, ⟨rfl, rfl, fun i j hi => absurd hi (Nat.not_lt_zero i)⟩,
      ⟨rfl, rfl, fun i j hi => absurd hi (Nat.not_lt_zero i)⟩⟩
  | cons h _ ih => exact IsInv.diag2 h ih

end IsInv

theorem npInv_of {A B : NpMat ℝ} (h : IsInv A B) : ∃ C, npInv A = .ok C ∧ IsInv A C ∧ C ≈ B := by
  have hex : ∃ B, IsInv A B := ⟨B, h⟩
  exact ⟨hex.choose, by rw [npInv, dif_pos hex], hex.choose_spec, hex.choose_spec.unique h⟩

theorem npInv_ok {A C : NpMat ℝ} (h : npInv A = .ok C) : IsInv A C := by
  unfold npInv at h
  split at h
  · rename_i hex
    simp only [Except.ok.injEq] at h
    rw [← h]; exact hex.choose_spec
  · simp at h

/-- `Q @ X @ R` -/
def conjBy (Q X R : NpMat ℝ) : NpMat ℝ := mul (mul Q X) R

@[simp] theorem conjBy_rows (Q X R : NpMat ℝ) : (conjBy Q X R).rows = Q.rows := rfl
@[simp] theorem conjBy_cols (Q X R : NpMat ℝ) : (conjBy Q X R).cols = R.cols := rfl

theorem conjBy_congr {Q Q' X X' R R' : NpMat ℝ} (hQ : Q ≈ Q') (hX : X ≈ X') (hR : R ≈ R')
    (h1 : Q.cols = X.rows) (h2 : X.cols = R.rows) : conjBy Q X R ≈ conjBy Q' X' R' :=
  mul_congr (mul_congr hQ hX h1) hR h2

theorem conjBy_conjBy (P Q X R S : NpMat ℝ) (h1 : P.cols = Q.rows) (h4 : R.cols = S.rows) (h3 : X.cols = R.rows) :
    conjBy P (conjBy Q X R) S ≈ conjBy (mul P Q) X (mul R S) := by
  unfold conjBy
  have e1 : mul P (mul (mul Q X) R) ≈ mul (mul (mul P Q) X) R :=
    (mul_assoc' P (mul Q X) R).symm.trans (mul_congr_left R (mul_assoc' P Q X).symm h3)
  exact (mul_congr_left S e1 h4).trans (mul_assoc' _ _ _)

theorem conjBy_mul {Q R : NpMat ℝ} (h : IsInv Q R) (X Y : NpMat ℝ) (hXr : X.rows = Q.rows) (hXc : X.cols = Q.rows)
    (hYr : Y.rows = Q.rows) (hYc : Y.cols = Q.rows) :
    mul (conjBy Q X R) (conjBy Q Y R) ≈ conjBy Q (mul X Y) R := by
  obtain ⟨h1, h2, h3, h4, h5⟩ := h
  unfold conjBy
  have e1 : mul (mul (mul Q X) R) (mul (mul Q Y) R) ≈ mul (mul Q X) (mul R (mul (mul Q Y) R)) := mul_assoc' _ _ _
  have e2 : mul R (mul (mul Q Y) R) ≈ mul Y R := by
    refine (mul_congr_right R (mul_assoc' Q Y R) (by simp [h3])).trans ?_
    refine (mul_assoc' R Q (mul Y R)).symm.trans ?_
    exact (mul_congr_left (mul Y R) h5 (by simp [← h1, hYr])).trans (eye_mul' _ (by simp [hYr]))
  refine e1.trans ((mul_congr_right (mul Q X) e2 (by simp [hXc, h2])).trans ?_)
  refine (mul_assoc' (mul Q X) Y R).symm.trans ?_
  exact mul_congr_left R (mul_assoc' Q X Y) (by simp [hYc, h2])

theorem conjBy_eye {Q R : NpMat ℝ} (h : IsInv Q R) : conjBy Q (eye Q.rows) R ≈ eye Q.rows := by
  obtain ⟨h1, h2, h3, h4, h5⟩ := h
  unfold conjBy
  exact (mul_congr_left R (mul_eye' Q h1.symm) (by simp [h2])).trans h4

theorem conjBy_eye_left {X : NpMat ℝ} {n : ℕ} (hr : X.rows = n) (hc : X.cols = n) : conjBy (eye n) X (eye n) ≈ X := by
  unfold conjBy
  exact (mul_congr_left _ (eye_mul' X hr) (by simp [hc])).trans (mul_eye' X hc)

theorem diag2_conjBy (Q X R Q' X' R' : NpMat ℝ) (h1 : Q.cols = X.rows) (h2 : X.cols = R.rows) (h1' : Q'.cols = X'.rows)
    (h2' : X'.cols = R'.rows) :
    diag2 (conjBy Q X R) (conjBy Q' X' R') ≈ conjBy (diag2 Q Q') (diag2 X X') (diag2 R R') := by
  unfold conjBy
  have e1 : mul (diag2 Q Q') (diag2 X X') ≈ diag2 (mul Q X) (mul Q' X') := diag2_mul _ _ _ _ h1
  refine Eqv.symm ((mul_congr_left _ e1 (by simp [h2, h2'])).trans ?_)
  exact diag2_mul _ _ _ _ h2

/-- A list version: blocks `(Q, X, R)`. -/
theorem blockDiag_conjBy (L : List (NpMat ℝ × NpMat ℝ × NpMat ℝ))
    (h : ∀ t ∈ L, t.1.cols = t.2.1.rows ∧ t.2.1.cols = t.2.2.rows) :
    blockDiag (L.map fun t => conjBy t.1 t.2.1 t.2.2) ≈
      conjBy (blockDiag (L.map fun t => t.1)) (blockDiag (L.map fun t => t.2.1)) (blockDiag (L.map fun t => t.2.2)) := by
  induction L with
  | nil => exact ⟨rfl, rfl, fun i j hi => absurd hi (Nat.not_lt_zero i)⟩
  | cons t L ih =>
    have ht := h t (by simp)
    have hL := ih fun t' ht' => h t' (by simp [ht'])
    simp only [List.map_cons, blockDiag]
    refine (diag2_congr (Eqv.refl _) hL).trans (diag2_conjBy _ _ _ _ _ _ ht.1 ht.2 ?_ ?_)
    · rw [blockDiag_cols, blockDiag_rows]
      congr 1
      simp only [List.map_map]
      exact List.map_congr_left fun t' ht' => (h t' (by simp [ht'])).1
    · rw [blockDiag_cols, blockDiag_rows]
      congr 1
      simp only [List.map_map]
      exact List.map_congr_left fun t' ht' => (h t' (by simp [ht'])).2

theorem blockDiag_mul {α : Type} (L : List α) (f g : α → NpMat ℝ) (h : ∀ a ∈ L, (f a).cols = (g a).rows) :
    mul (blockDiag (L.map f)) (blockDiag (L.map g)) ≈ blockDiag (L.map fun a => mul (f a) (g a)) := by
  induction L with
  | nil => exact ⟨rfl, rfl, fun i j hi => absurd hi (Nat.not_lt_zero i)⟩
  | cons a L ih =>
    simp only [List.map_cons, blockDiag]
    exact (diag2_mul _ _ _ _ (h a (by simp))).trans (diag2_congr (Eqv.refl _) (ih fun b hb => h b (by simp [hb])))

theorem blockDiag_eye {α : Type} (L : List α) (n : α → ℕ) :
    blockDiag (L.map fun a => (eye (n a) : NpMat ℝ)) ≈ eye (L.map n).sum := by
  induction L with
  | nil => exact ⟨rfl, rfl, fun i j hi => absurd hi (Nat.not_lt_zero i)⟩
  | cons a L ih =>
    simp only [List.map_cons, blockDiag, List.sum_cons]
    exact (diag2_congr (Eqv.refl _) ih).trans (diag2_eye _ _)

theorem blockDiag_flatMap {α β : Type} (L : List α) (f : α → List β) (g : β → NpMat ℝ) :
    blockDiag ((L.flatMap f).map g) ≈ blockDiag (L.map fun a => blockDiag ((f a).map g)) := by
  induction L with
  | nil => exact Eqv.refl _
  | cons a L ih =>
    simp only [List.flatMap_cons, List.map_append, List.map_cons]
    exact (blockDiag_append _ _).trans (diag2_congr (Eqv.refl _) ih)

theorem blockDiag_map_congr {α : Type} {L : List α} {f g : α → NpMat ℝ} (h : ∀ a ∈ L, f a ≈ g a) :
    blockDiag (L.map f) ≈ blockDiag (L.map g) := by
  induction L with
  | nil => exact Eqv.refl _
  | cons a L ih =>
    simp only [List.map_cons, blockDiag]
    exact diag2_congr (h a (by simp)) (ih fun b hb => h b (by simp [hb]))

/-! ### Placement of diagonal blocks -/

theorem placeBlocks_shape (L : List (NpMat ℝ)) (p : ℕ) (M : NpMat ℝ) :
    (placeBlocks L p M).rows = M.rows ∧ (placeBlocks L p M).cols = M.cols := by
  induction L generalizing p M with
  | nil => exact ⟨rfl, rfl⟩
  | cons A L ih => exact ih _ _

theorem placeBlocks_get (L : List (NpMat ℝ)) (hsq : ∀ A ∈ L, A.rows = A.cols) (p : ℕ) (M : NpMat ℝ)
    (hz : ∀ i j, p ≤ i ∨ p ≤ j → M.get i j = 0) (i j : ℕ) :
    (placeBlocks L p M).get i j =
      if i < p ∧ j < p then M.get i j
      else if p ≤ i ∧ p ≤ j ∧ i - p < (blockDiag L).rows ∧ j - p < (blockDiag L).cols then
        (blockDiag L).get (i - p) (j - p)
      else 0 := by
  induction L generalizing p M with
  | nil =>
    simp only [placeBlocks, blockDiag, zeros_rows, Nat.not_lt_zero, false_and, and_false, if_false]
    split
    · rfl
    · exact hz i j (by omega)
  | cons A L ih =>
    have hA := hsq A (by simp)
    simp only [placeBlocks]
    rw [ih (fun B hB => hsq B (by simp [hB]))]
    · rw [show blockDiag (A :: L) = diag2 A (blockDiag L) from rfl, diag2_rows, diag2_cols]
      generalize blockDiag L = B
      simp only [setBlock, diag2]
      by_cases h1 : i < p ∧ j < p
      · rw [if_pos (by omega), if_neg (by omega), if_pos h1]
      · rw [if_neg h1]
        by_cases h2 : i < p + A.rows ∧ j < p + A.rows
        · rw [if_pos h2]
          by_cases h3 : p ≤ i ∧ p ≤ j
          · rw [if_pos (by omega), if_pos (by omega), if_pos (by omega), if_pos (by omega)]
          · rw [if_neg (by omega), if_neg (by omega)]
            exact hz i j (by omega)
        · rw [if_neg h2]
          by_cases h3 : p + A.rows ≤ i ∧ p + A.rows ≤ j
          · by_cases h4 : i - (p + A.rows) < B.rows ∧ j - (p + A.rows) < B.cols
            · rw [if_pos ⟨h3.1, h3.2, h4.1, h4.2⟩, if_pos (by omega), if_neg (by omega), if_neg (by omega)]
              congr 1 <;> omega
            · rw [if_neg (by omega), if_neg (by omega)]
          · rw [if_neg (by omega)]
            split
            · split
              · split
                · omega
                · rfl
              · split
                · rfl
                · omega
            · rfl
    · intro i j hij
      simp only [setBlock]
      rw [if_neg (by omega)]
      exact hz i j (by omega)

/-- The slice-assignment loop builds the block-diagonal array. -/
theorem placeDiag_eqv (L : List (NpMat ℝ)) (hsq : ∀ A ∈ L, A.rows = A.cols) : placeDiag L ≈ blockDiag L := by
  have hc : (blockDiag L).cols = (L.map NpMat.rows).sum := by
    rw [blockDiag_cols]; congr 1
    exact List.map_congr_left fun A hA => (hsq A hA).symm
  refine ⟨?_, ?_, fun i j hi hj => ?_⟩
  · unfold placeDiag; rw [(placeBlocks_shape _ _ _).1, blockDiag_rows]; rfl
  · unfold placeDiag; rw [(placeBlocks_shape _ _ _).2, hc]; rfl
  · unfold placeDiag at hi hj ⊢
    rw [(placeBlocks_shape _ _ _).1] at hi
    rw [(placeBlocks_shape _ _ _).2] at hj
    rw [placeBlocks_get L hsq 0 _ (fun _ _ _ => rfl), if_neg (by omega), if_pos]
    · rfl
    · refine ⟨by omega, by omega, ?_, ?_⟩
      · rw [blockDiag_rows]; exact hi
      · rw [hc]; exact hj

end NpMat
end Escnn
