import Verif.Model.TensorRep
import Verif.Lemmas.MatAlg
import Verif.Lemmas.Kron
import Verif.Lemmas.Fields
import Verif.Lemmas.ExRel
import Verif.Spec.CG
import Verif.Props.C14_DirectSum
import Verif.Props.C19_Disentangle
import Verif.Lemmas.BlockPerm
import Verif.Lemmas.BlockRows

/-!
# Lemmas about the loops of `_tensor_product`
-/

namespace Escnn

namespace TensorRep

open NpMat

variable {G Id : Type}

/-! ### arrays filled from the top left corner -/

/-- The `n x n` array of zeros with `A` in its top left corner. -/
def frame (n : ℕ) (A : NpMat ℝ) : NpMat ℝ := ⟨n, n, fun i j => if i < A.rows ∧ j < A.cols then A.get i j else 0⟩

/-- Two arrays side by side. -/
def hcat (A B : NpMat ℝ) : NpMat ℝ := ⟨A.rows, A.cols + B.cols, fun i j => if j < A.cols then A.get i j else B.get i (j - A.cols)⟩

theorem frame_congr (n : ℕ) {A B : NpMat ℝ} (h : A ≈ B) : frame n A = frame n B := by
  obtain ⟨h1, h2, h3⟩ := h
  unfold frame
  congr 1
  funext i j
  rw [← h1, ← h2]
  split_ifs with hh
  · exact h3 i j hh.1 hh.2
  · rfl

theorem frame_self {n : ℕ} {A : NpMat ℝ} (hr : A.rows = n) (hc : A.cols = n) : frame n A ≈ A :=
  ⟨hr.symm, hc.symm, fun i j hi hj => by rw [frame]; exact if_pos ⟨hr ▸ hi, hc ▸ hj⟩⟩

theorem frame_empty (n : ℕ) (A : NpMat ℝ) (m : ℕ) (f : ℕ → ℕ → ℝ) : frame n (diag2 A ⟨m, 0, f⟩) = frame n A := by
  unfold frame
  congr 1
  funext i j
  simp only [diag2, add_zero]
  split_ifs <;> first | rfl | (exfalso; omega) | skip

theorem frame_zero (n : ℕ) : frame n (zeros 0 0) = zeros n n := by
  unfold frame zeros
  simp

theorem setBlock_frame (n : ℕ) (A H X : NpMat ℝ) (h : X.rows = H.rows) : setBlock (frame n (diag2 A H)) A.rows (A.cols + H.cols) X = frame n (diag2 A (hcat H X)) := by
  unfold setBlock frame
  congr 1
  funext i j
  show (if A.rows ≤ i ∧ i < A.rows + X.rows ∧ A.cols + H.cols ≤ j ∧ j < A.cols + H.cols + X.cols then X.get (i - A.rows) (j - (A.cols + H.cols)) else
    if i < A.rows + H.rows ∧ j < A.cols + H.cols then
      (if i < A.rows then (if j < A.cols then A.get i j else 0) else (if j < A.cols then 0 else H.get (i - A.rows) (j - A.cols))) else 0) =
    if i < A.rows + H.rows ∧ j < A.cols + (H.cols + X.cols) then
      (if i < A.rows then (if j < A.cols then A.get i j else 0) else (if j < A.cols then 0 else
        if j - A.cols < H.cols then H.get (i - A.rows) (j - A.cols) else X.get (i - A.rows) (j - A.cols - H.cols))) else 0
  rw [Nat.sub_sub]
  split_ifs <;> first | rfl | (exfalso; omega)

theorem setBlock_last (n : ℕ) (A B X : NpMat ℝ) (h : X.rows = B.rows) (h' : X.cols = B.cols) : setBlock (frame n (diag2 A B)) A.rows A.cols X = frame n (diag2 A X) := by
  unfold setBlock frame
  congr 1
  funext i j
  show (if A.rows ≤ i ∧ i < A.rows + X.rows ∧ A.cols ≤ j ∧ j < A.cols + X.cols then X.get (i - A.rows) (j - A.cols) else
    if i < A.rows + B.rows ∧ j < A.cols + B.cols then
      (if i < A.rows then (if j < A.cols then A.get i j else 0) else (if j < A.cols then 0 else B.get (i - A.rows) (j - A.cols))) else 0) =
    if i < A.rows + X.rows ∧ j < A.cols + X.cols then
      (if i < A.rows then (if j < A.cols then A.get i j else 0) else (if j < A.cols then 0 else X.get (i - A.rows) (j - A.cols))) else 0
  split_ifs <;> first | rfl | (exfalso; omega) 

theorem slice_last (n : ℕ) (A B : NpMat ℝ) (hA : A.rows = A.cols) (hB : B.rows = B.cols) : slice (frame n (diag2 A B)) A.rows (A.rows + B.rows) ≈ B := by
  refine ⟨by simp [slice], by simp [slice, hB], fun i j hi hj => ?_⟩
  simp only [slice, Nat.add_sub_cancel_left] at hi hj
  show (if A.rows + i < A.rows + B.rows ∧ A.rows + j < A.cols + B.cols then
      (if A.rows + i < A.rows then (if A.rows + j < A.cols then A.get (A.rows + i) (A.rows + j) else 0) else
        (if A.rows + j < A.cols then 0 else B.get (A.rows + i - A.rows) (A.rows + j - A.cols))) else 0) = B.get i j
  rw [if_pos ⟨by omega, by omega⟩, if_neg (by omega), if_neg (by omega)]
  congr 1 <;> omega

/-! ### the columns -/

/-- The blocks side by side. -/
def hcats {α : Type} (X : α → NpMat ℝ) : NpMat ℝ → List α → NpMat ℝ
  | H, [] => H
  | H, e :: L => hcats X (hcat H (X e)) L

theorem hcats_rows {α : Type} (X : α → NpMat ℝ) : ∀ (L : List α) (H : NpMat ℝ), (hcats X H L).rows = H.rows
  | [], _ => rfl
  | e :: L, H => hcats_rows X L (hcat H (X e))

theorem hcats_cols {α : Type} (X : α → NpMat ℝ) : ∀ (L : List α) (H : NpMat ℝ), (hcats X H L).cols = H.cols + (L.map fun e => (X e).cols).sum
  | [], _ => rfl
  | e :: L, H => by rw [hcats, hcats_cols X L]; simp [hcat, add_assoc]

theorem cols_spec (size : Id → ℕ) (cg : Id → CGArray) (rows d2 n : ℕ) (A : NpMat ℝ) : ∀ (L : List (Id × ℕ)) (H : NpMat ℝ), H.rows = rows → A.rows = A.cols → (∀ e ∈ L, (cg e.1).mult = e.2) →
    cols size cg rows d2 A.rows H.cols (frame n (diag2 A H)) L =
      .ok (frame n (diag2 A (hcats (fun e => cgMat rows d2 (size e.1) e.2 (cg e.1)) H L)), H.cols + (L.map fun e => size e.1 * e.2).sum)
  | [], H, _, _, _ => rfl
  | (j, S) :: L, H, hH, hA, hm => by
    have hj := hm (j, S) (by simp)
    unfold cols
    rw [if_neg (not_not.2 hj)]
    have e1 : setBlock (frame n (diag2 A H)) A.rows (A.rows + H.cols) (cgMat rows d2 (size j) S (cg j)) = frame n (diag2 A (hcat H (cgMat rows d2 (size j) S (cg j)))) := by
      rw [hA, ← hA]
      conv_lhs => rw [show A.rows + H.cols = A.cols + H.cols by rw [hA]]
      exact setBlock_frame n A H _ hH.symm
    rw [e1]
    have := cols_spec size cg rows d2 n A L (hcat H (cgMat rows d2 (size j) S (cg j))) hH hA fun e he => hm e (by simp [he])
    rw [show (hcat H (cgMat rows d2 (size j) S (cg j))).cols = H.cols + size j * S from rfl] at this
    rw [this]
    simp only [hcats, List.map_cons, List.sum_cons, add_assoc]

theorem mul_hcat (K A B : NpMat ℝ) : mul K (hcat A B) ≈ hcat (mul K A) (mul K B) := by
  refine ⟨rfl, rfl, fun i j _ _ => ?_⟩
  by_cases hj : j < A.cols <;> simp [mul, hcat, hj]

theorem hcat_mul (A B U V : NpMat ℝ) (h1 : A.cols = U.rows) (_h2 : B.cols = V.rows) (_h3 : A.rows = B.rows) : mul (hcat A B) (diag2 U V) ≈ hcat (mul A U) (mul B V) := by
  refine ⟨rfl, rfl, fun i j _ _ => ?_⟩
  simp only [mul, hcat, diag2]
  rw [Finset.sum_range_add]
  by_cases hj : j < U.cols
  · simp only [hj, if_true]
    rw [Finset.sum_congr rfl (g := fun k => A.get i k * U.get k j) fun k hk => by
      rw [Finset.mem_range] at hk; rw [if_pos hk, if_pos (h1 ▸ hk)]]
    rw [Finset.sum_eq_zero (s := Finset.range B.cols) fun k _ => by rw [if_neg (show ¬ A.cols + k < U.rows by omega), mul_zero], add_zero]
  · simp only [hj, if_false]
    rw [Finset.sum_eq_zero (s := Finset.range A.cols) fun k hk => by
      rw [Finset.mem_range] at hk; rw [if_pos (show k < U.rows from h1 ▸ hk), mul_zero], zero_add]
    refine Finset.sum_congr rfl fun k _ => ?_
    rw [if_neg (by omega), if_neg (by omega)]
    congr 2 <;> omega

theorem hcat_congr {A A' B B' : NpMat ℝ} (h : A ≈ A') (h' : B ≈ B') (hr : A.rows = B.rows) : hcat A B ≈ hcat A' B' := by
  refine ⟨h.1, by simp [hcat, h.2.1, h'.2.1], fun i j hi hj => ?_⟩
  simp only [hcat] at hi hj ⊢
  rw [← h.2.1]
  split_ifs with hh
  · exact h.2.2 i j hi hh
  · exact h'.2.2 i _ (hr ▸ hi) (by omega)

theorem hcats_intertwine {α : Type} (K : NpMat ℝ) (X V : α → NpMat ℝ) : ∀ (L : List α) (H U : NpMat ℝ), mul K H ≈ mul H U → H.cols = U.rows → (∀ e ∈ L, mul K (X e) ≈ mul (X e) (V e)) →
    (∀ e ∈ L, (X e).cols = (V e).rows ∧ (X e).rows = H.rows) → mul K (hcats X H L) ≈ mul (hcats X H L) (diag2 U (blockDiag (L.map V)))
  | [], H, U, h, hc, _, _ => h.trans (mul_congr_right H (diag2_empty_right U).symm hc)
  | e :: L, H, U, h, hc, hX, hs => by
    obtain ⟨s1, s2⟩ := hs e (by simp)
    have step : mul K (hcat H (X e)) ≈ mul (hcat H (X e)) (diag2 U (V e)) :=
      (mul_hcat _ _ _).trans ((hcat_congr h (hX e (by simp)) rfl).trans (hcat_mul _ _ _ _ hc s1 s2.symm).symm)
    have := hcats_intertwine K X V L (hcat H (X e)) (diag2 U (V e)) step (by simp [hcat, hc, s1]) (fun e he => hX e (by simp [he])) fun e he => hs e (by simp [he])
    refine this.trans (mul_congr_right _ ?_ ?_)
    · exact diag2_assoc _ _ _
    · rw [hcats_cols]
      simp only [hcat, diag2_rows, blockDiag_rows, List.map_map, hc, s1]
      congr 2
      exact List.map_congr_left fun e he => (hs e (by simp [he])).1

theorem hcats_get {α : Type} (X : α → NpMat ℝ) : ∀ (L : List α) (H : NpMat ℝ), (∀ i j, j < H.cols → (hcats X H L).get i j = H.get i j) ∧
    ∀ k e, L[k]? = some e → ∀ i o, o < (X e).cols → (hcats X H L).get i (H.cols + (chanOffset (fun e => (X e).cols) L k + o)) = (X e).get i o
  | [], H => ⟨fun _ _ _ => rfl, fun k e h => by simp at h⟩
  | e :: L, H => by
    obtain ⟨i1, i2⟩ := hcats_get X L (hcat H (X e))
    refine ⟨fun i j hj => ?_, fun k e' hk i o ho => ?_⟩
    · rw [hcats, i1 i j (by simp only [hcat]; omega)]
      simp only [hcat, if_pos hj]
    · cases k with
      | zero =>
        obtain rfl : e = e' := by simpa using hk
        rw [hcats, i1 _ _ (by simp only [hcat, chanOffset_zero]; omega)]
        simp only [hcat, chanOffset_zero]
        rw [if_neg (by omega)]
        congr 1; omega
      | succ k =>
        rw [hcats, ← i2 k e' (by simpa using hk) i o ho]
        congr 1
        simp only [hcat, chanOffset_cons_succ]
        omega

/-! ### entries of block diagonal arrays -/

theorem chanOffset_inj {R : Type} {sz : R → ℕ} : ∀ {L : List R} {k k' : ℕ} {r r' : R} {o o' : ℕ}, L[k]? = some r → L[k']? = some r' → o < sz r → o' < sz r' →
    chanOffset sz L k + o = chanOffset sz L k' + o' → k = k' ∧ o = o' := by
  intro L k k' r r' o o' h h' ho ho' e
  have hk : k = k' := by
    by_contra hne
    rcases Nat.lt_or_gt_of_ne hne with hlt | hlt
    · have h1 := chanOffset_succ (sz := sz) h
      have h2 := chanOffset_mono (sz := sz) L (show k + 1 ≤ k' from hlt)
      omega
    · have h1 := chanOffset_succ (sz := sz) h'
      have h2 := chanOffset_mono (sz := sz) L (show k' + 1 ≤ k from hlt)
      omega
  subst hk
  exact ⟨rfl, by omega⟩

theorem blockDiag_map_get {R : Type} {rs : List R} {ρ : R → NpMat ℝ} {sz : R → ℕ} (hρ : ∀ r ∈ rs, (ρ r).rows = sz r ∧ (ρ r).cols = sz r) {k l a b : ℕ} {r r' : R} (hk : rs[k]? = some r) (hl : rs[l]? = some r')
    (ha : a < sz r) (hb : b < sz r') : (blockDiag (rs.map ρ)).get (chanOffset sz rs k + a) (chanOffset sz rs l + b) = if k = l then (ρ r).get a b else 0 := by
  obtain ⟨hkl, hkr⟩ := List.getElem?_eq_some_iff.1 hk
  obtain ⟨hll, hlr⟩ := List.getElem?_eq_some_iff.1 hl
  have hr := hρ r (List.mem_of_getElem? hk)
  have hr' := hρ r' (List.mem_of_getElem? hl)
  have := blockDiag_get (rs.map ρ) (fun A hA => by obtain ⟨x, hx, rfl⟩ := List.mem_map.1 hA; rw [(hρ x hx).1, (hρ x hx).2]) k l (by simpa using hkl) (by simpa using hll) a b
    (by rw [List.getElem_map, hkr, hr.1]; exact ha) (by rw [List.getElem_map, hlr, hr'.2]; exact hb)
  rw [List.getElem_map, hkr] at this
  have e : ∀ m, irrepsPos ((rs.map ρ).map rows) m = chanOffset sz rs m := fun m => by rw [irrepsPos, ← List.map_take]; exact (offset_rows hρ m).1
  rwa [e, e] at this

theorem sum_mul_left (d : ℕ) {R : Type} (sz : R → ℕ) (L : List R) : (L.map fun r => d * sz r).sum = d * (L.map sz).sum := by
  induction L with
  | nil => simp
  | cons a L ih => simp [ih, mul_add]

theorem chanOffset_mul_left (d : ℕ) {R : Type} (sz : R → ℕ) (L : List R) (k : ℕ) : chanOffset (fun r => d * sz r) L k = d * chanOffset sz L k := by
  rw [chanOffset, sum_mul_left, chanOffset]

/-! ### the permutation -/

/-- The permutation after the loop over the irreps of the second factor, whose sizes are `L`. -/
def permLoop (d1 n2 : ℕ) : ℕ → NpMat ℝ → List ℕ → NpMat ℝ
  | _, P, [] => P
  | q, P, d :: L => permLoop d1 n2 (q + d) (permBlocks d1 n2 d q P) L

/-- The row of the entry `1` in column `y`. -/
def sig (d1 n2 : ℕ) : ℕ → List ℕ → ℕ → ℕ
  | _, [], _ => 0
  | q, d :: L, y => if y < d1 * d then q + y / d * n2 + y % d else sig d1 n2 (q + d) L (y - d1 * d)

theorem permFold_get (n2 d2 q Q : ℕ) (P : NpMat ℝ) (hP : ∀ x y, Q ≤ y → P.get x y = 0) : ∀ k x y,
    ((List.range k).foldl (fun P i => setBlock P (q + i * n2) (Q + i * d2) (eye d2)) P).get x y =
      if Q ≤ y ∧ y < Q + k * d2 then (if x = q + (y - Q) / d2 * n2 + (y - Q) % d2 then 1 else 0) else P.get x y
  | 0, x, y => by simp
  | k + 1, x, y => by
    rw [List.range_succ, List.foldl_append]
    simp only [List.foldl_cons, List.foldl_nil]
    rw [setBlock]
    simp only
    rw [permFold_get n2 d2 q Q P hP k x y]
    show (if q + k * n2 ≤ x ∧ x < q + k * n2 + d2 ∧ Q + k * d2 ≤ y ∧ y < Q + k * d2 + d2 then (if x - (q + k * n2) = y - (Q + k * d2) then (1 : ℝ) else 0) else _) = _
    rw [add_mul, one_mul]
    by_cases hc : Q + k * d2 ≤ y ∧ y < Q + k * d2 + d2
    · have hd : (y - Q) / d2 = k := by
        rw [Nat.div_eq_iff (by omega)]
        constructor
        · omega
        · have := hc.2; omega
      have hm : (y - Q) % d2 = y - (Q + k * d2) := by
        have := Nat.div_add_mod (y - Q) d2
        rw [hd, Nat.mul_comm] at this
        omega
      rw [hd, hm, if_neg (show ¬ (Q ≤ y ∧ y < Q + k * d2) by omega), if_pos (show Q ≤ y ∧ y < Q + (k * d2 + d2) by omega), hP x y (by omega)]
      by_cases hx : q + k * n2 ≤ x ∧ x < q + k * n2 + d2
      · rw [if_pos ⟨hx.1, hx.2, hc.1, hc.2⟩]
        exact if_congr (by omega) rfl rfl
      · rw [if_neg (by tauto), if_neg (by omega)]
    · rw [if_neg (by tauto)]
      exact if_congr (by omega) rfl rfl

theorem permFold_shape (n2 d2 q Q : ℕ) (P : NpMat ℝ) : ∀ k, ((List.range k).foldl (fun P i => setBlock P (q + i * n2) (Q + i * d2) (eye d2)) P).rows = P.rows ∧
    ((List.range k).foldl (fun P i => setBlock P (q + i * n2) (Q + i * d2) (eye d2)) P).cols = P.cols
  | 0 => ⟨rfl, rfl⟩
  | k + 1 => by
    rw [List.range_succ, List.foldl_append]
    exact permFold_shape n2 d2 q Q P k

theorem permLoop_shape (d1 n2 : ℕ) : ∀ (L : List ℕ) (q : ℕ) (P : NpMat ℝ), (permLoop d1 n2 q P L).rows = P.rows ∧ (permLoop d1 n2 q P L).cols = P.cols
  | [], _, _ => ⟨rfl, rfl⟩
  | d :: L, q, P => by
    obtain ⟨h1, h2⟩ := permLoop_shape d1 n2 L (q + d) (permBlocks d1 n2 d q P)
    obtain ⟨h3, h4⟩ := permFold_shape n2 d q (q * d1) P d1
    exact ⟨h1.trans h3, h2.trans h4⟩

theorem permLoop_get (d1 n2 : ℕ) : ∀ (L : List ℕ) (q : ℕ) (P : NpMat ℝ), (∀ x y, q * d1 ≤ y → P.get x y = 0) → ∀ x y,
    (permLoop d1 n2 q P L).get x y = if y < q * d1 then P.get x y else if y - q * d1 < d1 * L.sum then (if x = sig d1 n2 q L (y - q * d1) then 1 else 0) else 0
  | [], q, P, hP, x, y => by
    simp only [permLoop, List.sum_nil, mul_zero, Nat.not_lt_zero, if_false]
    split_ifs with h
    · rfl
    · exact hP x y (by omega)
  | d :: L, q, P, hP, x, y => by
    have hg := permFold_get n2 d q (q * d1) P hP d1
    have e : (q + d) * d1 = q * d1 + d1 * d := by ring
    rw [permLoop, permLoop_get d1 n2 L (q + d) (permBlocks d1 n2 d q P) (fun x y hy => by
      rw [e] at hy
      rw [permBlocks, hg, if_neg (by omega), hP x y (by omega)]), permBlocks, hg x y, e, List.sum_cons, mul_add, sig]
    by_cases h1 : y < q * d1
    · rw [if_pos (by omega), if_neg (by omega), if_pos h1]
    · by_cases h2 : y - q * d1 < d1 * d
      · rw [if_pos (show y < q * d1 + d1 * d by omega), if_pos (show q * d1 ≤ y ∧ y < q * d1 + d1 * d by omega), if_neg h1, if_pos (show y - q * d1 < d1 * d + d1 * L.sum by omega), if_pos h2]
      · rw [if_neg (by omega), if_neg h1, if_neg h2, Nat.sub_add_eq]
        exact if_congr (by omega) rfl rfl

theorem sig_at (d1 n2 : ℕ) {R : Type} (sz : R → ℕ) : ∀ (L : List R) (q k : ℕ) (r : R), L[k]? = some r → ∀ o, o < d1 * sz r →
    sig d1 n2 q (L.map sz) (chanOffset (fun r => d1 * sz r) L k + o) = q + chanOffset sz L k + o / sz r * n2 + o % sz r
  | [], _, _, _, h, _, _ => by simp at h
  | a :: L, q, 0, r, h, o, ho => by
    obtain rfl : a = r := by simpa using h
    rw [List.map_cons, sig, chanOffset_zero, zero_add, if_pos ho]
    simp
  | a :: L, q, k + 1, r, h, o, ho => by
    rw [List.map_cons, sig, chanOffset_cons_succ, if_neg (by omega)]
    rw [show d1 * sz a + chanOffset (fun r => d1 * sz r) L k + o - d1 * sz a = chanOffset (fun r => d1 * sz r) L k + o by omega]
    rw [sig_at d1 n2 sz L (q + sz a) k r (by simpa using h) o ho, chanOffset_cons_succ]
    omega

/-- Every column is that of a basis vector `i` of the first factor and a basis vector `b` of the `k`-th irrep of the second. -/
theorem sig_cases (d1 : ℕ) {R : Type} (sz : R → ℕ) (L : List R) {y : ℕ} (hy : y < d1 * (L.map sz).sum) : ∃ k r i b, L[k]? = some r ∧ i < d1 ∧ b < sz r ∧
    y = chanOffset (fun r => d1 * sz r) L k + (i * sz r + b) ∧ sig d1 (L.map sz).sum 0 (L.map sz) y = i * (L.map sz).sum + (chanOffset sz L k + b) ∧ chanOffset sz L k + b < (L.map sz).sum := by
  rw [← sum_mul_left] at hy
  obtain ⟨k, r, o, hk, ho, rfl⟩ := exists_field hy
  have hpos : 0 < sz r := by
    rcases Nat.eq_zero_or_pos (sz r) with h | h
    · simp [h] at ho
    · exact h
  have hb := Nat.mod_lt o hpos
  refine ⟨k, r, o / sz r, o % sz r, hk, Nat.div_lt_of_lt_mul (by rwa [Nat.mul_comm]), hb, by rw [Nat.div_add_mod'], ?_, chanOffset_lt hk hb⟩
  rw [sig_at d1 _ sz L 0 k r hk o ho]
  omega

theorem sig_inj (d1 : ℕ) {R : Type} (sz : R → ℕ) (L : List R) {y y' : ℕ} (hy : y < d1 * (L.map sz).sum) (hy' : y' < d1 * (L.map sz).sum)
    (h : sig d1 (L.map sz).sum 0 (L.map sz) y = sig d1 (L.map sz).sum 0 (L.map sz) y') : y = y' := by
  obtain ⟨k, r, i, b, h1, h2, h3, h4, h5, h6⟩ := sig_cases d1 sz L hy
  obtain ⟨k', r', i', b', h1', h2', h3', h4', h5', h6'⟩ := sig_cases d1 sz L hy'
  rw [h5, h5'] at h
  have hi : i = i' := by
    have : (i * (L.map sz).sum + (chanOffset sz L k + b)) / (L.map sz).sum = (i' * (L.map sz).sum + (chanOffset sz L k' + b')) / (L.map sz).sum := by rw [h]
    rwa [Nat.mul_comm, Nat.mul_add_div (by omega), Nat.div_eq_of_lt h6, Nat.mul_comm i', Nat.mul_add_div (by omega), Nat.div_eq_of_lt h6', add_zero, add_zero] at this
  subst hi
  obtain ⟨rfl, rfl⟩ := chanOffset_inj h1 h1' h3 h3' (by omega)
  rw [h1] at h1'
  obtain rfl := Option.some.inj h1'
  rw [h4, h4']

theorem sig_lt (d1 : ℕ) {R : Type} (sz : R → ℕ) (L : List R) {y : ℕ} (hy : y < d1 * (L.map sz).sum) : sig d1 (L.map sz).sum 0 (L.map sz) y < d1 * (L.map sz).sum := by
  obtain ⟨k, r, i, b, h1, h2, h3, h4, h5, h6⟩ := sig_cases d1 sz L hy
  rw [h5]
  calc i * (L.map sz).sum + (chanOffset sz L k + b) < i * (L.map sz).sum + (L.map sz).sum := by omega
    _ = (i + 1) * (L.map sz).sum := by ring
    _ ≤ _ := Nat.mul_le_mul_right _ h2

theorem sig_surj (d1 : ℕ) {R : Type} (sz : R → ℕ) (L : List R) {x : ℕ} (hx : x < d1 * (L.map sz).sum) : ∃ y, y < d1 * (L.map sz).sum ∧ sig d1 (L.map sz).sum 0 (L.map sz) y = x := by
  have hn : 0 < (L.map sz).sum := Nat.pos_of_ne_zero fun h => by simp [h] at hx
  obtain ⟨k, r, b, hk, hb, e⟩ := exists_field (sz := sz) (L := L) (Nat.mod_lt x hn)
  have hi : x / (L.map sz).sum < d1 := Nat.div_lt_of_lt_mul (by rwa [Nat.mul_comm])
  have ho : x / (L.map sz).sum * sz r + b < d1 * sz r := by
    calc x / (L.map sz).sum * sz r + b < x / (L.map sz).sum * sz r + sz r := by omega
      _ = (x / (L.map sz).sum + 1) * sz r := by ring
      _ ≤ _ := Nat.mul_le_mul_right _ hi
  refine ⟨chanOffset (fun r => d1 * sz r) L k + (x / (L.map sz).sum * sz r + b), ?_, ?_⟩
  · rw [← sum_mul_left]; exact chanOffset_lt (sz := fun r => d1 * sz r) hk ho
  · rw [sig_at d1 _ sz L 0 k r hk _ ho]
    rw [Nat.mul_comm _ (sz r), Nat.mul_add_div (by omega), Nat.div_eq_of_lt hb, Nat.mul_add_mod, Nat.mod_eq_of_lt hb, add_zero]
    have := Nat.div_add_mod x (L.map sz).sum
    rw [Nat.mul_comm] at this
    omega

/-- The permutation array of the code. -/
def permOf (d1 : ℕ) {R : Type} (sz : R → ℕ) (L : List R) : NpMat ℝ := permLoop d1 (L.map sz).sum 0 (zeros (d1 * (L.map sz).sum) (d1 * (L.map sz).sum)) (L.map sz)

theorem permOf_shape (d1 : ℕ) {R : Type} (sz : R → ℕ) (L : List R) : (permOf d1 sz L).rows = d1 * (L.map sz).sum ∧ (permOf d1 sz L).cols = d1 * (L.map sz).sum := permLoop_shape _ _ _ _ _

theorem permOf_get (d1 : ℕ) {R : Type} (sz : R → ℕ) (L : List R) (x : ℕ) {y : ℕ} (hy : y < d1 * (L.map sz).sum) :
    (permOf d1 sz L).get x y = if x = sig d1 (L.map sz).sum 0 (L.map sz) y then 1 else 0 := by
  rw [permOf, permLoop_get _ _ _ _ _ fun _ _ _ => rfl]
  rw [if_neg (by omega), zero_mul, Nat.sub_zero, if_pos hy]

theorem permOf_ortho (d1 : ℕ) {R : Type} (sz : R → ℕ) (L : List R) : IsOrtho (permOf d1 sz L) := by
  obtain ⟨hr, hc⟩ := permOf_shape d1 sz L
  have h : mul (transpose (permOf d1 sz L)) (permOf d1 sz L) ≈ eye (d1 * (L.map sz).sum) := by
    refine ⟨hc, hc, fun x y hx hy => ?_⟩
    have hx : x < d1 * (L.map sz).sum := hc ▸ hx
    have hy : y < d1 * (L.map sz).sum := hc ▸ hy
    simp only [mul, transpose, eye]
    rw [hr, Finset.sum_congr rfl fun z _ => by rw [permOf_get d1 sz L z hx, permOf_get d1 sz L z hy]]
    rw [Finset.sum_eq_single (sig d1 (L.map sz).sum 0 (L.map sz) y)]
    · rw [if_pos rfl, mul_one]
      exact if_congr ⟨fun e => (sig_inj d1 sz L hy hx e).symm, fun e => by rw [e]⟩ rfl rfl
    · intro z _ hz
      rw [if_neg hz, mul_zero]
    · intro hz
      exact absurd (Finset.mem_range.2 (sig_lt d1 sz L hy)) hz
  refine ⟨hr.trans hc.symm, ?_, ?_⟩
  · rw [hr]
    exact mul_eye_comm (A := transpose (permOf d1 sz L)) hc hr hr hc h
  · rw [hr]; exact h

/-- `kron(A, B_1 + ... + B_n)` is the permuted direct sum of the `kron(A, B_k)`. -/
theorem permOf_kron {R : Type} {sz : R → ℕ} {L : List R} {ρ : R → NpMat ℝ} (hρ : ∀ r ∈ L, (ρ r).rows = sz r ∧ (ρ r).cols = sz r) (A : NpMat ℝ) {d1 : ℕ} (hr : A.rows = d1) (hc : A.cols = d1) :
    mul (kron A (blockDiag (L.map ρ))) (permOf d1 sz L) ≈ mul (permOf d1 sz L) (blockDiag (L.map fun r => kron A (ρ r))) := by
  obtain ⟨hpr, hpc⟩ := permOf_shape d1 sz L
  obtain ⟨hbr, hbc⟩ := blockDiag_map_size hρ
  have hρ' : ∀ r ∈ L, (kron A (ρ r)).rows = d1 * sz r ∧ (kron A (ρ r)).cols = d1 * sz r := fun r h => by simp [kron, hr, hc, (hρ r h).1, (hρ r h).2]
  obtain ⟨hkr, hkc⟩ := blockDiag_map_size (sz := fun r => d1 * sz r) hρ'
  rw [sum_mul_left] at hkr hkc
  refine ⟨by simp [kron, hr, hbr, hpr], by simp [hpc, hkc], fun x y hx hy => ?_⟩
  have hx : x < d1 * (L.map sz).sum := by simpa [kron, hr, hbr] using hx
  have hy : y < d1 * (L.map sz).sum := by simpa [hpc] using hy
  obtain ⟨x0, hx0, rfl⟩ := sig_surj d1 sz L hx
  have e1 : (mul (kron A (blockDiag (L.map ρ))) (permOf d1 sz L)).get (sig d1 (L.map sz).sum 0 (L.map sz) x0) y =
      (kron A (blockDiag (L.map ρ))).get (sig d1 (L.map sz).sum 0 (L.map sz) x0) (sig d1 (L.map sz).sum 0 (L.map sz) y) := by
    simp only [mul]
    rw [Finset.sum_eq_single (sig d1 (L.map sz).sum 0 (L.map sz) y)]
    · rw [permOf_get d1 sz L _ hy, if_pos rfl, mul_one]
    · intro z _ hz
      rw [permOf_get d1 sz L _ hy, if_neg hz, mul_zero]
    · intro hz
      exact absurd (Finset.mem_range.2 (by simpa [kron, hc, hbc] using sig_lt d1 sz L hy)) hz
  have e2 : (mul (permOf d1 sz L) (blockDiag (L.map fun r => kron A (ρ r)))).get (sig d1 (L.map sz).sum 0 (L.map sz) x0) y = (blockDiag (L.map fun r => kron A (ρ r))).get x0 y := by
    simp only [mul]
    rw [hpc, Finset.sum_eq_single x0]
    · rw [permOf_get d1 sz L _ hx0, if_pos rfl, one_mul]
    · intro z hz hne
      rw [permOf_get d1 sz L _ (Finset.mem_range.1 hz), if_neg fun e => hne (sig_inj d1 sz L hx0 (Finset.mem_range.1 hz) e).symm, zero_mul]
    · intro hz
      exact absurd (Finset.mem_range.2 hx0) hz
  rw [e1, e2]
  obtain ⟨k, r, i, b, h1, h2, h3, h4, h5, h6⟩ := sig_cases d1 sz L hx0
  obtain ⟨k', r', i', b', h1', h2', h3', h4', h5', h6'⟩ := sig_cases d1 sz L hy
  have hlt : ∀ {i b : ℕ} {r : R}, i < d1 → b < sz r → i * sz r + b < d1 * sz r := by
    intro i b r hi hb
    calc i * sz r + b < i * sz r + sz r := by omega
      _ = (i + 1) * sz r := by ring
      _ ≤ _ := Nat.mul_le_mul_right _ hi
  rw [h5, h5', h4, h4', blockDiag_map_get hρ' h1 h1' (hlt h2 h3) (hlt h2' h3')]
  simp only [kron]
  rw [hbr, hbc, Nat.mul_comm i, Nat.mul_add_div (by omega), Nat.div_eq_of_lt h6, Nat.mul_add_mod, Nat.mod_eq_of_lt h6, Nat.mul_comm i', Nat.mul_add_div (by omega), Nat.div_eq_of_lt h6', Nat.mul_add_mod,
    Nat.mod_eq_of_lt h6', add_zero, add_zero, blockDiag_map_get hρ h1 h1' h3 h3']
  by_cases hk : k = k'
  · subst hk
    rw [h1] at h1'
    obtain rfl := Option.some.inj h1'
    have hm := hρ r (List.mem_of_getElem? h1)
    rw [if_pos rfl, if_pos rfl, hm.1, hm.2, Nat.mul_comm i, Nat.mul_add_div (by omega), Nat.div_eq_of_lt h3, Nat.mul_add_mod, Nat.mod_eq_of_lt h3, Nat.mul_comm i', Nat.mul_add_div (by omega), Nat.div_eq_of_lt h3',
      Nat.mul_add_mod, Nat.mod_eq_of_lt h3', add_zero, add_zero]
  · rw [if_neg hk, if_neg hk, mul_zero]

end TensorRep

end Escnn
