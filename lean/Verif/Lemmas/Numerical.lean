import Verif.Model.Numerical
import Verif.Lemmas.BlockPerm
import Verif.Lemmas.MatAlg
import Verif.Lemmas.Regular
import Verif.Lemmas.Fields
import Verif.Lemmas.ExRel
import Verif.Lemmas.TensorRep
import Verif.Props.C12_RestrictIrrep
import Verif.Props.C67_Tensor
import Verif.Props.C80_Characters3

/-!
# Lemmas about the Sylvester constraint, spans of columns and permuted direct sums
-/

namespace Escnn

open NpMat

/-- The vector `v` is in the kernel of the array `C`. -/
def InKer (C : NpMat ℝ) (v : ℕ → ℝ) : Prop := ∀ i < C.rows, ∑ c ∈ Finset.range C.cols, C.get i c * v c = 0

/-- The vector `v` (of length `B.rows`) is a linear combination of the columns of `B`. -/
def InSpan (B : NpMat ℝ) (v : ℕ → ℝ) : Prop := ∃ x : ℕ → ℝ, ∀ a < B.rows, v a = ∑ k ∈ Finset.range B.cols, B.get a k * x k

theorem kronsum_shape {A B : NpMat ℝ} {d₁ d₂ : ℕ} (hA : A.rows = d₁ ∧ A.cols = d₁) (hB : B.rows = d₂ ∧ B.cols = d₂) :
    (kronsum A (negT B)).rows = d₂ * d₁ ∧ (kronsum A (negT B)).cols = d₂ * d₁ := by
  simp [kronsum, NpMat.add, kron, negT, hA, hB]

theorem kronsum_vec {A B : NpMat ℝ} {d₁ d₂ : ℕ} (hA : A.rows = d₁ ∧ A.cols = d₁) (hB : B.rows = d₂ ∧ B.cols = d₂) (v : ℕ → ℝ) {i j : ℕ} (hi : i < d₁) (hj : j < d₂) :
    ∑ c ∈ Finset.range (d₂ * d₁), (kronsum A (negT B)).get (j * d₁ + i) c * v c =
      (mul A (unflatF d₁ d₂ v)).get i j - (mul (unflatF d₁ d₂ v) B).get i j := by
  have hd : 0 < d₁ := by omega
  rw [sum_range_blocks]
  have e : ∀ a ∈ Finset.range d₂, ∀ q ∈ Finset.range d₁, (kronsum A (negT B)).get (j * d₁ + i) (a * d₁ + q) * v (a * d₁ + q) =
      (if j = a then A.get i q * v (a * d₁ + q) else 0) - (if i = q then v (a * d₁ + q) * B.get a j else 0) := by
    intro a ha q hq
    have hq := Finset.mem_range.1 hq
    have h1 : (j * d₁ + i) / d₁ = j := by rw [Nat.mul_comm, Nat.mul_add_div hd, Nat.div_eq_of_lt hi, add_zero]
    have h2 : (j * d₁ + i) % d₁ = i := by rw [Nat.mul_comm, Nat.mul_add_mod, Nat.mod_eq_of_lt hi]
    have h3 : (a * d₁ + q) / d₁ = a := by rw [Nat.mul_comm, Nat.mul_add_div hd, Nat.div_eq_of_lt hq, add_zero]
    have h4 : (a * d₁ + q) % d₁ = q := by rw [Nat.mul_comm, Nat.mul_add_mod, Nat.mod_eq_of_lt hq]
    simp only [kronsum, NpMat.add, kron, negT, eye, hA.1, hA.2, h1, h2, h3, h4]
    split_ifs <;> ring
  rw [Finset.sum_congr rfl fun a ha => Finset.sum_congr rfl (e a ha)]
  simp only [Finset.sum_sub_distrib]
  congr 1
  · rw [Finset.sum_comm]
    simp only [Finset.sum_ite_eq, Finset.mem_range, hj, if_true, mul, unflatF, hA.2]
  · simp only [Finset.sum_ite_eq, Finset.mem_range, hi, if_true, mul, unflatF]

theorem kronsum_inKer {A B : NpMat ℝ} {d₁ d₂ : ℕ} (hA : A.rows = d₁ ∧ A.cols = d₁) (hB : B.rows = d₂ ∧ B.cols = d₂) (v : ℕ → ℝ) :
    InKer (kronsum A (negT B)) v ↔ mul A (unflatF d₁ d₂ v) ≈ mul (unflatF d₁ d₂ v) B := by
  obtain ⟨hr, hc⟩ := kronsum_shape hA hB
  unfold InKer
  rw [hr, hc]
  constructor
  · intro h
    refine ⟨hA.1, hB.2.symm, fun i j hi hj => ?_⟩
    have hi : i < d₁ := hA.1 ▸ hi
    have hj : j < d₂ := hj
    have := h (j * d₁ + i) (by calc j * d₁ + i < (j + 1) * d₁ := by rw [Nat.add_mul]; omega
                                 _ ≤ d₂ * d₁ := Nat.mul_le_mul_right _ hj)
    rw [kronsum_vec hA hB v hi hj] at this
    linarith
  · intro h a ha
    have hd : 0 < d₁ := Nat.pos_of_ne_zero fun h => by simp [h] at ha
    have h1 : a / d₁ < d₂ := Nat.div_lt_of_lt_mul (by rwa [Nat.mul_comm])
    have h2 : a % d₁ < d₁ := Nat.mod_lt _ hd
    have := kronsum_vec hA hB v h2 h1
    rw [Nat.div_add_mod' a d₁] at this
    rw [this, sub_eq_zero]
    exact h.2.2 _ _ (by simpa [hA.1] using h2) h1

theorem vstack_inKer {n : ℕ} : ∀ {L : List (NpMat ℝ)}, L ≠ [] → (∀ A ∈ L, A.cols = n) → ∀ v, InKer (vstack L) v ↔ ∀ A ∈ L, InKer A v
  | [], h, _, _ => absurd rfl h
  | [A], _, hL, v => by
    have e : ∀ i < A.rows, (vstack [A]).get i = A.get i := fun i hi => by
      funext j
      simp [vstack, hi]
    simp only [List.mem_singleton, forall_eq, InKer]
    show (∀ i < A.rows + 0, _) ↔ _
    exact ⟨fun h i hi => by have := h i hi; rwa [e i hi] at this, fun h i hi => by rw [e i hi]; exact h i hi⟩
  | A :: B :: L, _, hL, v => by
    have ih := vstack_inKer (L := B :: L) (by simp) (fun X hX => hL X (List.mem_cons_of_mem _ hX)) v
    have hc : (vstack (A :: B :: L)).cols = n := hL A (by simp)
    have hc' : (vstack (B :: L)).cols = n := hL B (by simp)
    rw [List.forall_mem_cons, ← ih]
    unfold InKer
    rw [hc, hc', hL A (by simp)]
    constructor
    · intro h
      refine ⟨fun i hi => ?_, fun i hi => ?_⟩
      · have := h i (by show i < A.rows + _; omega)
        simpa only [vstack, if_pos hi] using this
      · have := h (A.rows + i) (by show A.rows + i < A.rows + _; omega)
        rw [vstack] at this
        simpa only [if_neg (show ¬ A.rows + i < A.rows by omega), Nat.add_sub_cancel_left] using this
    · rintro ⟨h1, h2⟩ i hi
      have hi : i < A.rows + (vstack (B :: L)).rows := hi
      rw [vstack]
      by_cases h : i < A.rows
      · simpa only [if_pos h] using h1 i h
      · simpa only [if_neg h] using h2 (i - A.rows) (by omega)

/-- The kernel of the constraint consists of the intertwiners. -/
theorem buildSylvester_spec {rho₁ rho₂ : List (NpMat ℝ)} {d₁ d₂ : ℕ} (h₁ : ∀ A ∈ rho₁, A.rows = d₁ ∧ A.cols = d₁) (h₂ : ∀ B ∈ rho₂, B.rows = d₂ ∧ B.cols = d₂)
    (hl : rho₁.length = rho₂.length) (h0 : rho₁ ≠ []) :
    ∃ C, buildSylvester rho₁ rho₂ = .ok C ∧ C.cols = d₂ * d₁ ∧
      ∀ v, InKer C v ↔ ∀ p ∈ rho₁.zip rho₂, mul p.1 (unflatF d₁ d₂ v) ≈ mul (unflatF d₁ d₂ v) p.2 := by
  cases rho₁ with
  | nil => exact absurd rfl h0
  | cons A L =>
    cases rho₂ with
    | nil => simp at hl
    | cons B M =>
      have hA := h₁ A (by simp)
      have hB := h₂ B (by simp)
      have hl' : L.length = M.length := by simpa using hl
      refine ⟨vstack (List.zipWith (fun X Y => kronsum X (negT Y)) (A :: L) (B :: M)), ?_, ?_, fun v => ?_⟩
      · simp only [buildSylvester]
        rw [if_neg (by simpa using hl'), if_neg]
        rw [not_not, hA.1, hB.1]
        exact ⟨h₁, h₂⟩
      · exact (kronsum_shape hA hB).2
      · rw [vstack_inKer (n := d₂ * d₁) (by simp)]
        · rw [← List.map_uncurry_zip_eq_zipWith, List.forall_mem_map]
          refine forall_congr' fun p => ?_
          constructor
          · intro h hp
            exact (kronsum_inKer (h₁ _ (List.of_mem_zip hp).1) (h₂ _ (List.of_mem_zip hp).2) v).1 (h hp)
          · intro h hp
            exact (kronsum_inKer (h₁ _ (List.of_mem_zip hp).1) (h₂ _ (List.of_mem_zip hp).2) v).2 (h hp)
        · intro X hX
          rw [← List.map_uncurry_zip_eq_zipWith] at hX
          obtain ⟨p, hp, rfl⟩ := List.mem_map.1 hX
          exact (kronsum_shape (h₁ _ (List.of_mem_zip hp).1) (h₂ _ (List.of_mem_zip hp).2)).2

/-! ### Propagation from generators -/

/-- The set of elements which satisfy `ρ(g) D = D σ(g)` contains the products of its elements. -/
theorem intertwine_word {E : Type} {El : E → Prop} {op : E → E → E} {one : E} {d e : ℕ} {ρ σ : E → NpMat ℝ} (hρ : LinRep El op one d ρ) (hσ : LinRep El op one e σ)
    (hel : El one) (hop : ∀ g h, El g → El h → El (op g h)) {D : NpMat ℝ} (hD : D.rows = d ∧ D.cols = e) {S : List E} (hS : ∀ g ∈ S, El g ∧ mul (ρ g) D ≈ mul D (σ g)) :
    ∀ (w : List E) (x : E), (∀ g ∈ w, g ∈ S) → El x → mul (ρ x) D ≈ mul D (σ x) → El (w.foldl op x) ∧ mul (ρ (w.foldl op x)) D ≈ mul D (σ (w.foldl op x)) := by
  intro w
  induction w with
  | nil => exact fun x _ hx h => ⟨hx, h⟩
  | cons g w ih =>
    intro x hw hx h
    obtain ⟨hg, hgD⟩ := hS g (hw g (by simp))
    refine ih (op x g) (fun a ha => hw a (List.mem_cons_of_mem _ ha)) (hop x g hx hg) ?_
    refine (mul_congr_left D (hρ.map_mul x g hx hg) (by rw [hρ.cols _ (hop x g hx hg), hD.1])).trans ?_
    refine (mul_assoc' _ _ _).trans ?_
    refine (mul_congr_right (ρ x) hgD (by rw [hρ.cols x hx]; exact (hρ.rows g hg).symm)).trans ?_
    refine (mul_assoc' _ _ _).symm.trans ?_
    refine (mul_congr_left (σ g) h (by rw [mul_cols, hD.2, hσ.rows g hg])).trans ?_
    refine (mul_assoc' _ _ _).trans ?_
    exact mul_congr_right D (hσ.map_mul x g hx hg).symm (by rw [hD.2, mul_rows, hσ.rows x hx])

theorem intertwine_one {E : Type} {El : E → Prop} {op : E → E → E} {one : E} {d e : ℕ} {ρ σ : E → NpMat ℝ} (hρ : LinRep El op one d ρ) (hσ : LinRep El op one e σ) (hel : El one)
    {D : NpMat ℝ} (hD : D.rows = d ∧ D.cols = e) : mul (ρ one) D ≈ mul D (σ one) :=
  ((mul_congr_left D hρ.map_one (by rw [hρ.cols one hel, hD.1])).trans (eye_mul' D hD.1)).trans
    ((mul_congr_right D hσ.map_one (by rw [hσ.rows one hel, hD.2])).trans (mul_eye' D hD.2)).symm

theorem intertwine_conj {A P D Dinv : NpMat ℝ} {d : ℕ} (h : IsInv D Dinv) (hd : D.rows = d) (hA : A.rows = d ∧ A.cols = d) (hP : P.rows = d ∧ P.cols = d) :
    mul A D ≈ mul D P ↔ A ≈ mul (mul D P) Dinv := by
  obtain ⟨h1, h2, h3, h4, h5⟩ := h
  constructor
  · intro e
    refine Eqv.trans ?_ (mul_congr_left Dinv e (by rw [mul_cols, h2, h1]))
    refine Eqv.symm ((mul_assoc' A D Dinv).trans ?_)
    exact (mul_congr_right A h4 (by rw [hA.2, mul_rows, hd])).trans (mul_eye' A (by rw [hA.2, hd]))
  · intro e
    refine (mul_congr_left D e (by rw [hA.2, hd])).trans ((mul_assoc' _ _ _).trans ?_)
    exact (mul_congr_right (mul D P) h5 (by rw [mul_cols, hP.2, mul_rows, h2, hd])).trans (mul_eye' _ (by rw [mul_cols, hP.2, hd]))

/-! ### Permuted direct sums -/

/-- The array which exchanges the first `a` and the last `b` coordinates. -/
def swapMat (a b : ℕ) : NpMat ℝ := ⟨a + b, b + a, fun i j => if i < a then (if j = b + i then 1 else 0) else (if j + a = i then 1 else 0)⟩

theorem swapMat_mul {A B : NpMat ℝ} {a b : ℕ} (hA : A.rows = a ∧ A.cols = a) (hB : B.rows = b ∧ B.cols = b) : mul (diag2 A B) (swapMat a b) ≈ mul (swapMat a b) (diag2 B A) := by
  refine ⟨by simp [swapMat, hA, hB], by simp [swapMat, hA, hB], fun i j hi hj => ?_⟩
  simp only [mul_rows, mul_cols, diag2_rows, hA.1, hB.1] at hi
  have hj : j < b + a := hj
  simp only [mul, diag2_cols, hA.2, hB.2, swapMat]
  have l1 : ∑ k ∈ Finset.range (a + b), (diag2 A B).get i k * (if k < a then (if j = b + k then (1 : ℝ) else 0) else if j + a = k then 1 else 0) =
      (diag2 A B).get i (if j < b then j + a else j - b) := by
    rw [Finset.sum_eq_single (if j < b then j + a else j - b)]
    · split_ifs <;> first | (exfalso; omega) | simp
    · intro k hkr hk
      rw [Finset.mem_range] at hkr
      split_ifs at hk ⊢ <;> first | (exfalso; omega) | simp
    · intro h
      exfalso
      apply h
      rw [Finset.mem_range]
      split_ifs <;> omega
  have l2 : ∑ k ∈ Finset.range (b + a), (if i < a then (if k = b + i then (1 : ℝ) else 0) else if k + a = i then 1 else 0) * (diag2 B A).get k j =
      (diag2 B A).get (if i < a then b + i else i - a) j := by
    rw [Finset.sum_eq_single (if i < a then b + i else i - a)]
    · split_ifs <;> first | (exfalso; omega) | simp
    · intro k hkr hk
      rw [Finset.mem_range] at hkr
      split_ifs at hk ⊢ <;> first | (exfalso; omega) | simp
    · intro h
      exfalso
      apply h
      rw [Finset.mem_range]
      split_ifs <;> omega
  rw [l1, l2]
  simp only [diag2, hA.1, hA.2, hB.1, hB.2]
  split_ifs <;> first | rfl | (exfalso; omega) | (congr 1 <;> omega)

theorem swapMat_ortho (a b : ℕ) : IsOrtho (swapMat a b) := by
  have key : ∀ i j, i < a + b → j < a + b → ∑ k ∈ Finset.range (b + a), (swapMat a b).get i k * (swapMat a b).get j k = if i = j then 1 else 0 := by
    intro i j hi hj
    rw [Finset.sum_eq_single (if i < a then b + i else i - a)]
    · simp only [swapMat]
      split_ifs <;> first | (exfalso; omega) | simp
    · intro k hkr hk
      rw [Finset.mem_range] at hkr
      simp only [swapMat]
      split_ifs at hk ⊢ <;> first | (exfalso; omega) | simp
    · intro h
      exfalso
      apply h
      rw [Finset.mem_range]
      split_ifs <;> omega
  have key' : ∀ i j, i < b + a → j < b + a → ∑ k ∈ Finset.range (a + b), (swapMat a b).get k i * (swapMat a b).get k j = if i = j then 1 else 0 := by
    intro i j hi hj
    rw [Finset.sum_eq_single (if i < b then i + a else i - b)]
    · simp only [swapMat]
      split_ifs <;> first | (exfalso; omega) | simp
    · intro k hkr hk
      rw [Finset.mem_range] at hkr
      simp only [swapMat]
      split_ifs at hk ⊢ <;> first | (exfalso; omega) | simp
    · intro h
      exfalso
      apply h
      rw [Finset.mem_range]
      split_ifs <;> omega
  exact ⟨add_comm a b, ⟨rfl, rfl, fun i j hi hj => key i j hi hj⟩, ⟨add_comm b a, add_comm b a, fun i j hi hj => key' i j hi hj⟩⟩

theorem diag2_ortho {A B : NpMat ℝ} (hA : IsOrtho A) (hB : IsOrtho B) : IsOrtho (diag2 A B) := by
  have hi := (IsInv.of_ortho hA).diag2 (IsInv.of_ortho hB)
  obtain ⟨h1, h2, h3, h4, h5⟩ := hi
  have ht := diag2_transpose A B
  have hr : (diag2 A B).rows = (diag2 A B).cols := by simp [hA.1, hB.1]
  refine ⟨hr, (mul_congr_right _ ht (by simp [hA.1, hB.1])).trans h4, ?_⟩
  exact (mul_congr_left _ ht (by simp)).trans h5

variable {G Id : Type} {T : IrrepTable G Id} {El : G → Prop} {op : G → G → G} {one : G}

/-- Direct sums of the same irreps in different orders are conjugate by an orthogonal matrix. -/
theorem irrepsBlock_perm (hT : T.Valid El op one) {L L' : List Id} (h : L.Perm L') : (∀ i ∈ L, T.ok i = true) →
    ∃ Q : NpMat ℝ, IsOrtho Q ∧ Q.rows = (L.map T.size).sum ∧ ∀ g, El g → mul (irrepsBlock T L' g) Q ≈ mul Q (irrepsBlock T L g) := by
  induction h with
  | nil => exact fun _ => ⟨eye 0, eye_isOrtho 0, rfl, fun g _ => ⟨rfl, rfl, fun i j hi hj => absurd hi (Nat.not_lt_zero i)⟩⟩
  | @cons x l l' hp ih =>
    intro hL
    obtain ⟨Q, hQ, hr, hg⟩ := ih fun i hi => hL i (List.mem_cons_of_mem _ hi)
    refine ⟨diag2 (eye (T.size x)) Q, diag2_ortho (eye_isOrtho _) hQ, by simp [hr], fun g hgE => ?_⟩
    have hx := hT x (hL x (by simp))
    have e1 : mul (irrepsBlock T (x :: l') g) (diag2 (eye (T.size x)) Q) ≈ diag2 (mul (T.mat x g) (eye (T.size x))) (mul (irrepsBlock T l' g) Q) :=
      diag2_mul _ _ _ _ (hx.cols g hgE)
    have e2 : mul (diag2 (eye (T.size x)) Q) (irrepsBlock T (x :: l) g) ≈ diag2 (mul (eye (T.size x)) (T.mat x g)) (mul Q (irrepsBlock T l g)) :=
      diag2_mul _ _ _ _ (hx.rows g hgE).symm
    exact e1.trans ((diag2_congr ((mul_eye' _ (hx.cols g hgE)).trans (eye_mul' _ (hx.rows g hgE)).symm) (hg g hgE)).trans e2.symm)
  | @swap x y l =>
    intro hL
    have hx := hT x (hL x (by simp))
    have hy := hT y (hL y (by simp))
    have hl : ∀ i ∈ l, T.ok i = true := fun i hi => hL i (by simp [hi])
    refine ⟨diag2 (swapMat (T.size x) (T.size y)) (eye (l.map T.size).sum), diag2_ortho (swapMat_ortho _ _) (eye_isOrtho _), by simp [swapMat]; ring, fun g hg => ?_⟩
    have r := irrepsBlock_rows hT hl hg
    have c := irrepsBlock_cols hT hl hg
    have h1 : irrepsBlock T (x :: y :: l) g ≈ diag2 (diag2 (T.mat x g) (T.mat y g)) (irrepsBlock T l g) := (diag2_assoc _ _ _).symm
    have h2 : irrepsBlock T (y :: x :: l) g ≈ diag2 (diag2 (T.mat y g) (T.mat x g)) (irrepsBlock T l g) := (diag2_assoc _ _ _).symm
    refine (mul_congr_left _ h1 ?_).trans (Eqv.trans ?_ (mul_congr_right _ h2 ?_).symm)
    · rw [h1.2.1]; simp [swapMat, hx.cols g hg, hy.cols g hg, irrepsBlock, c]
    · refine (diag2_mul _ _ _ _ ?_).trans (Eqv.trans ?_ (diag2_mul _ _ _ _ ?_).symm)
      · simp [swapMat, hx.cols g hg, hy.cols g hg]
      · exact diag2_congr (swapMat_mul ⟨hx.rows g hg, hx.cols g hg⟩ ⟨hy.rows g hg, hy.cols g hg⟩) ((mul_eye' _ c).trans (eye_mul' _ r).symm)
      · simp [swapMat, hx.rows g hg, hy.rows g hg]
    · rw [h2.1]; simp [swapMat, hx.rows g hg, hy.rows g hg, irrepsBlock, r]
  | @trans l₁ l₂ l₃ p₁ p₂ ih₁ ih₂ =>
    intro hL
    have hL2 : ∀ i ∈ l₂, T.ok i = true := fun i hi => hL i (p₁.mem_iff.2 hi)
    have hL3 : ∀ i ∈ l₃, T.ok i = true := fun i hi => hL2 i (p₂.mem_iff.2 hi)
    obtain ⟨Q, hQ, hr, hg⟩ := ih₁ hL
    obtain ⟨R, hR, hr', hg'⟩ := ih₂ hL2
    have s1 : (l₁.map T.size).sum = (l₂.map T.size).sum := (p₁.map T.size).sum_eq
    have s2 : (l₂.map T.size).sum = (l₃.map T.size).sum := (p₂.map T.size).sum_eq
    have hrc : R.cols = Q.rows := by rw [← hR.1, hr', hr, s1]
    refine ⟨mul R Q, mul_isOrtho hR hQ hrc, by rw [mul_rows, hr', s1], fun g hgE => ?_⟩
    have c3 := irrepsBlock_cols hT hL3 hgE
    have r1 := irrepsBlock_rows hT hL hgE
    have c2 := irrepsBlock_cols hT hL2 hgE
    refine (mul_assoc' _ _ _).symm.trans ((mul_congr_left Q (hg' g hgE) ?_).trans ?_)
    · rw [mul_cols, hrc]
    · refine (mul_assoc' _ _ _).trans ((mul_congr_right R (hg g hgE) ?_).trans (mul_assoc' _ _ _).symm)
      rw [hrc, hr, s1]; exact (irrepsBlock_rows hT hL2 hgE).symm

end Escnn
