import Verif.Lemmas.Conv

/-!
# Separable operators on feature maps and the action on the grid
-/

namespace Escnn

open NpMat NdArr

variable {n : ℕ} {B : Type}

/-- Every entry of the output is a sum over the input with weights which are products over the axes. -/
noncomputable def sepMap (out : Fin n → ℕ) (w : Fin n → ℕ → ℕ → ℝ) (x : FMap n B) : FMap n B :=
  ⟨x.chans, out, fun b c o => ∑ k ∈ Fintype.piFinset fun i => Finset.range (x.shape i), (∏ i, w i (o i) (k i)) * x.get b c k⟩

theorem mem_pi_range {s k : Fin n → ℕ} : (k ∈ Fintype.piFinset fun i => Finset.range (s i)) ↔ ∀ i, k i < s i := by simp [Fintype.mem_piFinset]

/-- A sum over the pixels of the transformed map is a sum over the pixels of the map. -/
theorem sum_source {s s' : Fin n → ℕ} {τ : Equiv.Perm (Fin n)} (δ : Fin n → ℝ) (hs : ∀ i, s' i = s (τ i)) (f : (Fin n → ℕ) → ℝ) :
    ∑ k ∈ Fintype.piFinset fun i => Finset.range (s' i), f (source s τ δ k) = ∑ k ∈ Fintype.piFinset fun i => Finset.range (s i), f k := by
  refine Finset.sum_nbij' (source s τ δ) (fun k i => if δ i = -1 then s (τ i) - 1 - k (τ i) else k (τ i)) (fun k hk => ?_) (fun k hk => ?_) (fun k hk => ?_) (fun k hk => ?_) fun _ _ => rfl
  · rw [mem_pi_range] at hk ⊢
    exact source_box fun i => hs i ▸ hk i
  · rw [mem_pi_range] at hk ⊢
    intro i
    have := hk (τ i)
    rw [hs]
    split_ifs <;> omega
  · rw [mem_pi_range] at hk
    funext i
    have := hk i
    rw [hs] at this
    simp only [source, Equiv.symm_apply_apply]
    split_ifs <;> omega
  · rw [mem_pi_range] at hk
    funext j
    have := hk j
    simp only [source, Equiv.apply_symm_apply]
    split_ifs <;> omega

/-- A separable operator whose weights are moved like the axes commutes with the transformation. -/
theorem Moved.sep {τ : Equiv.Perm (Fin n)} {δ : Fin n → ℝ} {A : NpMat ℝ} {x y : FMap n B} (h : Moved τ δ A x y) {ox oy : Fin n → ℕ} {wx wy : Fin n → ℕ → ℕ → ℝ} (ho : ∀ i, oy i = ox (τ i))
    (hw : ∀ i, ∀ o < oy i, ∀ k < y.shape i, wy i o k = wx (τ i) (if δ i = -1 then ox (τ i) - 1 - o else o) (if δ i = -1 then x.shape (τ i) - 1 - k else k)) :
    Moved τ δ A (sepMap ox wx x) (sepMap oy wy y) := by
  refine ⟨h.rows, h.cols, h.chans, ho, fun b c hc o hob => ?_⟩
  show ∑ k ∈ _, _ = ∑ c' ∈ Finset.range x.chans, A.get c c' * ∑ k ∈ Fintype.piFinset fun i => Finset.range (x.shape i), (∏ i, wx i (source ox τ δ o i) (k i)) * x.get b c' k
  simp only [Finset.mul_sum]
  rw [Finset.sum_comm, ← sum_source δ h.shape]
  refine Finset.sum_congr rfl fun k hk => ?_
  rw [mem_pi_range] at hk
  have e : ∏ i, wy i (o i) (k i) = ∏ i, wx i (source ox τ δ o i) (source x.shape τ δ k i) := by
    rw [← Equiv.prod_comp τ fun i => wx i (source ox τ δ o i) (source x.shape τ δ k i)]
    refine Finset.prod_congr rfl fun i _ => ?_
    rw [hw i (o i) (hob i) (k i) (hk i)]
    simp only [source, Equiv.symm_apply_apply]
  rw [e, h.get b c hc k hk, Finset.mul_sum]
  exact Finset.sum_congr rfl fun c' _ => by ring

/-- Copying entries is separable. -/
theorem pull_eq_sep {x : FMap n B} {out : Fin n → ℕ} {idx : Fin n → ℕ → ℕ} (hi : ∀ i, ∀ o < out i, idx i o < x.shape i) :
    (⟨x.chans, out, fun b c o => x.get b c fun i => idx i (o i)⟩ : FMap n B) ≈ sepMap out (fun i o k => if k = idx i o then 1 else 0) x := by
  refine ⟨rfl, rfl, fun b c _ o ho => ?_⟩
  show _ = ∑ k ∈ _, _
  rw [Finset.sum_eq_single fun i => idx i (o i)]
  · simp
  · intro k _ hk
    obtain ⟨i, hi⟩ := Function.ne_iff.1 hk
    rw [Finset.prod_eq_zero (Finset.mem_univ i) (if_neg hi), zero_mul]
  · intro hn
    exact absurd (mem_pi_range.2 fun i => hi i _ (ho i)) hn

theorem Moved.congr {τ : Equiv.Perm (Fin n)} {δ : Fin n → ℝ} {A : NpMat ℝ} {x y x' y' : FMap n B} (h : Moved τ δ A x y) (hx : x' ≈ x) (hy : y' ≈ y) : Moved τ δ A x' y' := by
  obtain ⟨a1, a2, a3⟩ := hx
  obtain ⟨b1, b2, b3⟩ := hy
  refine ⟨h.rows.trans a1.symm, h.cols.trans a1.symm, b1.trans (h.chans.trans a1.symm), fun i => by rw [a2, b2, h.shape], fun b c hc k hk => ?_⟩
  rw [b3 b c (by rw [b1, h.chans, ← a1]; exact hc) k hk, h.get b c (a1 ▸ hc) k (b2 ▸ hk), a1, a2]
  refine Finset.sum_congr rfl fun c' hc' => ?_
  rw [a3 b c' (by rw [a1]; exact Finset.mem_range.1 hc') _ (by
    rw [a2]
    exact source_box fun i => by rw [← h.shape, ← b2]; exact hk i)]

end Escnn
