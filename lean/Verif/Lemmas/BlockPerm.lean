import Verif.Lemmas.MatKinds
import Verif.Lemmas.Kron
import Verif.Model.NormNonlin

/-!
# Block permutation matrices permute and rotate the blocks
-/

namespace Escnn

theorem sum_range_blocks {M : Type} [AddCommMonoid M] (n d : ℕ) (f : ℕ → M) : ∑ j ∈ Finset.range (n * d), f j = ∑ a ∈ Finset.range n, ∑ q ∈ Finset.range d, f (a * d + q) := by
  rw [← sum_range_mul' n d fun a q => f (a * d + q)]
  exact Finset.sum_congr rfl fun j _ => by rw [Nat.div_add_mod']

/-- A block permutation matrix permutes the blocks and applies an orthogonal matrix to each block. -/
theorem IsBlockPermMat.act {n d : ℕ} {M : NpMat ℝ} (h : IsBlockPermMat n d M) : ∃ (τ : Equiv.Perm (Fin n)) (A : Fin n → NpMat ℝ), (∀ i, IsOrthMat d (A i)) ∧
    ∀ (v : ℕ → ℝ) (i : Fin n) (p : ℕ), p < d → ∑ j ∈ Finset.range (n * d), M.get (i * d + p) j * v j = ∑ q ∈ Finset.range d, (A i).get p q * v (τ i * d + q) := by
  obtain ⟨-, -, σ, A, hA, h⟩ := h
  refine ⟨σ.symm, fun i => A (σ.symm i), fun i => hA _, fun v i p hp => ?_⟩
  rw [sum_range_blocks, sum_range_fin fun a => ∑ q ∈ Finset.range d, M.get (i * d + p) (a * d + q) * v (a * d + q), Finset.sum_eq_single (σ.symm i)]
  · refine Finset.sum_congr rfl fun q hq => ?_
    rw [h i (σ.symm i) p q hp (Finset.mem_range.1 hq), if_pos (by simp)]
  · intro j _ hj
    refine Finset.sum_eq_zero fun q hq => ?_
    rw [h i j p q hp (Finset.mem_range.1 hq), if_neg (fun e => hj (by rw [e]; simp)), zero_mul]
  · simp

/-- The norms of the blocks are permuted. -/
theorem IsBlockPermMat.norms {n d : ℕ} {τ : Equiv.Perm (Fin n)} {A : Fin n → NpMat ℝ} (hA : ∀ i, IsOrthMat d (A i)) {v w : ℕ → ℝ}
    (h : ∀ (i : Fin n) (p : ℕ), p < d → w (i * d + p) = ∑ q ∈ Finset.range d, (A i).get p q * v (τ i * d + q)) (i : Fin n) :
    fieldNormOf d (fun p => w (i * d + p)) = fieldNormOf d (fun q => v (τ i * d + q)) := by
  unfold fieldNormOf
  rw [← (hA i).norm fun q => v (τ i * d + q)]
  congr 1
  exact Finset.sum_congr rfl fun p hp => by simp only [h i p (Finset.mem_range.1 hp)]

/-- A field of an orthogonal block permutation is orthogonal. -/
theorem IsBlockPermMat.orth {n d : ℕ} {M : NpMat ℝ} (h : IsBlockPermMat n d M) : IsOrthMat (n * d) M := by
  obtain ⟨h1, h2, σ, A, hA, h⟩ := h
  refine ⟨h1, h2, fun i j => ?_⟩
  have hi := i.2
  have hj := j.2
  rcases Nat.eq_zero_or_pos d with rfl | hd
  · simp at hi
  rw [← sum_range_fin fun k => M.get k i * M.get k j, sum_range_blocks]
  have ha : (i : ℕ) / d < n := Nat.div_lt_of_lt_mul (hi.trans_eq (Nat.mul_comm _ _))
  have hb : (j : ℕ) / d < n := Nat.div_lt_of_lt_mul (hj.trans_eq (Nat.mul_comm _ _))
  have hp : (i : ℕ) % d < d := Nat.mod_lt _ hd
  have hq : (j : ℕ) % d < d := Nat.mod_lt _ hd
  have key : ∀ a ∈ Finset.range n, ∀ q ∈ Finset.range d, M.get (a * d + q) i * M.get (a * d + q) j =
      (if a = σ ⟨i / d, ha⟩ then (A ⟨i / d, ha⟩).get q (i % d) else 0) * (if a = σ ⟨j / d, hb⟩ then (A ⟨j / d, hb⟩).get q (j % d) else 0) := by
    intro a haa q hqq
    have e1 := h ⟨a, Finset.mem_range.1 haa⟩ ⟨i / d, ha⟩ q (i % d) (Finset.mem_range.1 hqq) hp
    have e2 := h ⟨a, Finset.mem_range.1 haa⟩ ⟨j / d, hb⟩ q (j % d) (Finset.mem_range.1 hqq) hq
    simp only [Nat.div_add_mod', Fin.ext_iff] at e1 e2
    rw [e1, e2]
  rw [Finset.sum_congr rfl fun a haa => Finset.sum_congr rfl (key a haa), Finset.sum_eq_single ((σ ⟨i / d, ha⟩ : Fin n) : ℕ)]
  · simp only [if_true]
    by_cases e : (i : ℕ) / d = j / d
    · have e' : (⟨j / d, hb⟩ : Fin n) = ⟨i / d, ha⟩ := Fin.ext e.symm
      rw [e']
      simp only [if_true]
      have := (hA ⟨i / d, ha⟩).2.2 ⟨i % d, hp⟩ ⟨j % d, hq⟩
      rw [← sum_range_fin fun k => (A ⟨i / d, ha⟩).get k (i % d) * (A ⟨i / d, ha⟩).get k (j % d)] at this
      rw [this]
      simp only [Fin.ext_iff]
      by_cases e2 : (i : ℕ) % d = j % d
      · rw [if_pos e2, if_pos (by rw [← Nat.div_add_mod' (i : ℕ) d, e, e2, Nat.div_add_mod'])]
      · rw [if_neg e2, if_neg (fun e3 => e2 (by rw [e3]))]
    · rw [if_neg (fun e3 => e (by rw [e3]))]
      refine Finset.sum_eq_zero fun q _ => ?_
      rw [if_neg (fun e3 => e (by simpa using σ.injective (Fin.ext e3))), mul_zero]
  · intro a _ hne
    exact Finset.sum_eq_zero fun q _ => by rw [if_neg hne, zero_mul]
  · intro hn
    exact absurd (Finset.mem_range.2 (σ ⟨i / d, ha⟩).2) hn

end Escnn
