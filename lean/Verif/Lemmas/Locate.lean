import Verif.Lemmas.Kernels

/-!
# Positions in concatenated lists
-/

namespace Escnn

open IBasis

variable {α β : Type}

theorem locate_mem (w : α → ℕ) : ∀ (L : List α) (e : ℕ) (a : α) (e' : ℕ), locate w L e = some (a, e') → a ∈ L ∧ e' < w a ∧ e < (L.map w).sum
  | [], _, _, _, h => by simp [locate] at h
  | b :: L, e, a, e', h => by
    rw [locate] at h
    rw [List.map_cons, List.sum_cons]
    by_cases hlt : e < w b
    · rw [if_pos hlt] at h
      obtain ⟨rfl, rfl⟩ := Prod.mk.inj (Option.some.inj h)
      exact ⟨by simp, hlt, by omega⟩
    · rw [if_neg hlt] at h
      obtain ⟨h1, h2, h3⟩ := locate_mem w L _ _ _ h
      exact ⟨by simp [h1], h2, by omega⟩

theorem locate_some (w : α → ℕ) : ∀ (L : List α) (e : ℕ), e < (L.map w).sum → ∃ a e', locate w L e = some (a, e')
  | [], _, h => by simp at h
  | b :: L, e, h => by
    rw [locate]
    by_cases hlt : e < w b
    · rw [if_pos hlt]; exact ⟨_, _, rfl⟩
    · rw [if_neg hlt]
      rw [List.map_cons, List.sum_cons] at h
      exact locate_some w L _ (by omega)

theorem flatMap_length {w : α → ℕ} {g : α → List β} : ∀ (L : List α), (∀ a ∈ L, (g a).length = w a) → (L.flatMap g).length = (L.map w).sum
  | [], _ => rfl
  | a :: L, h => by
    rw [List.flatMap_cons, List.length_append, List.map_cons, List.sum_cons, h a (by simp), flatMap_length L fun b hb => h b (by simp [hb])]

theorem flatMap_locate {w : α → ℕ} {g : α → List β} : ∀ (L : List α), (∀ a ∈ L, (g a).length = w a) → ∀ e a e', locate w L e = some (a, e') →
    (L.flatMap g)[e]? = (g a)[e']?
  | [], _, _, _, _, h => by simp [locate] at h
  | b :: L, hg, e, a, e', h => by
    rw [locate] at h
    rw [List.flatMap_cons]
    by_cases hlt : e < w b
    · rw [if_pos hlt] at h
      obtain ⟨rfl, rfl⟩ := Prod.mk.inj (Option.some.inj h)
      rw [List.getElem?_append_left (by rw [hg _ (by simp)]; exact hlt)]
    · rw [if_neg hlt] at h
      rw [List.getElem?_append_right (by rw [hg _ (by simp)]; omega), hg _ (by simp)]
      exact flatMap_locate L (fun b hb => hg b (by simp [hb])) _ _ _ h

/-- Blocks of equal length. -/
theorem locate_range (m : ℕ) (hm : 0 < m) (e : ℕ) : ∀ (K s : ℕ), s * m ≤ e → e < (s + K) * m → locate (fun _ => m) (List.range' s K) (e - s * m) = some (e / m, e % m)
  | 0, s, h1, h2 => by rw [add_zero] at h2; omega
  | K + 1, s, h1, h2 => by
    rw [List.range'_succ, locate]
    by_cases hlt : e - s * m < m
    · rw [if_pos hlt]
      have hd : e / m = s := by
        refine Nat.div_eq_of_lt_le h1 ?_
        rw [add_mul, one_mul]; omega
      have hmod : e % m = e - s * m := by
        have := Nat.div_add_mod e m
        rw [hd, mul_comm] at this
        omega
      rw [hd, hmod]
    · rw [if_neg hlt]
      have := locate_range m hm e K (s + 1) (by rw [add_mul, one_mul]; omega) (by rw [show s + 1 + K = s + (K + 1) by ring]; exact h2)
      rw [add_mul, one_mul] at this
      rw [show e - s * m - m = e - (s * m + m) by omega]
      exact this

theorem flatMap_range_get {g : ℕ → List β} {K m e : ℕ} (hg : ∀ k < K, (g k).length = m) (he : e < K * m) :
    ((List.range K).flatMap g)[e]? = (g (e / m))[e % m]? := by
  have hm : 0 < m := by
    rcases Nat.eq_zero_or_pos m with h | h
    · rw [h, mul_zero] at he; omega
    · exact h
  have := locate_range m hm e K 0 (by omega) (by simpa using he)
  rw [zero_mul, Nat.sub_zero, ← List.range_eq_range'] at this
  exact flatMap_locate (w := fun _ => m) _ (fun k hk => hg k (List.mem_range.1 hk)) _ _ _ this

theorem flatMap_range_length {g : ℕ → List β} {K m : ℕ} (hg : ∀ k < K, (g k).length = m) : ((List.range K).flatMap g).length = K * m := by
  rw [flatMap_length (w := fun _ => m) _ fun k hk => hg k (List.mem_range.1 hk)]
  simp

theorem locate_mul (w : α → ℕ) (m : ℕ) (hm : 0 < m) : ∀ (L : List α) (e : ℕ) (a : α) (e' : ℕ), locate (fun a => w a * m) L e = some (a, e') →
    locate w L (e / m) = some (a, e' / m) ∧ e' % m = e % m
  | [], _, _, _, h => by simp [locate] at h
  | b :: L, e, a, e', h => by
    rw [locate] at h ⊢
    have hiff : e < w b * m ↔ e / m < w b := (Nat.div_lt_iff_lt_mul hm).symm
    by_cases hlt : e < w b * m
    · rw [if_pos hlt] at h
      rw [if_pos (hiff.1 hlt)]
      obtain ⟨rfl, rfl⟩ := Prod.mk.inj (Option.some.inj h)
      exact ⟨rfl, rfl⟩
    · rw [if_neg hlt] at h
      rw [if_neg (fun h' => hlt (hiff.2 h'))]
      obtain ⟨h1, h2⟩ := locate_mul w m hm L _ _ _ h
      have hle : w b * m ≤ e := Nat.le_of_not_lt hlt
      rw [mul_comm] at hle h1 h2
      rw [Nat.sub_mul_div] at h1
      refine ⟨h1, h2.trans ?_⟩
      exact Nat.sub_mul_mod hle

end Escnn
