import Verif.Lemmas.Fields
import Verif.Lemmas.Regular
import Verif.Lemmas.FTensor

/-!
# Rows and columns of the block-diagonal matrix of a field type
-/

namespace Escnn

open NpMat

variable {R : Type} {sz : R → ℕ} {ρ : R → NpMat ℝ} {rs : List R}

theorem blockDiag_map_size (hρ : ∀ r ∈ rs, (ρ r).rows = sz r ∧ (ρ r).cols = sz r) :
    (blockDiag (rs.map ρ)).rows = (rs.map sz).sum ∧ (blockDiag (rs.map ρ)).cols = (rs.map sz).sum := by
  rw [blockDiag_rows, blockDiag_cols, List.map_map, List.map_map]
  exact ⟨congrArg _ (List.map_congr_left fun r hr => (hρ r hr).1), congrArg _ (List.map_congr_left fun r hr => (hρ r hr).2)⟩

theorem offset_rows (hρ : ∀ r ∈ rs, (ρ r).rows = sz r ∧ (ρ r).cols = sz r) (k : ℕ) :
    (((rs.map ρ).take k).map rows).sum = chanOffset sz rs k ∧ (((rs.map ρ).take k).map cols).sum = chanOffset sz rs k := by
  rw [← List.map_take, List.map_map, List.map_map, chanOffset]
  exact ⟨congrArg _ (List.map_congr_left fun r hr => (hρ r (List.mem_of_mem_take hr)).1), congrArg _ (List.map_congr_left fun r hr => (hρ r (List.mem_of_mem_take hr)).2)⟩

/-- The block-diagonal matrix acts on the channels of field `k` through its representation. -/
theorem blockDiag_row (hρ : ∀ r ∈ rs, (ρ r).rows = sz r ∧ (ρ r).cols = sz r) {k a : ℕ} {r : R} (hk : rs[k]? = some r) (ha : a < sz r) (v : ℕ → ℝ) :
    ∑ x ∈ Finset.range (rs.map sz).sum, (blockDiag (rs.map ρ)).get (chanOffset sz rs k + a) x * v x =
      ∑ j ∈ Finset.range (sz r), (ρ r).get a j * v (chanOffset sz rs k + j) := by
  obtain ⟨hlt, hr⟩ := List.getElem?_eq_some_iff.1 hk
  have hmem : r ∈ rs := List.mem_of_getElem? hk
  have h := blockDiag_apply (rs.map ρ) v k a (by simpa using hlt) (by simp only [List.getElem_map, hr]; rw [(hρ r hmem).1]; exact ha)
  rw [(blockDiag_map_size hρ).2, (offset_rows hρ k).1, (offset_rows hρ k).2] at h
  rw [h]
  simp only [List.getElem_map, hr, (hρ r hmem).2]

/-- The same for the columns. -/
theorem blockDiag_col (hρ : ∀ r ∈ rs, (ρ r).rows = sz r ∧ (ρ r).cols = sz r) {k a : ℕ} {r : R} (hk : rs[k]? = some r) (ha : a < sz r) (v : ℕ → ℝ) :
    ∑ x ∈ Finset.range (rs.map sz).sum, v x * (blockDiag (rs.map ρ)).get x (chanOffset sz rs k + a) =
      ∑ j ∈ Finset.range (sz r), v (chanOffset sz rs k + j) * (ρ r).get j a := by
  have ht := blockDiag_transpose (rs.map ρ)
  rw [List.map_map] at ht
  have hρ' : ∀ r ∈ rs, ((transpose ∘ ρ) r).rows = sz r ∧ ((transpose ∘ ρ) r).cols = sz r := fun r hr => ⟨(hρ r hr).2, (hρ r hr).1⟩
  have h := blockDiag_row hρ' hk ha v
  have hoff := chanOffset_lt hk ha
  rw [Finset.sum_congr rfl fun x hx => ?_, h]
  · exact Finset.sum_congr rfl fun j _ => mul_comm _ _
  · rw [mul_comm]
    congr 1
    have := ht.2.2 (chanOffset sz rs k + a) x (by change _ < (blockDiag (rs.map ρ)).cols; rw [(blockDiag_map_size hρ).2]; exact hoff)
      (by change _ < (blockDiag (rs.map ρ)).rows; rw [(blockDiag_map_size hρ).1]; exact Finset.mem_range.1 hx)
    exact this

end Escnn
