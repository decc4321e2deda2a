import Verif.Model.BlIrreps

/-!
# C94: the irreps of bounded frequency
-/

namespace Escnn

/-- The irreps in the list are those of the group (`ok`) whose frequency is at most `L`, each once. -/
def ListsUpTo {J : Type} (ok : J → Prop) (freq : J → ℕ) (L : ℤ) (ids : List J) : Prop := ids.Nodup ∧ ∀ i, i ∈ ids ↔ ok i ∧ (freq i : ℤ) ≤ L

/-- **C94** SO(2) and SO(3). -/
theorem C94_so2 (L : ℤ) : (0 ≤ L → ∃ ids, SO2.blIrreps L = .ok ids ∧ ListsUpTo (fun _ => True) id L ids) ∧ (L < 0 → SO2.blIrreps L = .error .assertion) := by
  refine ⟨fun h => ⟨_, if_pos h, List.nodup_range, fun i => ?_⟩, fun h => if_neg (by omega)⟩
  simp only [List.mem_range, id, true_and]
  omega

/-- **C94** `C_N`: its irreps have the frequencies `0, …, N // 2`. -/
theorem C94_cyclic (N : ℕ) (L : ℤ) : (0 ≤ L → L ≤ N / 2 → ∃ ids, Cyclic.blIrreps N L = .ok ids ∧ ListsUpTo (fun k => k ∈ Cyclic.irrepIds N) id L ids) ∧
    (L < 0 ∨ (N : ℤ) / 2 < L → Cyclic.blIrreps N L = .error .assertion) := by
  refine ⟨fun h h' => ⟨_, if_pos ⟨h, h'⟩, List.nodup_range, fun i => ?_⟩, fun h => if_neg (by omega)⟩
  simp only [List.mem_range, id, Cyclic.irrepIds]
  omega

/-- **C94** O(2). -/
theorem C94_o2 (L : ℤ) : (0 ≤ L → ∃ ids, O2.blIrreps L = .ok ids ∧ ListsUpTo (fun i => O2.irrepOk i.1 i.2 = true) Prod.snd L ids) ∧ (L < 0 → O2.blIrreps L = .error .assertion) := by
  refine ⟨fun h => ⟨_, if_pos h, ?_, fun ⟨j, k⟩ => ?_⟩, fun h => if_neg (by omega)⟩
  · refine List.nodup_cons.2 ⟨by simp, List.nodup_range.map fun a b hab => (Prod.mk.inj hab).2⟩
  · simp only [List.singleton_append, List.mem_cons, List.mem_map, List.mem_range, Prod.mk.injEq, O2.irrepOk, Bool.and_eq_true, Bool.or_eq_true, decide_eq_true_eq]
    constructor
    · rintro (⟨rfl, rfl⟩ | ⟨a, ha, rfl, rfl⟩) <;> omega
    · rintro ⟨⟨h1, h2⟩, h3⟩
      by_cases hj : j = 1
      · exact .inr ⟨k, by omega, hj.symm, rfl⟩
      · exact .inl ⟨by omega, by omega⟩

/-- **C94** `D_N`. -/
theorem C94_dihedral (N : ℕ) (hN : 0 < N) (L : ℤ) : (0 ≤ L → L ≤ N / 2 → ∃ ids, Dihedral.blIrreps N L = .ok ids ∧ ListsUpTo (fun i => Dihedral.irrepOk N i.1 i.2 = true) Prod.snd L ids) ∧
    (L < 0 ∨ (N : ℤ) / 2 < L → Dihedral.blIrreps N L = .error .assertion) := by
  refine ⟨fun h h' => ⟨_, if_pos ⟨h, h'⟩, ?_, fun ⟨j, k⟩ => ?_⟩, fun h => if_neg (by omega)⟩
  · rw [List.append_assoc, List.singleton_append]
    refine List.nodup_cons.2 ⟨?_, List.nodup_append.2 ⟨List.nodup_range.map fun a b hab => (Prod.mk.inj hab).2, ?_, ?_⟩⟩
    · intro hm
      rcases List.mem_append.1 hm with hm | hm
      · simp at hm
      · split_ifs at hm with hc
        · simp only [List.mem_singleton, Prod.mk.injEq, true_and] at hm
          omega
        · simp at hm
    · split_ifs <;> simp
    · intro a ha b hb hab
      obtain ⟨k, -, rfl⟩ := List.mem_map.1 ha
      split_ifs at hb with hc
      · simp only [List.mem_singleton] at hb
        rw [hb] at hab
        simp at hab
      · simp at hb
  · have hmem : (j, k) ∈ (if N % 2 = 0 ∧ L = (N : ℤ) / 2 then [(0, L.toNat)] else []) ↔ (N % 2 = 0 ∧ L = (N : ℤ) / 2) ∧ j = 0 ∧ k = L.toNat := by
      split_ifs with hc <;> simp [hc]
    rw [List.mem_append, hmem]
    simp only [List.singleton_append, List.mem_cons, List.mem_map, List.mem_range, Prod.mk.injEq, Dihedral.irrepOk, Bool.and_eq_true, Bool.or_eq_true, decide_eq_true_eq]
    constructor
    · rintro ((⟨rfl, rfl⟩ | ⟨a, ha, rfl, rfl⟩) | ⟨⟨h1, h2⟩, rfl, rfl⟩) <;> omega
    · rintro ⟨⟨⟨h1, h2⟩, h3⟩, h4⟩
      by_cases hj : j = 1
      · exact .inl (.inr ⟨k, by omega, hj.symm, rfl⟩)
      · by_cases hk : k = 0
        · exact .inl (.inl ⟨by omega, hk⟩)
        · exact .inr (by omega)

/-- **C94** O(3): both parities of every frequency. -/
theorem C94_o3 (L : ℤ) : (0 ≤ L → ∃ ids, O3.blIrreps L = .ok ids ∧ ListsUpTo (fun i : ℕ × ℕ => i.1 ≤ 1) Prod.snd L ids) ∧ (L < 0 → O3.blIrreps L = .error .assertion) := by
  refine ⟨fun h => ⟨_, if_pos h, ?_, fun ⟨j, k⟩ => ?_⟩, fun h => if_neg (by omega)⟩
  · rw [List.nodup_flatMap]
    refine ⟨fun l _ => by simp, List.Pairwise.imp ?_ List.nodup_range⟩
    intro a b hab x hx hy
    simp only [List.mem_cons, List.not_mem_nil, or_false] at hx hy
    rcases hx with rfl | rfl <;> rcases hy with hy | hy <;> exact hab (Prod.mk.inj hy).2
  · simp only [List.mem_flatMap, List.mem_range, List.mem_cons, Prod.mk.injEq, List.not_mem_nil, or_false]
    constructor
    · rintro ⟨l, hl, ⟨rfl, rfl⟩ | ⟨rfl, rfl⟩⟩ <;> omega
    · rintro ⟨h1, h2⟩
      exact ⟨k, by omega, by omega⟩

/-- **C94** The band-limited regular representations: every irrep of SO(2) of frequency at most `L` once (its dimension divided by the dimension of its endomorphisms), every one of O(2) as often as its dimension. -/
theorem C94_regular (L : ℕ) : (∀ k, (SO2.blRegular L).count k = if k ≤ L then 1 else 0) ∧
    ∀ j k, (O2.blRegular L).count (j, k) = if O2.irrepOk j k = true ∧ k ≤ L then (if k = 0 then 1 else 2) else 0 := by
  refine ⟨fun k => ?_, fun j k => ?_⟩
  · rw [SO2.blRegular, List.nodup_range.count]
    simp [Nat.lt_succ_iff]
  · induction L with
    | zero =>
      simp only [O2.blRegular, O2.irrepOk]
      by_cases hk : k = 0
      · subst hk
        rcases j with _ | _ | j <;> simp [List.count_cons]
      · simp [hk, List.count_cons, Ne.symm hk]
    | succ L ih =>
      have e : O2.blRegular (L + 1) = O2.blRegular L ++ List.replicate 2 (1, L + 1) := by
        rw [O2.blRegular, List.range_succ, List.flatMap_append]
        simp [O2.blRegular]
      rw [e, List.count_append, ih, List.count_replicate]
      by_cases hk : k = L + 1
      · subst hk
        by_cases hj : j = 1
        · subst hj; simp [O2.irrepOk]
        · simp [O2.irrepOk, hj, Ne.symm hj]
      · have h1 : k ≤ L + 1 ↔ k ≤ L := by omega
        simp [h1, Ne.symm hk]

example : Dihedral.blIrreps 4 2 = .ok [(0, 0), (1, 0), (1, 1), (1, 2), (0, 2)] ∧ Dihedral.blIrreps 4 1 = .ok [(0, 0), (1, 0), (1, 1)] ∧ Dihedral.blIrreps 4 3 = .error .assertion := ⟨rfl, rfl, rfl⟩

end Escnn
