import Verif.Model.Bias
import Verif.Props.C36_RestrictedWE

/-!
# Lemmas about the bias
-/

namespace Escnn

open NpMat RWE

namespace Bias

variable {G Id : Type} [DecidableEq Id]

theorem countIrreps_eq (triv : Id) : ∀ (L : List Id) (n : ℕ), countIrreps triv n L = n + L.count triv
  | [], n => by simp [countIrreps]
  | i :: L, n => by
    rw [countIrreps, countIrreps_eq triv L, List.count_cons]
    by_cases h : i = triv
    · simp [h]; omega
    · simp [h]

/-- The number of trivial irreps of a field. -/
def cnt (triv : Id) (r : Rep G Id) : ℕ := r.irreps.count triv

theorem trivials_eq (triv : Id) : ∀ (L : List (Rep G Id)) (n : ℕ), trivials triv n L = n + (L.map (cnt triv)).sum
  | [], n => by simp [trivials]
  | r :: L, n => by
    rw [trivials, trivials_eq triv L, countIrreps_eq, List.map_cons, List.sum_cons, cnt]
    omega

theorem fieldLoop_spec (size : Id → ℕ) (triv : Id) (r : Rep G Id) (p : ℕ) : ∀ (L : List Id) (pi c : ℕ) (M : NpMat ℝ),
    (fieldLoop size triv r p pi c M L).2 = c + L.count triv ∧ (fieldLoop size triv r p pi c M L).1.rows = M.rows ∧ (fieldLoop size triv r p pi c M L).1.cols = M.cols ∧
    ∀ i j, (fieldLoop size triv r p pi c M L).1.get i j =
      if p ≤ i ∧ i < p + r.size ∧ c ≤ j ∧ j < c + L.count triv then r.cob.get (i - p) ((idPos size triv pi L).getD (j - c) 0) else M.get i j
  | [], pi, c, M => by
    refine ⟨rfl, rfl, rfl, fun i j => ?_⟩
    rw [if_neg (by intro h; simp at h; omega)]; rfl
  | i' :: L, pi, c, M => by
    by_cases h : i' = triv
    · obtain ⟨h1, h2, h3, h4⟩ := fieldLoop_spec size triv r p L (pi + size i') (c + 1) (setCol M p r.size c fun k => r.cob.get k pi)
      rw [fieldLoop, if_pos h]
      have hc : (i' :: L).count triv = L.count triv + 1 := by rw [h, List.count_cons_self]
      refine ⟨by rw [h1, hc]; omega, h2, h3, fun i j => ?_⟩
      rw [h4, hc, idPos, if_pos h]
      by_cases hi : p ≤ i ∧ i < p + r.size
      · by_cases hj : j = c
        · rw [if_neg (by omega), if_pos (by omega), setCol, hj]
          simp [hi.1, hi.2]
        · by_cases hj' : c + 1 ≤ j ∧ j < c + 1 + L.count triv
          · rw [if_pos ⟨hi.1, hi.2, hj'⟩, if_pos (by omega), show j - c = (j - (c + 1)) + 1 by omega, List.getD_cons_succ]
          · rw [if_neg (by omega), if_neg (by omega), setCol]
            simp [hj]
      · rw [if_neg (by omega), if_neg (by omega), setCol]
        simp only
        rw [if_neg (by omega)]
    · obtain ⟨h1, h2, h3, h4⟩ := fieldLoop_spec size triv r p L (pi + size i') c M
      rw [fieldLoop, if_neg h]
      have hc : (i' :: L).count triv = L.count triv := by rw [List.count_cons_of_ne h]
      rw [hc, idPos, if_neg h]
      exact ⟨h1, h2, h3, h4⟩

theorem typeLoop_shape (size : Id → ℕ) (triv : Id) : ∀ (L : List (Rep G Id)) (p c : ℕ) (M : NpMat ℝ),
    (typeLoop size triv p c M L).rows = M.rows ∧ (typeLoop size triv p c M L).cols = M.cols ∧ ∀ i j, i < p → (typeLoop size triv p c M L).get i j = M.get i j
  | [], _, _, _ => ⟨rfl, rfl, fun _ _ _ => rfl⟩
  | r :: L, p, c, M => by
    rw [typeLoop]
    obtain ⟨-, h2, h3, h4⟩ := fieldLoop_spec size triv r p r.irreps 0 c M
    obtain ⟨k1, k2, k3⟩ := typeLoop_shape size triv L (p + r.size) (fieldLoop size triv r p 0 c M r.irreps).2 (fieldLoop size triv r p 0 c M r.irreps).1
    refine ⟨k1.trans h2, k2.trans h3, fun i j hi => ?_⟩
    rw [k3 i j (by omega), h4, if_neg (by omega)]

theorem typeLoop_get (size : Id → ℕ) (triv : Id) : ∀ (L : List (Rep G Id)) (p c : ℕ) (M : NpMat ℝ) (k : ℕ) (r : Rep G Id), L[k]? = some r → ∀ i < r.size, ∀ j,
    (typeLoop size triv p c M L).get (p + chanOffset Rep.size L k + i) j =
      if c + chanOffset (cnt triv) L k ≤ j ∧ j < c + chanOffset (cnt triv) L k + cnt triv r then
        r.cob.get i ((idPos size triv 0 r.irreps).getD (j - (c + chanOffset (cnt triv) L k)) 0)
      else M.get (p + chanOffset Rep.size L k + i) j
  | [], _, _, _, _, _, h => by simp at h
  | r' :: L, p, c, M, 0, r, h => by
    intro i hi j
    obtain rfl : r' = r := by simpa using h
    rw [typeLoop]
    obtain ⟨h1, -, -, h4⟩ := fieldLoop_spec size triv r' p r'.irreps 0 c M
    rw [chanOffset_zero, chanOffset_zero, (typeLoop_shape size triv L _ _ _).2.2 _ _ (by omega), h4]
    have e : p + 0 + i - p = i := by omega
    rw [e]
    simp only [add_zero]
    by_cases hj : c ≤ j ∧ j < c + cnt triv r'
    · rw [if_pos hj, if_pos ⟨by omega, by omega, hj.1, hj.2⟩]
    · rw [if_neg hj, if_neg (fun h => hj ⟨h.2.2.1, h.2.2.2⟩)]
  | r' :: L, p, c, M, k + 1, r, h => by
    intro i hi j
    rw [typeLoop]
    obtain ⟨h1, -, -, h4⟩ := fieldLoop_spec size triv r' p r'.irreps 0 c M
    have ih := typeLoop_get size triv L (p + r'.size) (fieldLoop size triv r' p 0 c M r'.irreps).2 (fieldLoop size triv r' p 0 c M r'.irreps).1 k r (by simpa using h) i hi j
    have e1 : p + chanOffset Rep.size (r' :: L) (k + 1) + i = p + r'.size + chanOffset Rep.size L k + i := by rw [chanOffset_cons_succ]; omega
    have e2 : c + chanOffset (cnt triv) (r' :: L) (k + 1) = (fieldLoop size triv r' p 0 c M r'.irreps).2 + chanOffset (cnt triv) L k := by
      rw [chanOffset_cons_succ, h1, cnt]; omega
    rw [e1, ih, e2, h4, if_neg (c := p ≤ _ ∧ _) (by omega)]

/-- What the bias is on a field: the combination of the columns of the change of basis at its trivial irreps. -/
theorem expand_field {size : Id → ℕ} {triv : Id} {L : List (Rep G Id)} {B : NpMat ℝ} (hB : expansion size triv L = some B) (w : ℕ → ℝ) {k : ℕ} {r : Rep G Id}
    (hk : L[k]? = some r) {i : ℕ} (hi : i < r.size) :
    expand B w (chanOffset Rep.size L k + i) =
      ∑ t ∈ Finset.range (cnt triv r), r.cob.get i ((idPos size triv 0 r.irreps).getD t 0) * w (chanOffset (cnt triv) L k + t) := by
  unfold expansion at hB
  split_ifs at hB with h0
  obtain rfl := Option.some.inj hB
  have hcols : (typeLoop size triv 0 0 (zeros (L.map Rep.size).sum (trivials triv 0 L)) L).cols = (L.map (cnt triv)).sum := by
    rw [(typeLoop_shape size triv L _ _ _).2.1]
    show trivials triv 0 L = _
    rw [trivials_eq, zero_add]
  have hle : chanOffset (cnt triv) L k + cnt triv r ≤ (L.map (cnt triv)).sum := by
    rw [← chanOffset_succ (sz := cnt triv) hk]
    exact chanOffset_le L (k + 1)
  rw [expand, hcols]
  have hsub : ∀ j, (typeLoop size triv 0 0 (zeros (L.map Rep.size).sum (trivials triv 0 L)) L).get (chanOffset Rep.size L k + i) j =
      if chanOffset (cnt triv) L k ≤ j ∧ j < chanOffset (cnt triv) L k + cnt triv r then
        r.cob.get i ((idPos size triv 0 r.irreps).getD (j - chanOffset (cnt triv) L k) 0) else 0 := fun j => by
    have := typeLoop_get size triv L 0 0 (zeros (L.map Rep.size).sum (trivials triv 0 L)) k r hk i hi j
    simp only [zero_add] at this
    rw [this]; rfl
  simp only [hsub]
  rw [← Finset.sum_subset (s₁ := Finset.Ico (chanOffset (cnt triv) L k) (chanOffset (cnt triv) L k + cnt triv r))]
  · rw [Finset.sum_Ico_eq_sum_range]
    simp only [Nat.add_sub_cancel_left]
    refine Finset.sum_congr rfl fun t ht => ?_
    rw [if_pos ⟨by omega, by have := Finset.mem_range.1 ht; omega⟩]
  · intro j hj
    rw [Finset.mem_Ico] at hj
    exact Finset.mem_range.2 (by omega)
  · intro j _ hj
    rw [Finset.mem_Ico] at hj
    rw [if_neg hj, zero_mul]

end Bias

/-- The columns of `change_of_basis` of one copy of an irrep intertwine the irrep with the representation. -/
theorem cols_intertwine {H J' : Type} {El : H → Prop} {op : H → H → H} {one : H} {T : IrrepTable H J'} (hT : T.Valid El op one) {r : Rep H J'} (hr : r.WF T El)
    {k : ℕ} {j : J'} (hk : r.irreps[k]? = some j) {h : H} (hh : El h) : ∀ o < T.size j, ∀ y < r.size,
      ∑ z ∈ Finset.range r.size, (r.mat h).get y z * r.cob.get z (chanOffset T.size r.irreps k + o) =
        ∑ l ∈ Finset.range (T.size j), r.cob.get y (chanOffset T.size r.irreps k + l) * (T.mat j h).get l o := by
  intro o ho y hy
  have hok : ∀ i ∈ r.irreps, (T.mat i h).rows = T.size i ∧ (T.mat i h).cols = T.size i := fun i hi => ⟨(hT i (hr.ok i hi)).rows h hh, (hT i (hr.ok i hi)).cols h hh⟩
  obtain ⟨hbr, hbc⟩ := blockDiag_map_size (ρ := fun i => T.mat i h) hok
  have hsz := hr.size
  have hm := hr.mat h hh
  have hcc : r.cob.cols = r.size := hr.cob_cols
  have hE : mul (r.mat h) r.cob ≈ mul r.cob (blockDiag (r.irreps.map fun i => T.mat i h)) := by
    refine (mul_congr_left _ hm (by rw [hr.cols hh]; rfl)).trans ?_
    refine (mul_assoc' _ _ _).trans ?_
    refine (mul_congr_right _ hr.inv.2.2.2.2 (by show (blockDiag _).cols = r.cobInv.rows; rw [hr.inv_rows, hbc, hsz])).trans ?_
    exact mul_eye' _ (by show (blockDiag _).cols = _; rw [hbc, hsz]; rfl)
  have hoff := chanOffset_lt (sz := T.size) hk ho
  have := hE.2.2 y (chanOffset T.size r.irreps k + o) (by show y < (r.mat h).rows; rw [hr.rows hh]; exact hy) (by show _ < r.cob.cols; rw [hcc, ← hsz]; exact hoff)
  change ∑ z ∈ Finset.range (r.mat h).cols, _ = ∑ z ∈ Finset.range r.cob.cols, _ at this
  rw [hr.cols hh, hcc, ← hsz, blockDiag_col hok hk ho (fun x => r.cob.get y x)] at this
  rw [← hsz]
  exact this

end Escnn
