import Verif.Model.HomSpace
import Verif.Props.C17_Induced

/-!
# Sums over the orbit of a point, and the positions returned by `np.unique`
-/

namespace Escnn

open NpMat

theorem appVec_mul (A B : NpMat ℝ) (v : ℕ → ℝ) (a : ℕ) : appVec (mul A B) v a = appVec A (appVec B v) a := by
  show ∑ b ∈ Finset.range B.cols, (∑ k ∈ Finset.range A.cols, A.get a k * B.get k b) * v b = ∑ k ∈ Finset.range A.cols, A.get a k * ∑ b ∈ Finset.range B.cols, B.get k b * v b
  simp only [Finset.sum_mul, Finset.mul_sum]
  rw [Finset.sum_comm]
  exact Finset.sum_congr rfl fun _ _ => Finset.sum_congr rfl fun _ _ => by ring

theorem appVec_congr {A B : NpMat ℝ} (h : A ≈ B) (v : ℕ → ℝ) {a : ℕ} (ha : a < A.rows) : appVec A v a = appVec B v a := by
  rw [appVec, appVec, ← h.2.1]
  exact Finset.sum_congr rfl fun b hb => by rw [h.2.2 a b ha (Finset.mem_range.1 hb)]

theorem appVec_congr_right (A : NpMat ℝ) {v w : ℕ → ℝ} (h : ∀ b < A.cols, v b = w b) (a : ℕ) : appVec A v a = appVec A w a :=
  Finset.sum_congr rfl fun b hb => by rw [h b (Finset.mem_range.1 hb)]

theorem appVec_sub (A : NpMat ℝ) (v w : ℕ → ℝ) (a : ℕ) : appVec A v a - appVec A w a = appVec A (fun b => v b - w b) a := by
  rw [appVec, appVec, appVec, ← Finset.sum_sub_distrib]
  exact Finset.sum_congr rfl fun b _ => by ring

theorem appVec_eye {d a : ℕ} (v : ℕ → ℝ) (ha : a < d) : appVec (eye d) v a = v a := by
  rw [appVec, eye_cols, Finset.sum_eq_single a]
  · simp [eye]
  · intro b _ hb; simp [eye, Ne.symm hb]
  · intro h; exact absurd (Finset.mem_range.2 ha) h

theorem appVec_normSq {A : NpMat ℝ} {d : ℕ} (hA : IsOrtho A) (hd : A.rows = d) (v : ℕ → ℝ) : ∑ a ∈ Finset.range d, appVec A v a ^ 2 = ∑ a ∈ Finset.range d, v a ^ 2 := by
  have hc : A.cols = d := hA.1.symm.trans hd
  have h1 : ∀ b b', b < d → b' < d → ∑ a ∈ Finset.range d, A.get a b * A.get a b' = if b = b' then 1 else 0 := by
    intro b b' hb hb'
    have := hA.2.2.2.2 b b' (by simpa [hc] using hb) (by simpa [hc] using hb')
    simp only [mul, transpose, eye] at this
    rw [hd] at this
    exact this
  calc ∑ a ∈ Finset.range d, appVec A v a ^ 2 = ∑ a ∈ Finset.range d, ∑ b ∈ Finset.range d, ∑ b' ∈ Finset.range d, v b * v b' * (A.get a b * A.get a b') := by
        refine Finset.sum_congr rfl fun a _ => ?_
        rw [appVec, hc, pow_two, Finset.sum_mul_sum]
        exact Finset.sum_congr rfl fun b _ => Finset.sum_congr rfl fun b' _ => by ring
    _ = ∑ b ∈ Finset.range d, ∑ b' ∈ Finset.range d, v b * v b' * ∑ a ∈ Finset.range d, A.get a b * A.get a b' := by
        rw [Finset.sum_comm]
        refine Finset.sum_congr rfl fun b _ => ?_
        rw [Finset.sum_comm]
        exact Finset.sum_congr rfl fun b' _ => by rw [Finset.mul_sum]
    _ = ∑ b ∈ Finset.range d, v b ^ 2 := by
        refine Finset.sum_congr rfl fun b hb => ?_
        rw [Finset.sum_congr rfl fun b' hb' => by rw [h1 b b' (Finset.mem_range.1 hb) (Finset.mem_range.1 hb')]]
        rw [Finset.sum_eq_single b]
        · simp [pow_two]
        · intro b' _ hb'; simp [Ne.symm hb']
        · intro h; exact absurd hb h

theorem sum_map_range {α : Type} (F : α → ℝ) (z : α) : ∀ L : List α, (L.map F).sum = ∑ i ∈ Finset.range L.length, F (L.getD i z)
  | [] => by simp
  | x :: L => by
    rw [List.map_cons, List.sum_cons, sum_map_range F z L, List.length_cons, Finset.sum_range_succ', add_comm]
    simp

section
variable {G H : Type} {els : List G} {mulG : G → G → G} {invG : G → G} {oneG : G} {hels : List H} {mulH : H → H → H} {invH : H → H} {oneH : H}
  {parent : H → G} {child : G → Option H}

theorem cosetList_perm (hH : hels.Nodup) (hI : Inclusion (· ∈ els) mulG invG oneG (· ∈ hels) mulH invH oneH parent child)
    {reps : List G} (hreps : ∀ r ∈ reps, r ∈ els) (hd : reps.Pairwise fun a b => ¬ CosetRel mulG (· ∈ hels) parent a b)
    (hn : els.length = reps.length * hels.length) : (cosetList mulG parent hels reps).Perm els := by
  have hsub : cosetList mulG parent hels reps ⊆ els := by
    intro x hx
    obtain ⟨r, hr, hx⟩ := List.mem_flatMap.1 hx
    obtain ⟨h, hh, rfl⟩ := List.mem_map.1 hx
    exact hI.groupG.mul_mem _ _ (hreps r hr) (hI.mem h hh)
  exact ((cosetList_nodup hH hI hreps hd).subperm hsub).perm_of_length_le (by rw [cosetList_length, hn])

theorem cosetList_sum {F : G → ℝ} (hF : ∀ a ∈ els, ∀ h ∈ hels, F (mulG a (parent h)) = F a) : ∀ reps : List G, (∀ r ∈ reps, r ∈ els) →
    ((cosetList mulG parent hels reps).map F).sum = hels.length * (reps.map F).sum
  | [], _ => by simp [cosetList]
  | r :: L, hr => by
    have : cosetList mulG parent hels (r :: L) = hels.map (fun h => mulG r (parent h)) ++ cosetList mulG parent hels L := List.flatMap_cons
    rw [this, List.map_append, List.sum_append, cosetList_sum hF L (fun x hx => hr x (by simp [hx])), List.map_map, List.map_cons, List.sum_cons, mul_add]
    congr 1
    rw [List.map_congr_left (f := F ∘ fun h => mulG r (parent h)) (g := fun _ => F r) fun h hh => hF r (hr r (by simp)) h hh]
    simp

/-- The sum over one representative per coset of a function which is constant on the cosets does not change if the argument is multiplied by an element. -/
theorem orbit_sum (hG : els.Nodup) (hH : hels.Nodup) (hI : Inclusion (· ∈ els) mulG invG oneG (· ∈ hels) mulH invH oneH parent child)
    {reps : List G} (hreps : ∀ r ∈ reps, r ∈ els) (hd : reps.Pairwise fun a b => ¬ CosetRel mulG (· ∈ hels) parent a b)
    (hn : els.length = reps.length * hels.length) {F : G → ℝ} (hF : ∀ a ∈ els, ∀ h ∈ hels, F (mulG a (parent h)) = F a) {g : G} (hg : g ∈ els) :
    (reps.map fun r => F (mulG g r)).sum = (reps.map F).sum := by
  have hp := cosetList_perm hH hI hreps hd hn
  have hF' : ∀ a ∈ els, ∀ h ∈ hels, F (mulG g (mulG a (parent h))) = F (mulG g a) := fun a ha h hh => by
    rw [← hI.groupG.assoc _ _ _ hg ha (hI.mem h hh)]
    exact hF _ (hI.groupG.mul_mem _ _ hg ha) h hh
  have e1 := cosetList_sum hF reps hreps
  have e2 := cosetList_sum (F := fun r => F (mulG g r)) hF' reps hreps
  rw [(hp.map F).sum_eq] at e1
  rw [(hp.map _).sum_eq] at e2
  have hperm : (els.map (mulG g)).Perm els := by
    refine ((List.Nodup.map_on (fun a ha b hb e => hI.groupG.cancel_left hg ha hb e) hG).subperm ?_).perm_of_length_le (by simp)
    intro x hx
    obtain ⟨a, ha, rfl⟩ := List.mem_map.1 hx
    exact hI.groupG.mul_mem _ _ hg ha
  have e3 : (els.map fun r => F (mulG g r)).sum = (els.map F).sum := by
    rw [← (hperm.map F).sum_eq, List.map_map]; rfl
  have hpos : (0 : ℝ) < hels.length := by exact_mod_cast List.length_pos_of_mem hI.groupH.one_mem
  rw [e3, e1] at e2
  exact (mul_left_cancel₀ hpos.ne' e2).symm

end

section
variable {K : Type} {le : K → K → Bool} {keys : List K}

open Classical in
theorem mem_uniqueIdx {i : ℕ} : i ∈ uniqueIdx le keys ↔ i < keys.length ∧ ∀ k < i, keys[k]? ≠ keys[i]? := by
  rw [uniqueIdx, List.mem_mergeSort, List.mem_filter, List.mem_range, decide_eq_true_eq]

theorem uniqueIdx_nodup : (uniqueIdx le keys).Nodup :=
  ((List.mergeSort_perm _ _).nodup_iff).2 (List.nodup_range.filter _)

theorem uniqueIdx_inj {i k : ℕ} (hi : i ∈ uniqueIdx le keys) (hk : k ∈ uniqueIdx le keys) (h : keys[i]? = keys[k]?) : i = k := by
  rcases Nat.lt_trichotomy i k with hlt | heq | hgt
  · exact absurd h ((mem_uniqueIdx.1 hk).2 i hlt)
  · exact heq
  · exact absurd h.symm ((mem_uniqueIdx.1 hi).2 k hgt)

theorem uniqueIdx_complete {i : ℕ} (hi : i < keys.length) : ∃ k ∈ uniqueIdx le keys, keys[k]? = keys[i]? := by
  classical
  have hex : ∃ k, keys[k]? = keys[i]? := ⟨i, rfl⟩
  refine ⟨Nat.find hex, mem_uniqueIdx.2 ⟨lt_of_le_of_lt (Nat.find_min' hex rfl) hi, fun k hk h => Nat.find_min hex hk (h.trans (Nat.find_spec hex))⟩, Nat.find_spec hex⟩

end

end Escnn
