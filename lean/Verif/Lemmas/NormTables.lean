import Verif.Model.NormTables
import Verif.Props.C41_Bias

/-!
# The projection on the trivial irreps and the invariant vectors
-/

namespace Escnn

open NpMat RWE

/-- The rows of `change_of_basis_inv` of one copy of an irrep intertwine the representation with the irrep. -/
theorem rows_intertwine {H J' : Type} {El : H → Prop} {op : H → H → H} {one : H} {T : IrrepTable H J'} (hT : T.Valid El op one) {r : Rep H J'} (hr : r.WF T El)
    {k : ℕ} {j : J'} (hk : r.irreps[k]? = some j) {h : H} (hh : El h) : ∀ o < T.size j, ∀ y < r.size,
      ∑ z ∈ Finset.range r.size, r.cobInv.get (chanOffset T.size r.irreps k + o) z * (r.mat h).get z y =
        ∑ l ∈ Finset.range (T.size j), (T.mat j h).get o l * r.cobInv.get (chanOffset T.size r.irreps k + l) y := by
  intro o ho y hy
  have hok : ∀ i ∈ r.irreps, (T.mat i h).rows = T.size i ∧ (T.mat i h).cols = T.size i := fun i hi => ⟨(hT i (hr.ok i hi)).rows h hh, (hT i (hr.ok i hi)).cols h hh⟩
  obtain ⟨hbr, hbc⟩ := blockDiag_map_size (ρ := fun i => T.mat i h) hok
  have hsz := hr.size
  have hm := hr.mat h hh
  have hcc : r.cob.cols = r.size := hr.cob_cols
  have hE : mul r.cobInv (r.mat h) ≈ mul (blockDiag (r.irreps.map fun i => T.mat i h)) r.cobInv := by
    refine (mul_congr_right _ hm (by rw [hr.inv_cols, hr.rows hh])).trans ?_
    refine (mul_assoc' _ _ _).symm.trans ?_
    refine mul_congr_left _ ?_ (by rw [hr.inv_rows]; show (blockDiag _).cols = _; rw [hbc, hsz])
    refine (mul_assoc' _ _ _).symm.trans ?_
    refine (mul_congr_left _ hr.inv.2.2.2.2 (by show r.cob.cols = (blockDiag _).rows; rw [hcc, hbr, hsz])).trans ?_
    have : r.cob.rows = (blockDiag (r.irreps.map fun i => T.mat i h)).rows := by rw [hbr, hsz]; rfl
    rw [this]
    exact eye_mul _
  have hoff := chanOffset_lt (sz := T.size) hk ho
  have := hE.2.2 (chanOffset T.size r.irreps k + o) y (by show _ < r.cobInv.rows; rw [hr.inv_rows, ← hsz]; exact hoff) (by show y < (r.mat h).cols; rw [hr.cols hh]; exact hy)
  change ∑ z ∈ Finset.range r.cobInv.cols, _ = ∑ z ∈ Finset.range (blockDiag _).cols, _ at this
  rw [hr.inv_cols, hbc, blockDiag_row hok hk ho (fun x => r.cobInv.get x y)] at this
  exact this

namespace NormTab

variable {G Id : Type} [DecidableEq Id] {El : G → Prop} {op : G → G → G} {one : G} {T : IrrepTable G Id} {triv : Id} {r : Rep G Id}

theorem mem_trivPos (ht : T.IsTrivial El triv) (hr : r.WF T El) {p : ℕ} (hp : p ∈ trivPos T.size triv r) : ∃ k, r.irreps[k]? = some triv ∧ p = chanOffset T.size r.irreps k ∧ p < r.size := by
  obtain ⟨k, h1, h2⟩ := idPos_mem T.size triv r.irreps 0 p hp
  rw [zero_add] at h2
  refine ⟨k, h1, h2, ?_⟩
  have := chanOffset_lt (sz := T.size) h1 (o := 0) (by rw [ht.size]; exact one_pos)
  rw [hr.size] at this
  omega

theorem cob_triv (hT : T.Valid El op one) (ht : T.IsTrivial El triv) (hr : r.WF T El) {p : ℕ} (hp : p ∈ trivPos T.size triv r) {g : G} (hg : El g) {y : ℕ} (hy : y < r.size) :
    ∑ z ∈ Finset.range r.size, (r.mat g).get y z * r.cob.get z p = r.cob.get y p := by
  obtain ⟨k, h1, rfl, -⟩ := mem_trivPos ht hr hp
  have h := cols_intertwine hT hr h1 hg 0 (by rw [ht.size]; norm_num) y hy
  rw [ht.size, Finset.sum_range_one, ht.mat g hg, mul_one, add_zero] at h
  exact h

theorem cobInv_triv (hT : T.Valid El op one) (ht : T.IsTrivial El triv) (hr : r.WF T El) {p : ℕ} (hp : p ∈ trivPos T.size triv r) {g : G} (hg : El g) {y : ℕ} (hy : y < r.size) :
    ∑ z ∈ Finset.range r.size, r.cobInv.get p z * (r.mat g).get z y = r.cobInv.get p y := by
  obtain ⟨k, h1, rfl, -⟩ := mem_trivPos ht hr hp
  have h := rows_intertwine hT hr h1 hg 0 (by rw [ht.size]; norm_num) y hy
  rw [ht.size, Finset.sum_range_one, ht.mat g hg, one_mul, add_zero] at h
  exact h

theorem avg_cols (hr : r.WF T El) : (of T.size triv r).avg.cols = r.size := hr.inv_cols

theorem avg_get (hr : r.WF T El) (i l : ℕ) :
    (of T.size triv r).avg.get i l = ∑ k ∈ Finset.range r.size, if k ∈ trivPos T.size triv r then r.cob.get i k * r.cobInv.get k l else 0 := by
  show ∑ k ∈ Finset.range r.size, (∑ m ∈ Finset.range r.cob.cols, r.cob.get i m * (if m = k ∧ m ∈ trivPos T.size triv r then 1 else 0)) * r.cobInv.get k l = _
  refine Finset.sum_congr rfl fun k hk => ?_
  rw [hr.cob_cols, Finset.sum_eq_single_of_mem k hk fun m _ hm => by rw [if_neg fun h => hm h.1, mul_zero]]
  by_cases h : k ∈ trivPos T.size triv r <;> simp [h]

/-- The image of `P` is fixed by the representation. -/
theorem avg_left (hT : T.Valid El op one) (ht : T.IsTrivial El triv) (hr : r.WF T El) {g : G} (hg : El g) {i : ℕ} (hi : i < r.size) (l : ℕ) :
    ∑ z ∈ Finset.range r.size, (r.mat g).get i z * (of T.size triv r).avg.get z l = (of T.size triv r).avg.get i l := by
  simp only [avg_get hr, Finset.mul_sum]
  rw [Finset.sum_comm]
  refine Finset.sum_congr rfl fun k _ => ?_
  by_cases h : k ∈ trivPos T.size triv r
  · simp only [h, if_true]
    rw [← cob_triv hT ht hr h hg hi, Finset.sum_mul]
    exact Finset.sum_congr rfl fun z _ => by ring
  · simp [h]

/-- `P` does not change if the representation acts first. -/
theorem avg_right (hT : T.Valid El op one) (ht : T.IsTrivial El triv) (hr : r.WF T El) {g : G} (hg : El g) (i : ℕ) {l : ℕ} (hl : l < r.size) :
    ∑ z ∈ Finset.range r.size, (of T.size triv r).avg.get i z * (r.mat g).get z l = (of T.size triv r).avg.get i l := by
  simp only [avg_get hr, Finset.sum_mul]
  rw [Finset.sum_comm]
  refine Finset.sum_congr rfl fun k _ => ?_
  by_cases h : k ∈ trivPos T.size triv r
  · simp only [h, if_true]
    rw [← cobInv_triv hT ht hr h hg hl, Finset.mul_sum]
    exact Finset.sum_congr rfl fun z _ => by ring
  · simp [h]

/-- The projection is fixed by the representation. -/
theorem mean_fixed (hT : T.Valid El op one) (ht : T.IsTrivial El triv) (hr : r.WF T El) {g : G} (hg : El g) (v : ℕ → ℝ) {i : ℕ} (hi : i < r.size) :
    ∑ z ∈ Finset.range r.size, (r.mat g).get i z * (of T.size triv r).mean v z = (of T.size triv r).mean v i := by
  unfold mean
  by_cases h : (of T.size triv r).has = true
  · simp only [h, if_true, Finset.mul_sum]
    rw [Finset.sum_comm]
    refine Finset.sum_congr rfl fun j _ => ?_
    rw [← avg_left hT ht hr hg hi j, Finset.sum_mul]
    exact Finset.sum_congr rfl fun z _ => by ring
  · simp [h]

/-- The projection of a transformed vector is the projection of the vector. -/
theorem mean_act (hT : T.Valid El op one) (ht : T.IsTrivial El triv) (hr : r.WF T El) {g : G} (hg : El g) {v w : ℕ → ℝ}
    (hw : ∀ o < r.size, w o = ∑ j ∈ Finset.range r.size, (r.mat g).get o j * v j) (i : ℕ) : (of T.size triv r).mean w i = (of T.size triv r).mean v i := by
  unfold mean
  by_cases h : (of T.size triv r).has = true
  · simp only [h, if_true, avg_cols hr]
    rw [Finset.sum_congr rfl fun j hj => by rw [hw j (Finset.mem_range.1 hj), Finset.mul_sum], Finset.sum_comm]
    refine Finset.sum_congr rfl fun j hj => ?_
    rw [← avg_right hT ht hr hg i (Finset.mem_range.1 hj), Finset.sum_mul]
    exact Finset.sum_congr rfl fun z _ => by ring
  · simp [h]

/-- The expanded bias is fixed by the representation. -/
theorem shift_fixed (hT : T.Valid El op one) (ht : T.IsTrivial El triv) (hr : r.WF T El) {g : G} (hg : El g) (affine : Bool) (β : ℕ → ℝ) {i : ℕ} (hi : i < r.size) :
    ∑ z ∈ Finset.range r.size, (r.mat g).get i z * (of T.size triv r).shift affine β z = (of T.size triv r).shift affine β i := by
  unfold shift
  by_cases h : affine = true ∧ (of T.size triv r).has = true
  · simp only [h, and_self, if_true, Finset.mul_sum]
    rw [Finset.sum_comm]
    refine Finset.sum_congr rfl fun c hc => ?_
    have hc : c < (trivPos T.size triv r).length := Finset.mem_range.1 hc
    have hm : (trivPos T.size triv r).getD c 0 ∈ trivPos T.size triv r := by
      rw [List.getD_eq_getElem _ _ hc]
      exact List.getElem_mem hc
    have := cob_triv hT ht hr hm hg hi
    show _ = r.cob.get i _ * β c
    rw [← this, Finset.sum_mul]
    exact Finset.sum_congr rfl fun z _ => by show _ * (r.cob.get z _ * β c) = _; ring
  · simp [h]

/-- A vector which the representation fixes is its own projection, if the irreps other than the trivial one have no invariant vectors. -/
theorem mean_of_fixed (hT : T.Valid El op one) (ht : T.IsTrivial El triv) (hn : T.NoInvariants El triv) (hr : r.WF T El) {v : ℕ → ℝ}
    (hv : ∀ g, El g → ∀ i < r.size, ∑ z ∈ Finset.range r.size, (r.mat g).get i z * v z = v i) {i : ℕ} (hi : i < r.size) : (of T.size triv r).mean v i = v i := by
  have hu : ∀ p < r.size, p ∉ trivPos T.size triv r → ∑ z ∈ Finset.range r.size, r.cobInv.get p z * v z = 0 := by
    intro p hp hpt
    have hp' : p < (r.irreps.map T.size).sum := by rw [hr.size]; exact hp
    obtain ⟨k, j, o, hk, ho, rfl⟩ := exists_field hp'
    have hj : j ≠ triv := by
      rintro rfl
      refine hpt ?_
      have ho0 : o = 0 := by rw [ht.size] at ho; omega
      have : ∀ (L : List Id) (q k : ℕ), L[k]? = some j → q + chanOffset T.size L k ∈ idPos T.size j q L := by
        intro L
        induction L with
        | nil => intro q k h; simp at h
        | cons a L ih =>
          intro q k h
          rw [idPos]
          cases k with
          | zero =>
            obtain rfl : a = j := by simpa using h
            simp [chanOffset_zero]
          | succ k =>
            have := ih (q + T.size a) k (by simpa using h)
            rw [chanOffset_cons_succ, ← add_assoc]
            split_ifs
            · exact List.mem_cons_of_mem _ this
            · exact this
      have := this r.irreps 0 k hk
      rw [zero_add] at this
      rw [ho0, add_zero]
      exact this
    refine hn j (hr.ok j (List.mem_of_getElem? hk)) hj (fun a => ∑ z ∈ Finset.range r.size, r.cobInv.get (chanOffset T.size r.irreps k + a) z * v z) (fun g hg a ha => ?_) o ho
    simp only [Finset.mul_sum]
    rw [Finset.sum_comm]
    have e : ∀ y ∈ Finset.range r.size, ∑ x ∈ Finset.range (T.size j), (T.mat j g).get a x * (r.cobInv.get (chanOffset T.size r.irreps k + x) y * v y) =
        ∑ z ∈ Finset.range r.size, r.cobInv.get (chanOffset T.size r.irreps k + a) z * (r.mat g).get z y * v y := fun y hy => by
      rw [← Finset.sum_mul, rows_intertwine hT hr hk hg a ha y (Finset.mem_range.1 hy), Finset.sum_mul]
      exact Finset.sum_congr rfl fun z _ => by ring
    rw [Finset.sum_congr rfl e, Finset.sum_comm]
    refine Finset.sum_congr rfl fun z hz => ?_
    rw [← hv g hg z (Finset.mem_range.1 hz), Finset.mul_sum]
    exact Finset.sum_congr rfl fun y _ => by ring
  have hid : ∑ k ∈ Finset.range r.size, r.cob.get i k * ∑ z ∈ Finset.range r.size, r.cobInv.get k z * v z = v i := by
    have h1 := hr.inv.2.2.2.1
    simp only [Finset.mul_sum]
    rw [Finset.sum_comm]
    have e : ∀ z ∈ Finset.range r.size, ∑ k ∈ Finset.range r.size, r.cob.get i k * (r.cobInv.get k z * v z) = if i = z then v z else 0 := fun z hz => by
      have := h1.2.2 i z hi (by show z < r.cobInv.cols; rw [hr.inv_cols]; exact Finset.mem_range.1 hz)
      change ∑ k ∈ Finset.range r.cob.cols, _ = if i = z then (1 : ℝ) else 0 at this
      rw [hr.cob_cols] at this
      rw [Finset.sum_congr rfl fun k _ => (mul_assoc (r.cob.get i k) _ _).symm, ← Finset.sum_mul, this]
      split_ifs <;> simp
    rw [Finset.sum_congr rfl e, Finset.sum_ite_eq, if_pos (Finset.mem_range.2 hi)]
  have hsum : ∑ j ∈ Finset.range r.size, (of T.size triv r).avg.get i j * v j = v i := by
    simp only [avg_get hr, Finset.sum_mul]
    rw [Finset.sum_comm]
    conv_rhs => rw [← hid]
    refine Finset.sum_congr rfl fun k hk => ?_
    by_cases h : k ∈ trivPos T.size triv r
    · simp only [h, if_true, Finset.mul_sum]
      exact Finset.sum_congr rfl fun z _ => by ring
    · simp [h, hu k (Finset.mem_range.1 hk) h]
  unfold mean
  by_cases h : (of T.size triv r).has = true
  · rw [if_pos h, avg_cols hr, hsum]
  · rw [if_neg h]
    have h0 : trivPos T.size triv r = [] := by
      have : ¬ 0 < (trivPos T.size triv r).length := by simpa [has, of] using h
      exact List.eq_nil_of_length_eq_zero (by omega)
    rw [← hid]
    exact (Finset.sum_eq_zero fun k hk => by rw [hu k (Finset.mem_range.1 hk) (by rw [h0]; simp), mul_zero]).symm

end NormTab

end Escnn
