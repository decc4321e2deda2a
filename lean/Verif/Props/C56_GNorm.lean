import Verif.Model.GNormBatchNorm
import Verif.Lemmas.NormTables
import Verif.Lemmas.StatLoop
import Verif.Lemmas.BatchStat
import Verif.Props.C56_IID

/-!
# C56: the running statistics and the outputs of GNormBatchNorm
-/

namespace Escnn

open Finset

variable {S G Id C : Type} {El : G → Prop} {op : G → G → G} {one : G} {T : IrrepTable G Id} {triv : Id}

/-- A representation commutes with the change of basis: it acts on the coordinates irrep by irrep. -/
theorem cob_blocks (hT : T.Valid El op one) {r : Rep G Id} (hr : r.WF T El) {g : G} (hg : El g) {u w : ℕ → ℝ}
    (hw : ∀ (k : ℕ) j, r.irreps[k]? = some j → ∀ o < T.size j, w (chanOffset T.size r.irreps k + o) = ∑ l ∈ range (T.size j), (T.mat j g).get o l * u (chanOffset T.size r.irreps k + l))
    {y : ℕ} (hy : y < r.size) :
    ∑ s ∈ range r.size, r.cob.get y s * w s = ∑ z ∈ range r.size, (r.mat g).get y z * ∑ s ∈ range r.size, r.cob.get z s * u s := by
  have hok : ∀ i ∈ r.irreps, (T.mat i g).rows = T.size i ∧ (T.mat i g).cols = T.size i := fun i hi => ⟨(hT i (hr.ok i hi)).rows g hg, (hT i (hr.ok i hi)).cols g hg⟩
  have e1 : ∀ s ∈ range r.size, w s = ∑ x ∈ range r.size, (NpMat.blockDiag (r.irreps.map fun i => T.mat i g)).get s x * u x := by
    intro s hs
    have hs' : s < (r.irreps.map T.size).sum := by rw [hr.size]; exact mem_range.1 hs
    obtain ⟨k, j, o, hk, ho, rfl⟩ := exists_field hs'
    rw [hw k j hk o ho, ← hr.size, blockDiag_row hok hk ho u]
  rw [sum_congr rfl fun s hs => by rw [e1 s hs]]
  simp only [mul_sum]
  conv_lhs => rw [sum_comm]
  conv_rhs => rw [sum_comm]
  have e2 : ∀ s ∈ range r.size, ∑ z ∈ range r.size, (r.mat g).get y z * r.cob.get z s = ∑ x ∈ range r.size, r.cob.get y x * (NpMat.blockDiag (r.irreps.map fun i => T.mat i g)).get x s := by
    intro s hs
    have hs' : s < (r.irreps.map T.size).sum := by rw [hr.size]; exact mem_range.1 hs
    obtain ⟨k, j, o, hk, ho, rfl⟩ := exists_field hs'
    rw [cols_intertwine hT hr hk hg o ho y hy, ← hr.size, blockDiag_col hok hk ho fun x => r.cob.get y x]
  refine Eq.trans (sum_congr rfl fun s hs => ?_) ((sum_congr rfl fun s hs => ?_ : ∑ s ∈ range r.size, (∑ z ∈ range r.size, (r.mat g).get y z * r.cob.get z s) * u s = _))
  · rw [e2 s hs, sum_mul]
    exact sum_congr rfl fun x _ => by ring
  · rw [sum_mul]
    exact sum_congr rfl fun x _ => by ring

/-- The coordinates of a transformed vector in the basis of the irreps. -/
theorem coord_act (hT : T.Valid El op one) {r : Rep G Id} (hr : r.WF T El) {g : G} (hg : El g) {v w : ℕ → ℝ} (hw : ∀ o < r.size, w o = ∑ j ∈ range r.size, (r.mat g).get o j * v j)
    {k : ℕ} {j : Id} (hk : r.irreps[k]? = some j) {o : ℕ} (ho : o < T.size j) :
    ∑ s ∈ range r.size, r.cobInv.get (chanOffset T.size r.irreps k + o) s * w s =
      ∑ l ∈ range (T.size j), (T.mat j g).get o l * ∑ s ∈ range r.size, r.cobInv.get (chanOffset T.size r.irreps k + l) s * v s := by
  rw [sum_congr rfl fun s hs => by rw [hw s (mem_range.1 hs), mul_sum], sum_comm]
  simp only [mul_sum]
  rw [sum_comm (s := range (T.size j))]
  refine sum_congr rfl fun y hy => ?_
  have := rows_intertwine hT hr hk hg o ho y (mem_range.1 hy)
  refine Eq.trans (sum_congr rfl fun z _ => ?_ : _ = ∑ z ∈ range r.size, r.cobInv.get (chanOffset T.size r.irreps k + o) z * (r.mat g).get z y * v y) ?_
  · ring
  · rw [← sum_mul, this, sum_mul]
    exact sum_congr rfl fun z _ => by ring

namespace GNormTab

theorem aggLoop_get (size : Id → ℕ) (L : List Id) (p i : ℕ) (M : NpMat ℝ) (hM : ∀ a c, p ≤ a → M.get a c = 0) (k a : ℕ) (j : Id) (hk : L[k]? = some j) (ha : a < size j) (c : ℕ) :
    (aggLoop size p i L M).get (p + chanOffset size L k + a) c = if c = i + k then 1 / (size j : ℝ) else 0 := by
  have hlow : ∀ (L : List Id) (p i : ℕ) (M : NpMat ℝ) (a c : ℕ), a < p → (aggLoop size p i L M).get a c = M.get a c := by
    intro L
    induction L with
    | nil => intro p i M a c _; rfl
    | cons j L ih =>
      intro p i M a c ha
      rw [aggLoop, ih _ _ _ _ _ (by omega)]
      simp only [setShare]
      rw [if_neg (by omega)]
  induction L generalizing p i M k with
  | nil => simp at hk
  | cons j0 L ih =>
    rw [aggLoop]
    cases k with
    | zero =>
      simp only [List.getElem?_cons_zero, Option.some.injEq] at hk
      subst hk
      rw [show chanOffset size (j0 :: L) 0 = 0 by simp [chanOffset], Nat.add_zero, hlow _ _ _ _ _ _ (by omega)]
      simp only [setShare]
      by_cases hc : c = i
      · rw [if_pos ⟨by omega, by omega, hc⟩, if_pos (by omega)]
      · rw [if_neg (fun h => hc h.2.2), hM _ _ (by omega), if_neg (by omega)]
    | succ k =>
      rw [List.getElem?_cons_succ] at hk
      have := ih (p + size j0) (i + 1) (setShare M p (size j0) i) (fun a c ha => by
        simp only [setShare]
        rw [if_neg (by omega), hM _ _ (by omega)]) k hk
      rw [chanOffset_cons_succ, ← Nat.add_assoc, this]
      exact if_congr (by omega) rfl rfl

theorem aggLoop_rows (size : Id → ℕ) (L : List Id) (p i : ℕ) (M : NpMat ℝ) : (aggLoop size p i L M).rows = M.rows := by
  induction L generalizing p i M with
  | nil => rfl
  | cons j L ih => rw [aggLoop, ih]; rfl

variable [DecidableEq Id] {r : Rep G Id}

theorem agg_get {k a : ℕ} {j : Id} (hk : r.irreps[k]? = some j) (ha : a < T.size j) (c : ℕ) :
    (of T.size triv r).agg.get (chanOffset T.size r.irreps k + a) c = if c = k then 1 / (T.size j : ℝ) else 0 := by
  have := aggLoop_get T.size r.irreps 0 0 (NpMat.zeros r.size r.irreps.length) (fun _ _ _ => rfl) k a j hk ha c
  simpa [of] using this

theorem agg_rows : (of T.size triv r).agg.rows = r.size := aggLoop_rows _ _ _ _ _

theorem prop_get {k a : ℕ} {j : Id} (hk : r.irreps[k]? = some j) (ha : a < T.size j) (c : ℕ) :
    (of T.size triv r).prop.get (chanOffset T.size r.irreps k + a) c = if c = k then 1 else 0 := by
  show (if 0 < (of T.size triv r).agg.get (chanOffset T.size r.irreps k + a) c then (1 : ℝ) else 0) = _
  rw [agg_get hk ha]
  have : (0 : ℝ) < 1 / T.size j := by
    have : (0 : ℝ) < T.size j := by exact_mod_cast (show 0 < T.size j by omega)
    positivity
  by_cases hc : c = k
  · simp only [hc, if_true]
    rw [if_pos this]
  · simp [hc]

theorem sum_agg (hr : r.WF T El) {k : ℕ} {j : Id} (hk : r.irreps[k]? = some j) (F : ℕ → ℝ) :
    ∑ o ∈ range r.size, (of T.size triv r).agg.get o k * F o = (∑ l ∈ range (T.size j), F (chanOffset T.size r.irreps k + l)) / T.size j := by
  have hsub : Finset.Ico (chanOffset T.size r.irreps k) (chanOffset T.size r.irreps k + T.size j) ⊆ range r.size := by
    intro o ho
    rw [Finset.mem_Ico] at ho
    have := chanOffset_succ (sz := T.size) hk
    have h2 := chanOffset_le (sz := T.size) r.irreps (k + 1)
    rw [hr.size] at h2
    exact mem_range.2 (by omega)
  rw [← Finset.sum_subset hsub]
  · rw [Finset.sum_Ico_eq_sum_range, Nat.add_sub_cancel_left, sum_div]
    refine sum_congr rfl fun l hl => ?_
    rw [agg_get hk (mem_range.1 hl), if_pos rfl]
    ring
  · intro o ho ho'
    have ho2 : o < (r.irreps.map T.size).sum := by rw [hr.size]; exact mem_range.1 ho
    obtain ⟨k', j', a, hk', ha, rfl⟩ := exists_field ho2
    rw [agg_get hk' ha, if_neg, zero_mul]
    rintro rfl
    rw [hk] at hk'
    obtain rfl := Option.some.inj hk'
    exact ho' (Finset.mem_Ico.2 ⟨by omega, by omega⟩)

theorem sum_prop {k a : ℕ} {j : Id} (hk : r.irreps[k]? = some j) (ha : a < T.size j) (s : ℕ → ℝ) :
    ∑ i ∈ range (of T.size triv r).nirr, (of T.size triv r).prop.get (chanOffset T.size r.irreps k + a) i * s i = s k := by
  show ∑ i ∈ range r.irreps.length, _ = _
  rw [sum_eq_single_of_mem k (mem_range.2 (List.getElem?_eq_some_iff.1 hk).1) fun i _ hi => by rw [prop_get hk ha, if_neg hi, zero_mul], prop_get hk ha, if_pos rfl, one_mul]

theorem mem_trivials (ht : T.IsTrivial El triv) (hr : r.WF T El) {k a : ℕ} {j : Id} (hk : r.irreps[k]? = some j) (ha : a < T.size j) :
    chanOffset T.size r.irreps k + a ∈ (of T.size triv r).trivials ↔ j = triv := by
  constructor
  · intro h
    obtain ⟨k', h1, h2, -⟩ := NormTab.mem_trivPos ht hr h
    obtain ⟨rfl, -⟩ := field_unique hk h1 ha (o' := 0) (by rw [ht.size]; exact one_pos) h2
    rw [hk] at h1
    exact Option.some.inj h1
  · rintro rfl
    have ha0 : a = 0 := by rw [ht.size] at ha; omega
    have key : ∀ (L : List Id) (q k : ℕ), L[k]? = some j → q + chanOffset T.size L k ∈ RWE.idPos T.size j q L := by
      intro L
      induction L with
      | nil => intro q k h; simp at h
      | cons b L ih =>
        intro q k h
        rw [RWE.idPos]
        cases k with
        | zero =>
          obtain rfl : b = j := by simpa using h
          simp [chanOffset_zero]
        | succ k =>
          have := ih (q + T.size b) k (by simpa using h)
          rw [chanOffset_cons_succ, ← add_assoc]
          split_ifs
          · exact List.mem_cons_of_mem _ this
          · exact this
    have := key r.irreps 0 k hk
    rw [zero_add] at this
    rw [ha0, add_zero]
    exact this

theorem trivial_lt (ht : T.IsTrivial El triv) (hr : r.WF T El) (l : ℕ) : (of T.size triv r).trivials.getD l 0 < r.size := by
  by_cases h : l < (of T.size triv r).trivials.length
  · rw [List.getD_eq_getElem _ _ h]
    obtain ⟨-, -, -, h'⟩ := NormTab.mem_trivPos ht hr (List.getElem_mem h)
    exact h'
  · rw [List.getD_eq_default _ _ (by omega)]
    exact hr.pos

theorem getD_idxOf {L : List ℕ} {o : ℕ} (h : o ∈ L) : L.getD (L.idxOf o) 0 = o := by
  rw [List.getD_eq_getElem _ _ (List.idxOf_lt_length_of_mem h)]
  exact List.getElem_idxOf _

section

variable {B P P' : Type} [Fintype B] [Fintype P] [Fintype P']

theorem estimate_congr (ht : T.IsTrivial El triv) (hr : r.WF T El) {v w : B → ℕ → P → ℝ} (h : ∀ o < r.size, ∀ b p, v b o p = w b o p) : estimate (of T.size triv r) v = estimate (of T.size triv r) w := by
  have h1 : ∀ l, (batchMean fun b p => v b ((of T.size triv r).trivials.getD l 0) p) = batchMean fun b p => w b ((of T.size triv r).trivials.getD l 0) p := fun l =>
    batchMean_congr fun b p => h _ (trivial_lt ht hr l) b p
  have h2 : ∀ o < r.size, raw (of T.size triv r) v o = raw (of T.size triv r) w o := by
    intro o ho
    unfold raw
    rw [batchMean_congr (w := fun b p => w b o p ^ 2) fun b p => by rw [h o ho], h1]
  unfold estimate
  simp only [h1]
  congr 1
  funext i
  rw [agg_rows, sum_congr rfl fun o ho => by rw [h2 o (mem_range.1 ho)]]

theorem update_congr (ht : T.IsTrivial El triv) (hr : r.WF T El) (track training : Bool) (f : ℝ) (a : GNormStat) {v w : B → ℕ → P → ℝ} (h : ∀ o < r.size, ∀ b p, v b o p = w b o p) :
    update (of T.size triv r) track training f a v = update (of T.size triv r) track training f a w := by
  unfold update
  rw [estimate_congr ht hr h]

theorem used_congr (ht : T.IsTrivial El triv) (hr : r.WF T El) (track training : Bool) (a : GNormStat) {v w : B → ℕ → P → ℝ} (h : ∀ o < r.size, ∀ b p, v b o p = w b o p) :
    used (of T.size triv r) track training a v = used (of T.size triv r) track training a w := by
  unfold used
  rw [estimate_congr ht hr h]

theorem batchSq_nonneg (v : B → P → ℝ) : 0 ≤ batchMean fun b p => v b p ^ 2 := by
  unfold batchMean
  positivity

/-- The statistics of a batch whose irreps are transformed. -/
theorem estimate_act (hT : T.Valid El op one) (ht : T.IsTrivial El triv) (hr : r.WF T El) {g : G} (hg : El g) (σ : P' ≃ P) {u : B → ℕ → P → ℝ} {w : B → ℕ → P' → ℝ}
    (hw : ∀ b p (k : ℕ) j, r.irreps[k]? = some j → ∀ o < T.size j, w b (chanOffset T.size r.irreps k + o) p = ∑ l ∈ range (T.size j), (T.mat j g).get o l * u b (chanOffset T.size r.irreps k + l) (σ p)) :
    estimate (of T.size triv r) w = estimate (of T.size triv r) u := by
  have h0 : ∀ o ∈ (of T.size triv r).trivials, ∀ b p, w b o p = u b o (σ p) := by
    intro o ho b p
    obtain ⟨k, h1, rfl, -⟩ := NormTab.mem_trivPos ht hr ho
    have := hw b p k triv h1 0 (by rw [ht.size]; exact one_pos)
    rw [ht.size, sum_range_one, ht.mat g hg, one_mul, add_zero] at this
    exact this
  have hmean : ∀ o ∈ (of T.size triv r).trivials, (batchMean fun b p => w b o p) = batchMean fun b p => u b o p := by
    intro o ho
    rw [batchMean_congr fun b p => h0 o ho b p, batchMean_perm σ fun b p => u b o p]
  have hst : ∀ s s' : GNormStat, s.mean = s'.mean → s.var = s'.var → s = s' := by
    rintro ⟨⟩ ⟨⟩ h h'
    exact congr (congrArg _ h) h'
  refine hst _ _ (funext fun l => ?_) (funext fun i => ?_)
  · show (if l < (of T.size triv r).trivials.length then batchMean fun b p => w b ((of T.size triv r).trivials.getD l 0) p else 0) = if l < (of T.size triv r).trivials.length then _ else 0
    by_cases hl : l < (of T.size triv r).trivials.length
    · rw [if_pos hl, if_pos hl, hmean _ (by rw [List.getD_eq_getElem _ _ hl]; exact List.getElem_mem hl)]
    · rw [if_neg hl, if_neg hl]
  · rcases hj : r.irreps[i]? with _ | j
    · have hz : ∀ o ∈ range r.size, (of T.size triv r).agg.get o i = 0 := by
        intro o ho
        have ho' : o < (r.irreps.map T.size).sum := by rw [hr.size]; exact mem_range.1 ho
        obtain ⟨k, j, a, hk, ha, rfl⟩ := exists_field ho'
        rw [agg_get hk ha, if_neg]
        rintro rfl
        rw [hj] at hk
        cases hk
      unfold estimate
      simp only [agg_rows]
      have hs : ∀ F : ℕ → ℝ, ∑ o ∈ range r.size, (of T.size triv r).agg.get o i * F o = 0 := fun F => sum_eq_zero fun o ho => by rw [hz o ho, zero_mul]
      rw [hs, hs, Fintype.card_congr σ]
    unfold estimate
    simp only [agg_rows]
    rw [sum_agg hr hj, sum_agg hr hj, Fintype.card_congr σ]
    congr 3
    by_cases hjt : j = triv
    · refine sum_congr rfl fun l hl => ?_
      have hm := (mem_trivials ht hr hj (mem_range.1 hl)).2 hjt
      unfold raw
      rw [if_pos hm, if_pos hm, getD_idxOf hm, hmean _ hm, batchMean_congr (w := fun b p => u b (chanOffset T.size r.irreps i + l) (σ p) ^ 2) fun b p => by rw [h0 _ hm],
        batchMean_perm σ fun b p => u b (chanOffset T.size r.irreps i + l) p ^ 2]
    · have hraw : ∀ {Q : Type} [Fintype Q] (x : B → ℕ → Q → ℝ), ∀ l < T.size j, raw (of T.size triv r) x (chanOffset T.size r.irreps i + l) = batchMean fun b p => x b (chanOffset T.size r.irreps i + l) p ^ 2 := by
        intro Q _ x l hl
        unfold raw
        rw [if_neg fun h => hjt ((mem_trivials ht hr hj hl).1 h), sub_zero, max_eq_right (batchSq_nonneg _)]
      rw [sum_congr rfl fun l hl => hraw w l (mem_range.1 hl), sum_congr rfl fun l hl => hraw u l (mem_range.1 hl)]
      unfold batchMean
      rw [← sum_div, ← sum_div, Fintype.card_congr σ]
      congr 1
      have hv := hT j (hr.ok j (List.mem_of_getElem? hj))
      exact batchSq_act ((hv.ortho g hg).mat (hv.rows g hg) (hv.cols g hg)) σ (v := fun b l p => u b (chanOffset T.size r.irreps i + l) p) (w := fun b l p => w b (chanOffset T.size r.irreps i + l) p)
        fun b p o ho => hw b p i j hj o ho

end

/-- What is computed for one vector, irrep by irrep. -/
theorem normalize_get (ht : T.IsTrivial El triv) (hr : r.WF T El) (eps : ℝ) (affine : Bool) (w β : ℕ → ℝ) (s : GNormStat) (v : ℕ → ℝ) {k a : ℕ} {j : Id} (hk : r.irreps[k]? = some j) (ha : a < T.size j) :
    normalize (of T.size triv r) eps affine w β s v (chanOffset T.size r.irreps k + a) =
      if j = triv then (v (chanOffset T.size r.irreps k + a) - s.mean ((of T.size triv r).trivials.idxOf (chanOffset T.size r.irreps k + a))) * ((if affine then w k else 1) / Real.sqrt (s.var k + eps)) +
        (if affine then β ((of T.size triv r).trivials.idxOf (chanOffset T.size r.irreps k + a)) else 0)
      else v (chanOffset T.size r.irreps k + a) * ((if affine then w k else 1) / Real.sqrt (s.var k + eps)) := by
  have hm := mem_trivials (triv := triv) ht hr hk ha
  unfold normalize
  by_cases hj : j = triv
  · have hm' := hm.2 hj
    by_cases h : affine = true
    · simp only [h, if_true, shift, scale, hm', sum_prop hk ha, hj]
      ring
    · simp only [h, shift, scale, hm', sum_prop hk ha, hj, if_true, Bool.false_eq_true, if_false]
      ring
  · have hm' : ¬ (chanOffset T.size r.irreps k + a ∈ (of T.size triv r).trivials) := fun h => hj (hm.1 h)
    by_cases h : affine = true
    · simp only [h, if_true, shift, scale, hm', sum_prop hk ha, hj, if_false]
    · simp only [h, shift, scale, hm', sum_prop hk ha, hj, Bool.false_eq_true, if_false]

/-- It commutes with the irreps. -/
theorem normalize_act (ht : T.IsTrivial El triv) (hr : r.WF T El) {g : G} (hg : El g) (eps : ℝ) (affine : Bool) (w β : ℕ → ℝ) (s : GNormStat) {u v : ℕ → ℝ}
    (hv : ∀ (k : ℕ) j, r.irreps[k]? = some j → ∀ o < T.size j, v (chanOffset T.size r.irreps k + o) = ∑ l ∈ range (T.size j), (T.mat j g).get o l * u (chanOffset T.size r.irreps k + l))
    {k o : ℕ} {j : Id} (hk : r.irreps[k]? = some j) (ho : o < T.size j) :
    normalize (of T.size triv r) eps affine w β s v (chanOffset T.size r.irreps k + o) =
      ∑ l ∈ range (T.size j), (T.mat j g).get o l * normalize (of T.size triv r) eps affine w β s u (chanOffset T.size r.irreps k + l) := by
  rw [normalize_get ht hr eps affine w β s v hk ho, sum_congr rfl fun l hl => by rw [normalize_get ht hr eps affine w β s u hk (mem_range.1 hl)]]
  by_cases hj : j = triv
  · subst hj
    have ho0 : o = 0 := by rw [ht.size] at ho; omega
    subst ho0
    have h0 := hv k j hk 0 ho
    rw [ht.size, sum_range_one, ht.mat g hg, one_mul] at h0
    rw [ht.size, sum_range_one, ht.mat g hg, one_mul, if_pos rfl, if_pos rfl, h0]
  · simp only [if_neg hj]
    rw [hv k j hk o ho, sum_mul]
    exact sum_congr rfl fun l _ => by ring

theorem normalize_congr (ht : T.IsTrivial El triv) (hr : r.WF T El) (eps : ℝ) (affine : Bool) (w β : ℕ → ℝ) (s : GNormStat) {u v : ℕ → ℝ} {o : ℕ} (ho : o < r.size) (h : u o = v o) :
    normalize (of T.size triv r) eps affine w β s u o = normalize (of T.size triv r) eps affine w β s v o := by
  have ho' : o < (r.irreps.map T.size).sum := by rw [hr.size]; exact ho
  obtain ⟨k, j, a, hk, ha, rfl⟩ := exists_field ho'
  rw [normalize_get ht hr eps affine w β s u hk ha, normalize_get ht hr eps affine w β s v hk ha, h]

theorem change_eye (hr : r.WF T El) (h : r.cob ≈ NpMat.eye r.size) {i : ℕ} (hi : i < r.size) (v : ℕ → ℝ) :
    ∑ s ∈ range r.size, r.cob.get i s * v s = v i ∧ ∑ s ∈ range r.size, r.cobInv.get i s * v s = v i := by
  have e1 : ∀ s < r.size, r.cob.get i s = if i = s then 1 else 0 := fun s hs => h.2.2 i s hi (by show s < r.cob.cols; rw [hr.cob_cols]; exact hs)
  have e2 : ∀ s < r.size, r.cobInv.get i s = if i = s then 1 else 0 := by
    intro s hs
    have := hr.inv.2.2.2.1.2.2 i s hi (by show s < r.cobInv.cols; rw [hr.inv_cols]; exact hs)
    change ∑ k ∈ range r.cob.cols, r.cob.get i k * r.cobInv.get k s = if i = s then (1 : ℝ) else 0 at this
    rw [hr.cob_cols, sum_congr rfl fun k hk => by rw [e1 k (mem_range.1 hk)]] at this
    rw [← this]
    simp [hi]
  constructor
  · rw [sum_congr rfl fun s hs => by rw [e1 s (mem_range.1 hs)]]
    simp [hi]
  · rw [sum_congr rfl fun s hs => by rw [e2 s (mem_range.1 hs)]]
    simp [hi]

theorem change_inv {B P : Type} {nd : ℕ} (hr : r.WF T El) (hnd : nd = 2 ∨ r.cob ≈ NpMat.eye r.size) (x : FieldsT B P) (hx : x.size = r.size) :
    ∃ y, change nd ((of T.size triv r).cobs.map Prod.snd) x = .ok y ∧ y.n = x.n ∧ y.size = r.size ∧ ∀ b n, ∀ o < r.size, ∀ p, y.get b n o p = ∑ s ∈ range r.size, r.cobInv.get o s * x.get b n s p := by
  unfold of
  by_cases h : r.cob ≈ NpMat.eye r.size
  · simp only [h, if_true]
    exact ⟨x, rfl, rfl, hx, fun b n o ho p => ((change_eye hr h ho fun s => x.get b n s p).2).symm⟩
  · simp only [h, if_false]
    have h2 : nd = 2 := by tauto
    refine ⟨_, if_pos h2, rfl, hr.inv_rows, fun b n o _ p => ?_⟩
    show ∑ s ∈ range r.cobInv.cols, _ = _
    rw [hr.inv_cols]

theorem change_cob {B P : Type} {nd : ℕ} (hr : r.WF T El) (hnd : nd = 2 ∨ r.cob ≈ NpMat.eye r.size) (x : FieldsT B P) (hx : x.size = r.size) :
    ∃ y, change nd ((of T.size triv r).cobs.map Prod.fst) x = .ok y ∧ y.n = x.n ∧ y.size = r.size ∧ ∀ b n, ∀ o < r.size, ∀ p, y.get b n o p = ∑ s ∈ range r.size, r.cob.get o s * x.get b n s p := by
  unfold of
  by_cases h : r.cob ≈ NpMat.eye r.size
  · simp only [h, if_true]
    exact ⟨x, rfl, rfl, hx, fun b n o ho p => ((change_eye hr h ho fun s => x.get b n s p).1).symm⟩
  · simp only [h, if_false]
    have h2 : nd = 2 := by tauto
    refine ⟨_, if_pos h2, rfl, rfl, fun b n o _ p => ?_⟩
    show ∑ s ∈ range r.cob.cols, _ = _
    rw [hr.cob_cols]

end GNormTab

namespace GNormBatchNorm

variable [DecidableEq Id]

section

variable {B P P' : Type} [Fintype B] [Fintype P] [Fintype P']

theorem init_ok {uniq : List (Rep G Id)} {t : FType S (Rep G Id)} {eps : ℝ} {mo : Option ℝ} {affine track : Bool} {m : GNormBatchNorm S (Rep G Id)} (h : init T.size triv uniq t eps mo affine track = .ok m) :
    m.inType = t ∧ m.eps = eps ∧ m.momentum = mo ∧ m.affine = affine ∧ m.track = track ∧ m.names = t.reprs.map Rep.name ∧ runTable Rep.size t (t.reprs.map Rep.name) = .ok m.table ∧
      m.order = uniq.map Rep.name ∧ m.tabs = uniq.map fun r => (r.name, GNormTab.of T.size triv r) := by
  unfold init at h
  cases ht : runTable Rep.size t (t.reprs.map Rep.name) with
  | error e => simp [ht, bind, Except.bind] at h
  | ok tab =>
    simp only [ht, bind, Except.bind, Except.ok.injEq] at h
    subst h
    exact ⟨rfl, rfl, rfl, rfl, rfl, rfl, rfl, rfl, rfl⟩

/-- The coordinates of field `k` in the basis of the irreps. -/
noncomputable def coords (t : FType S (Rep G Id)) (x : FTensor B P) (k : ℕ) : B → ℕ → P → ℝ := fun b o p => ∑ s ∈ range (repOf t k).size, (repOf t k).cobInv.get o s * fieldOf t x k b s p

/-- The state after a call. -/
noncomputable def after (T : IrrepTable G Id) (triv : Id) (t : FType S (Rep G Id)) (mo : Option ℝ) (track : Bool) (c : GNormPar) (st : GNormState) (x : FTensor B P) : GNormState :=
  ⟨if c.training then st.count + 1 else st.count, fun l => if l ∈ t.reprs.map Rep.name then fun n =>
    match (labelled (t.reprs.map Rep.name) l)[n]? with
    | some k => (GNormTab.of T.size triv (repOf t k)).update track c.training (if c.training then avgFactor mo (if c.training then st.count + 1 else st.count) else 0) (st.stat l n) (coords t x k)
    | none => st.stat l n
  else st.stat l⟩

/-- The output of a call for one field. -/
noncomputable def outField (T : IrrepTable G Id) (triv : Id) (t : FType S (Rep G Id)) (eps : ℝ) (affine track : Bool) (c : GNormPar) (st : GNormState) (x : FTensor B P) (k o : ℕ) (b : B) (p : P) : ℝ :=
  let r := repOf t k
  let n := (labelled (t.reprs.map Rep.name) r.name).idxOf k
  ∑ s ∈ range r.size, r.cob.get o s * (GNormTab.of T.size triv r).normalize eps affine (c.weight r.name n) (c.bias r.name n)
    ((GNormTab.of T.size triv r).used track c.training (st.stat r.name n) (coords t x k)) (fun o => coords t x k b o p) s

theorem forward_spec (ht : T.IsTrivial El triv) {t : FType S (Rep G Id)} (hwf : ∀ r ∈ t.reprs, r.WF T El) (hn : NamesApart t.reprs) {uniq : List (Rep G Id)} (hnd : uniq.Nodup)
    (hu : ∀ r, r ∈ uniq ↔ r ∈ t.reprs) {eps : ℝ} {mo : Option ℝ} {affine track : Bool} {m : GNormBatchNorm S (Rep G Id)} (hm : init T.size triv uniq t eps mo affine track = .ok m) {nd : ℕ}
    (hd : nd = 2 ∨ ∀ r ∈ t.reprs, r.cob ≈ NpMat.eye r.size) (c : GNormPar) (junk : B → ℕ → P → ℝ) (st : GNormState) (x : GTensor B P S (Rep G Id) C) (hx : x.type = t)
    (hc : x.tensor.chans = t.size Rep.size) :
    ∃ y, forward m nd B P c junk st x = .ok (after T triv t mo track c st x.tensor, y) ∧ y.type = t ∧ y.coords = x.coords ∧ y.tensor.chans = t.size Rep.size ∧
      ∀ (k : ℕ) (r : Rep G Id), t.reprs[k]? = some r → ∀ o < r.size, ∀ b q, y.tensor.get b (chanOffset Rep.size t.reprs k + o) q = outField T triv t eps affine track c st x.tensor k o b q := by
  obtain ⟨h1, h2, h3, h4, h5, h6, h7, h8, h9⟩ := init_ok hm
  obtain ⟨res, f1, f2, f3⟩ := nameStat_run (A := ℕ → GNormStat) (fun r hr => (hwf r hr).pos) hn hnd hu h7
    (F := m.step nd c (if c.training then avgFactor m.momentum (if c.training then st.count + 1 else st.count) else 0)) (x := x.tensor) (out := ⟨x.tensor.chans, junk⟩) hc hc st.stat
    (fun l n => match (labelled (t.reprs.map Rep.name) l)[n]? with
      | some k => (GNormTab.of T.size triv (repOf t k)).update track c.training (if c.training then avgFactor mo (if c.training then st.count + 1 else st.count) else 0) (st.stat l n) (coords t x.tensor k)
      | none => st.stat l n)
    (fun r n k b o q => ∑ s ∈ range r.size, r.cob.get o s * (GNormTab.of T.size triv r).normalize eps affine (c.weight r.name n) (c.bias r.name n)
      ((GNormTab.of T.size triv r).used track c.training (st.stat r.name n) (coords t x.tensor k)) (fun o => coords t x.tensor k b o q) s)
    (by
      intro r hr d f e1 e2 e3 e4
      have htab := nameTab_get hn hu (GNormTab.of T.size triv) hr
      have e1' : d.toFields (List.count r.name (List.map Rep.name t.reprs)) (GNormTab.of T.size triv r).size = .ok f := e1
      have hd' : nd = 2 ∨ r.cob ≈ NpMat.eye r.size := hd.imp id fun h => h r hr
      obtain ⟨z, a1, a2, a3, a4⟩ := GNormTab.change_inv (triv := triv) (hwf r hr) hd' f e3
      have hz : ∀ n k : ℕ, (labelled (t.reprs.map Rep.name) r.name)[n]? = some k → ∀ o < r.size, ∀ b p, z.get b n o p = coords t x.tensor k b o p := by
        intro n k hk o ho b p
        have : repOf t k = r := by rw [repOf, hn.labelled hr hk]; rfl
        rw [a4 b n o ho p]
        unfold coords
        rw [this]
        exact sum_congr rfl fun s hs => by rw [e4 n k hk b s p (mem_range.1 hs)]; rfl
      obtain ⟨e, b1, b2, b3, b4⟩ := GNormTab.change_cob (triv := triv) (hwf r hr) hd' (⟨z.n, z.size, fun b n o p => (GNormTab.of T.size triv r).normalize m.eps m.affine (c.weight r.name n) (c.bias r.name n)
        ((GNormTab.of T.size triv r).used m.track c.training (st.stat r.name n) fun b o p => z.get b n o p) (fun o => z.get b n o p) o⟩ : FieldsT B P) a3
      refine ⟨e, ?_, b2.trans a2, b3, fun n k hnk b o q ho => ?_⟩
      · simp only [step, h9, h6, tabGet_ok.2 htab, bind, Except.bind, e1', a1, b1, Except.ok.injEq, Prod.mk.injEq, and_true]
        funext n
        rcases hk : (labelled (t.reprs.map Rep.name) r.name)[n]? with _ | k
        · rw [if_neg]
          rw [List.getElem?_eq_none_iff, labelled_length] at hk
          omega
        · have hlt := (List.getElem?_eq_some_iff.1 hk).1
          rw [labelled_length] at hlt
          rw [if_pos (by omega), h3, h5]
          have : repOf t k = r := by rw [repOf, hn.labelled hr hk]; rfl
          simp only [this]
          exact GNormTab.update_congr ht (hwf r hr) _ _ _ _ fun o ho b p => hz n k hk o ho b p
      · rw [b4 b n o ho q]
        simp only [h2, h4, h5]
        rw [GNormTab.used_congr ht (hwf r hr) _ _ _ fun o ho b p => hz n k hnk o ho b p]
        exact sum_congr rfl fun s hs => by rw [GNormTab.normalize_congr (v := fun o => coords t x.tensor k b o q) ht (hwf r hr) _ _ _ _ _ (mem_range.1 hs) (hz n k hnk s (mem_range.1 hs) b q)])
  refine ⟨⟨res, t, x.coords⟩, ?_, rfl, rfl, f2, fun k r hk o ho b q => ?_⟩
  · unfold forward
    rw [← h8] at f1
    rw [if_pos (hx.trans h1.symm)]
    simp only [f1, bind, Except.bind]
    rw [h1, GTensor.mk', if_pos f2]
    rfl
  · rw [f3 k r hk b o q ho]
    have : repOf t k = r := by rw [repOf, hk]; rfl
    simp only [outField, this]

end

/-- **C56** GNormBatchNorm.  (Missing: inputs with another number of spatial axes than two for types with a change of basis, see `C56_gnorm_axes_violated`.)  For each type of representations with distinct
names, orthogonal or not, all `eps > 0`, momenta (also the cumulative average), with or without parameters and running statistics: after each history of calls in training or evaluation mode, with changing
parameters, the running statistics are the same if each batch is transformed by a group element of its own, and in the reached state a further call in training or evaluation mode commutes with the action. -/
theorem C56_gnorm_partial (hT : T.Valid El op one) (ht : T.IsTrivial El triv) (t : FType S (Rep G Id)) (hwf : ∀ r ∈ t.reprs, r.WF T El) (hn : NamesApart t.reprs) {uniq : List (Rep G Id)} (hnd : uniq.Nodup)
    (hu : ∀ r, r ∈ uniq ↔ r ∈ t.reprs) {eps : ℝ} (_heps : 0 < eps) {mo : Option ℝ} {affine track : Bool} {m : GNormBatchNorm S (Rep G Id)} (hm : init T.size triv uniq t eps mo affine track = .ok m) {nd : ℕ}
    (hd : nd = 2 ∨ ∀ r ∈ t.reprs, r.cob ≈ NpMat.eye r.size) : HistoryEquivariant (C := C) El t 1 (forward m nd) fresh := by
  have hblk : ∀ (B P P' : Type) [Fintype B] [Fintype P] [Fintype P'] g, El g → ∀ (σ : P' ≃ P) (x gx : FTensor B P), FieldAct t g x gx → ∀ (k : ℕ) r, t.reprs[k]? = some r →
      ∀ b p (i : ℕ) j, r.irreps[i]? = some j → ∀ o < T.size j, coords t (⟨gx.chans, fun b c p => gx.get b c (σ p)⟩ : FTensor B P') k b (chanOffset T.size r.irreps i + o) p =
        ∑ l ∈ range (T.size j), (T.mat j g).get o l * coords t x k b (chanOffset T.size r.irreps i + l) (σ p) := by
    intro B P P' _ _ _ g hg σ x gx hact k r hr b p i j hj o ho
    unfold coords
    rw [repOf_eq hr]
    exact coord_act hT (hwf r (List.mem_of_getElem? hr)) hg (v := fun s => fieldOf t x k b s (σ p)) (w := fun s => fieldOf t (⟨gx.chans, fun b c p => gx.get b c (σ p)⟩ : FTensor B P') k b s p)
      (fun o ho => hact k r hr b o (σ p) ho) hj ho
  have hest : ∀ (B P P' : Type) [Fintype B] [Fintype P] [Fintype P'] g, El g → ∀ (σ : P' ≃ P) (x gx : FTensor B P), FieldAct t g x gx → ∀ (k : ℕ) r, t.reprs[k]? = some r →
      (GNormTab.of T.size triv r).estimate (coords t (⟨gx.chans, fun b c p => gx.get b c (σ p)⟩ : FTensor B P') k) = (GNormTab.of T.size triv r).estimate (coords t x k) := by
    intro B P P' _ _ _ g hg σ x gx hact k r hr
    exact GNormTab.estimate_act hT ht (hwf r (List.mem_of_getElem? hr)) hg σ fun b p i j hj o ho => hblk B P P' g hg σ x gx hact k r hr b p i j hj o ho
  refine HistoryEquivariant.of_fields (GatedNL.wf_square hwf) (fun _ => True) trivial (fun B P _ _ c st x => after T triv t mo track c st x) (fun B P _ _ c st x => outField T triv t eps affine track c st x)
    ?_ ?_ ?_ fun _ _ _ _ _ _ _ _ => trivial
  · intro B P _ _ c junk st x hx hc _
    exact forward_spec ht hwf hn hnd hu hm hd c junk st x hx hc
  · intro B P P' _ _ _ c st g hg σ x gx hact
    unfold after
    congr 1
    funext l
    congr 1
    funext n
    rcases h : (labelled (t.reprs.map Rep.name) l)[n]? with _ | k
    · rfl
    · obtain ⟨r, hr, rfl⟩ := labelled_rep h
      simp only [repOf_eq hr]
      unfold GNormTab.update
      rw [hest B P P' g hg σ x gx hact k r hr]
  · intro B P P' _ _ _ c st _ g hg σ x gx hact k r hr o ho b p
    have hrm := List.mem_of_getElem? hr
    simp only [outField, repOf_eq hr]
    unfold GNormTab.used
    rw [hest B P P' g hg σ x gx hact k r hr]
    exact cob_blocks hT (hwf r hrm) hg (fun i j hj o ho => GNormTab.normalize_act ht (hwf r hrm) hg eps affine _ _ _ (fun i j hj o ho => hblk B P P' g hg σ x gx hact k r hr b p i j hj o ho) hj ho) ho

/-- **C56** For a type with a change of basis, each input whose number of spatial axes is not two raises: the indices of the `einsum` are written for two axes. -/
theorem C56_gnorm_axes_violated {t : FType S (Rep G Id)} (hpos : ∀ r ∈ t.reprs, 0 < r.size) {eps : ℝ} {mo : Option ℝ} {affine track : Bool} {r : Rep G Id} (hr : t.reprs = [r])
    (hcob : ¬ r.cob ≈ NpMat.eye r.size) {m : GNormBatchNorm S (Rep G Id)} (hm : init T.size triv [r] t eps mo affine track = .ok m) {nd : ℕ} (hd : nd ≠ 2) {B P : Type} [Fintype B] [Fintype P] (c : GNormPar)
    (junk : B → ℕ → P → ℝ) (st : GNormState) (x : GTensor B P S (Rep G Id) C) (hx : x.type = t) (hc : x.tensor.chans = t.size Rep.size) : forward m nd B P c junk st x = .error .runtime := by
  obtain ⟨h1, h2, h3, h4, h5, h6, h7, h8, h9⟩ := init_ok hm
  obtain ⟨d, hd', hTab⟩ := runTable_spec (sz := Rep.size) t hpos (t.reprs.map Rep.name) (by simp)
  rw [h7] at hd'
  obtain rfl := Except.ok.inj hd'
  obtain ⟨i, d, f, e1, e2, e3, -⟩ := labelRead_tab (sz := Rep.size) (t := t) (labels := t.reprs.map Rep.name) (by simp) (s := fun _ => r.size) (fun k l r' hl hr' => by
    rw [hr] at hr'
    have := List.mem_singleton.1 (List.mem_of_getElem? hr')
    rw [this]) hTab hc (l := r.name) (by rw [hr]; simp)
  have e3' : d.toFields (List.count r.name (List.map Rep.name t.reprs)) (GNormTab.of T.size triv r).size = .ok f := e3
  have htab : tabGet [(r.name, GNormTab.of T.size triv r)] r.name = .ok (GNormTab.of T.size triv r) := by simp [tabGet, FType.lookupLast]
  have hch : GNormTab.change nd ((GNormTab.of T.size triv r).cobs.map Prod.snd) f = .error .runtime := by
    unfold GNormTab.of
    simp only [hcob, if_false]
    exact if_neg hd
  unfold forward
  rw [if_pos (hx.trans h1.symm)]
  simp only [h8, List.map_cons, List.map_nil, statLoop, e1, e2, step, h6, h9, htab, e3', hch, bind, Except.bind]

/-- Fields of the irreps 0 and 1 of `C_4`. -/
example : ∃ m, init (Cyclic.table 4).size 0 convDemo.reprs convDemo (1 / 100000) none true true = .ok m ∧
    HistoryEquivariant (C := Unit) (fun g => Cyclic.isElement 4 g = true) convDemo 1 (forward m 2) fresh := by
  obtain ⟨tab, htab, -⟩ := runTable_spec (sz := Rep.size) convDemo (fun r hr => (convDemo_wf r hr).pos) (convDemo.reprs.map Rep.name) (by simp)
  have hm : ∃ m, init (Cyclic.table 4).size 0 convDemo.reprs convDemo (1 / 100000) none true true = .ok m := ⟨_, by simp only [init, htab, bind, Except.bind]; rfl⟩
  obtain ⟨m, hm⟩ := hm
  exact ⟨m, hm, C56_gnorm_partial (Cyclic.table_valid 4 (by norm_num)) (Cyclic.trivial 4) convDemo convDemo_wf convDemo_names.1 convDemo_names.2 (fun _ => Iff.rfl) (by norm_num) hm (.inl rfl)⟩

/-- The irrep 1 of `C_4` in a stretched basis: equivariant on images, an error on volumes. -/
example : ∃ m, init (Cyclic.table 4).size 0 [stretchRep] (⟨(), [stretchRep]⟩ : FType Unit (Rep ℤ ℕ)) (1 / 100000) none true true = .ok m ∧
    HistoryEquivariant (C := Unit) (fun g => Cyclic.isElement 4 g = true) (⟨(), [stretchRep]⟩ : FType Unit (Rep ℤ ℕ)) 1 (forward m 2) fresh ∧
    ∀ (c : GNormPar) (x : GTensor (Fin 2) (Fin 3 × Fin 3 × Fin 3) Unit (Rep ℤ ℕ) Unit), x.type = ⟨(), [stretchRep]⟩ → x.tensor.chans = 2 →
      forward m 3 (Fin 2) (Fin 3 × Fin 3 × Fin 3) c (fun _ _ _ => 0) fresh x = .error .runtime := by
  set t : FType Unit (Rep ℤ ℕ) := ⟨(), [stretchRep]⟩ with ht
  have hwf : ∀ r ∈ t.reprs, r.WF (Cyclic.table 4) fun g => Cyclic.isElement 4 g = true := by
    intro r hr
    simp only [ht, List.mem_singleton] at hr
    subst hr
    exact stretchRep_wf
  have hn : NamesApart t.reprs := by
    intro r hr r' hr' _
    simp only [ht, List.mem_singleton] at hr hr'
    rw [hr, hr']
  obtain ⟨tab, htab, -⟩ := runTable_spec (sz := Rep.size) t (fun r hr => (hwf r hr).pos) (t.reprs.map Rep.name) (by simp)
  have hm : ∃ m, init (Cyclic.table 4).size 0 [stretchRep] t (1 / 100000) none true true = .ok m := ⟨_, by simp only [init, htab, bind, Except.bind]; rfl⟩
  obtain ⟨m, hm⟩ := hm
  refine ⟨m, hm, C56_gnorm_partial (Cyclic.table_valid 4 (by norm_num)) (Cyclic.trivial 4) t hwf hn (List.nodup_singleton _) (fun _ => Iff.rfl) (by norm_num) hm (.inl rfl), fun c x hx hc => ?_⟩
  refine C56_gnorm_axes_violated (fun r hr => (hwf r hr).pos) rfl ?_ hm (by norm_num) c _ _ x hx hc
  intro h
  have := h.2.2 1 1 (by decide) (by decide)
  norm_num [stretchRep, NpMat.of2, NpMat.eye] at this

end GNormBatchNorm

end Escnn
