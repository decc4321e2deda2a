import Verif.Model.IndexTables
import Verif.Lemmas.Fields
import Verif.Props.C24_FieldTypeSort
import Mathlib.Algebra.BigOperators.Intervals
import Mathlib.Order.Interval.Finset.Nat

/-!
# C29: index tables and contiguity
-/

namespace Escnn

variable {L S R B P : Type} [DecidableEq L] {sz : R → ℕ}

/-- The fields with label `l`. -/
def labelled (labels : List L) (l : L) : List ℕ := (List.range labels.length).filter fun k => labels[k]? = some l

/-- The channels of field `k`. -/
def chansOf (sz : R → ℕ) (rs : List R) (k : ℕ) : List ℕ := List.range' (chanOffset sz rs k) ((rs[k]?.map sz).getD 0)

theorem consecLoop_spec (L : List ℕ) (m M s : ℕ) :
    (consecLoop m M s L).2.2 = s + L.sum ∧
    ((consecLoop m M s L).1 = m ∨ (consecLoop m M s L).1 ∈ L) ∧ (consecLoop m M s L).1 ≤ m ∧ (∀ x ∈ L, (consecLoop m M s L).1 ≤ x) ∧
    ((consecLoop m M s L).2.1 = M ∨ (consecLoop m M s L).2.1 ∈ L) ∧ M ≤ (consecLoop m M s L).2.1 ∧ (∀ x ∈ L, x ≤ (consecLoop m M s L).2.1) := by
  induction L generalizing m M s with
  | nil => simp [consecLoop]
  | cons a L ih =>
    rw [consecLoop]
    obtain ⟨h1, h2, h3, h4, h5, h6, h7⟩ := ih (min m a) (max M a) (s + a)
    refine ⟨by rw [h1]; simp; omega, ?_, by omega, ?_, ?_, by omega, ?_⟩
    · rcases h2 with h2 | h2
      · rcases le_total m a with h | h
        · left; omega
        · right; rw [h2, min_eq_right h]; simp
      · right; exact List.mem_cons_of_mem _ h2
    · intro x hx
      rcases List.mem_cons.1 hx with rfl | hx
      · omega
      · exact h4 x hx
    · rcases h5 with h5 | h5
      · rcases le_total M a with h | h
        · right; rw [h5, max_eq_right h]; simp
        · left; omega
      · right; exact List.mem_cons_of_mem _ h5
    · intro x hx
      rcases List.mem_cons.1 hx with rfl | hx
      · omega
      · exact h7 x hx

theorem two_mul_sum_Icc (m M : ℕ) (h : m ≤ M + 1) : 2 * ((∑ i ∈ Finset.Icc m M, i : ℕ) : ℤ) = (M : ℤ) * (M + 1) - ((m : ℤ) - 1) * m := by
  have e1 : Finset.Icc m M = Finset.Ico m (M + 1) := by ext x; simp
  have e2 := Finset.sum_range_add_sum_Ico (fun i => i) h
  have g1 := Finset.sum_range_id_mul_two m
  have g2 := Finset.sum_range_id_mul_two (M + 1)
  rw [e1]
  have g1' : (((∑ i ∈ Finset.range m, i) * 2 : ℕ) : ℤ) = (m : ℤ) * (m - 1) := by
    rw [g1]
    cases m with
    | zero => simp
    | succ k => push_cast; ring
  have g2' : (((∑ i ∈ Finset.range (M + 1), i) * 2 : ℕ) : ℤ) = ((M : ℤ) + 1) * M := by rw [g2]; push_cast; ring
  rw [← e2] at g2'
  push_cast at g1' g2' ⊢
  linarith

/-- On strictly increasing lists `check_consecutive_numbers` decides whether the numbers form an interval. -/
theorem checkConsecutive_iff (L : List ℕ) (hne : L ≠ []) (hs : L.Pairwise (· < ·)) :
    ∃ c, checkConsecutive L = .ok c ∧ (c = true ↔ ∃ a, L = List.range' a L.length) := by
  obtain ⟨a, L', rfl⟩ := List.exists_cons_of_ne_nil hne
  refine ⟨_, rfl, ?_⟩
  set K := a :: L' with hK
  obtain ⟨h1, h2, h3, h4, h5, h6, h7⟩ := consecLoop_spec K a a 0
  set r := consecLoop a a 0 K with hr
  have hm : r.1 ∈ K := by
    rcases h2 with h | h
    · rw [h]; simp [hK]
    · exact h
  have hM : r.2.1 ∈ K := by
    rcases h5 with h | h
    · rw [h]; simp [hK]
    · exact h
  have hmM : r.1 ≤ r.2.1 := h4 _ hM
  have hnd : K.Nodup := hs.imp (fun h => Nat.ne_of_lt h)
  have hsub : K.toFinset ⊆ Finset.Icc r.1 r.2.1 := by
    intro x hx
    rw [List.mem_toFinset] at hx
    exact Finset.mem_Icc.2 ⟨h4 x hx, h7 x hx⟩
  have hsum : K.sum = ∑ x ∈ K.toFinset, x := by
    rw [List.sum_toFinset _ hnd]; simp
  have hgauss := two_mul_sum_Icc r.1 r.2.1 (by omega)
  have hdiv : ((r.2.1 : ℤ) * (r.2.1 + 1)) / 2 - (((r.1 : ℤ) - 1) * r.1) / 2 = ((∑ i ∈ Finset.Icc r.1 r.2.1, i : ℕ) : ℤ) := by
    have p1 : (r.2.1 : ℤ) * (r.2.1 + 1) % 2 = 0 := Int.even_iff.1 (Int.even_mul_succ_self _)
    have p2 : ((r.1 : ℤ) - 1) * r.1 % 2 = 0 := by
      have := Int.even_iff.1 (Int.even_mul_succ_self ((r.1 : ℤ) - 1))
      rwa [sub_add_cancel] at this
    omega
  rw [decide_eq_true_iff, hdiv, h1, Nat.zero_add]
  constructor
  · intro h
    have h : ∑ i ∈ Finset.Icc r.1 r.2.1, i = ∑ x ∈ K.toFinset, x := by rw [← hsum]; exact_mod_cast h
    have hd : ∑ x ∈ Finset.Icc r.1 r.2.1 \ K.toFinset, x = 0 := by
      have := Finset.sum_sdiff (f := fun x => x) hsub
      omega
    have hz : ∀ x ∈ Finset.Icc r.1 r.2.1 \ K.toFinset, x = 0 := Finset.sum_eq_zero_iff.1 hd
    have heq : K.toFinset = Finset.Icc r.1 r.2.1 := by
      refine Finset.Subset.antisymm hsub fun x hx => ?_
      by_contra hxK
      have hx0 := hz x (Finset.mem_sdiff.2 ⟨hx, hxK⟩)
      have := (Finset.mem_Icc.1 hx).1
      have : x = r.1 := by omega
      rw [this, List.mem_toFinset] at hxK
      exact hxK hm
    refine ⟨r.1, ?_⟩
    have hperm : K.Perm (List.range' r.1 (r.2.1 + 1 - r.1)) := by
      refine (List.perm_ext_iff_of_nodup hnd List.nodup_range').2 fun x => ?_
      rw [← List.mem_toFinset, heq, Finset.mem_Icc, List.mem_range'_1]
      omega
    have hlen := hperm.length_eq
    rw [List.length_range'] at hlen
    rw [hlen]
    exact hperm.eq_of_pairwise (fun x y _ _ h h' => absurd h (Nat.lt_asymm h')) hs List.pairwise_lt_range'
  · rintro ⟨b, hb⟩
    have hmem : ∀ x, x ∈ K ↔ b ≤ x ∧ x < b + K.length := by intro x; rw [hb, List.mem_range'_1]; simp
    have hpos : 0 < K.length := by simp [hK]
    have e1 : r.1 = b := by
      have := h4 b ((hmem b).2 ⟨le_refl _, by omega⟩)
      have := ((hmem _).1 hm).1
      omega
    have e2 : r.2.1 = b + K.length - 1 := by
      have := h7 (b + K.length - 1) ((hmem _).2 ⟨by omega, by omega⟩)
      have := ((hmem _).1 hM).2
      omega
    have heq : K.toFinset = Finset.Icc r.1 r.2.1 := by
      ext x
      rw [List.mem_toFinset, hmem, Finset.mem_Icc, e1, e2]
      omega
    rw [hsum, heq]

/-! ## the tables -/

theorem labelled_eq (labels : List L) (l : L) : FType.labelLoop l 0 labels = labelled labels l := by
  have key : ∀ (c : ℕ) (xs : List L), FType.labelLoop l c xs = ((List.range xs.length).filter fun k => xs[k]? = some l).map (c + ·) := by
    intro c xs
    induction xs generalizing c with
    | nil => rfl
    | cons x xs ih =>
      rw [FType.labelLoop, List.length_cons, List.range_succ_eq_map, List.filter_cons, ih (c + 1)]
      have e : ((List.map Nat.succ (List.range xs.length)).filter fun k => (x :: xs)[k]? = some l).map (c + ·) =
          ((List.range xs.length).filter fun k => xs[k]? = some l).map (c + 1 + ·) := by
        rw [List.filter_map, List.map_map]
        refine congrArg₂ _ ?_ ?_
        · funext k; simp; omega
        · rfl
      by_cases h : x = l
      · rw [if_pos h, if_pos (by simp [h]), List.map_cons, e]; simp
      · rw [if_neg h, if_neg (by simp [h]), e]
  rw [key]
  simp [labelled]

theorem labelChans_eq (l : L) (labels : List L) (rs : List R) (h : labels.length = rs.length) :
    labelChans sz l 0 labels rs = (labelled labels l).flatMap (chansOf sz rs) := by
  have key : ∀ (p : ℕ) (xs : List L) (rs : List R), xs.length = rs.length → labelChans sz l p xs rs =
      ((List.range xs.length).filter fun k => xs[k]? = some l).flatMap fun k => List.range' (p + chanOffset sz rs k) ((rs[k]?.map sz).getD 0) := by
    intro p xs
    induction xs generalizing p with
    | nil => intro rs _; cases rs <;> rfl
    | cons x xs ih =>
      intro rs hrs
      cases rs with
      | nil => simp at hrs
      | cons r rs =>
        rw [labelChans, List.length_cons, List.range_succ_eq_map, List.filter_cons, ih (p + sz r) rs (by simpa using hrs)]
        have e : ((List.map Nat.succ (List.range xs.length)).filter fun k => (x :: xs)[k]? = some l).flatMap
            (fun k => List.range' (p + chanOffset sz (r :: rs) k) (((r :: rs)[k]?.map sz).getD 0)) =
            ((List.range xs.length).filter fun k => xs[k]? = some l).flatMap
              fun k => List.range' (p + sz r + chanOffset sz rs k) ((rs[k]?.map sz).getD 0) := by
          rw [List.filter_map, List.flatMap_map]
          refine congrArg₂ (fun f l => List.flatMap f l) ?_ ?_
          · funext k; simp [Nat.add_assoc]
          · rfl
        by_cases hx : x = l
        · rw [if_pos hx, if_pos (by simp [hx]), List.flatMap_cons, e]; simp
        · rw [if_neg hx, if_neg (by simp [hx]), e]
  rw [key 0 labels rs h]
  simp [labelled, chansOf]
  rfl

theorem labelChans_sorted (l : L) (p : ℕ) (xs : List L) (rs : List R) :
    (labelChans sz l p xs rs).Pairwise (· < ·) ∧ ∀ c ∈ labelChans sz l p xs rs, p ≤ c := by
  induction xs generalizing p rs with
  | nil => simp [labelChans]
  | cons x xs ih =>
    cases rs with
    | nil => simp [labelChans]
    | cons r rs =>
      rw [labelChans]
      obtain ⟨h1, h2⟩ := ih (p + sz r) rs
      split_ifs
      · refine ⟨List.pairwise_append.2 ⟨List.pairwise_lt_range', h1, fun a ha b hb => ?_⟩, fun c hc => ?_⟩
        · rw [List.mem_range'_1] at ha
          have := h2 b hb
          omega
        · rcases List.mem_append.1 hc with hc | hc
          · rw [List.mem_range'_1] at hc; omega
          · have := h2 c hc; omega
      · exact ⟨h1, fun c hc => by have := h2 c hc; omega⟩

theorem labelChans_ne_nil (l : L) (p : ℕ) (xs : List L) (rs : List R) (hpos : ∀ r ∈ rs, 0 < sz r) (h : xs.length = rs.length) (hl : l ∈ xs) :
    labelChans sz l p xs rs ≠ [] := by
  induction xs generalizing p rs with
  | nil => simp at hl
  | cons x xs ih =>
    cases rs with
    | nil => simp at h
    | cons r rs =>
      rw [labelChans]
      split_ifs with hx
      · intro h0
        have h1 := congrArg List.length h0
        have h2 := hpos r (by simp)
        rw [List.length_append, List.length_range', List.length_nil] at h1
        omega
      · exact ih _ _ (fun r hr => hpos r (List.mem_cons_of_mem _ hr)) (by simpa using h) (by
          rcases List.mem_cons.1 hl with h' | h'
          · exact absurd h'.symm hx
          · exact h')

/-- **C29** `indexes_from_labels` returns, for every label and no other key, the fields with that label in order and the channels of
these fields in order; the flag says whether these channels are an interval. -/
theorem C29_indexes (t : FType S R) (hpos : ∀ r ∈ t.reprs, 0 < sz r) (labels : List L) (h : labels.length = t.len) :
    ∃ d, indexesFromLabels sz t labels = .ok d ∧ (∀ l, l ∈ d.map Prod.fst ↔ l ∈ labels) ∧
      ∀ l ∈ labels, ∃ c, FType.lookupLast d l = some (c, labelled labels l, (labelled labels l).flatMap (chansOf sz t.reprs)) ∧
        ((labelled labels l).flatMap (chansOf sz t.reprs)).Pairwise (· < ·) ∧
        (c = true ↔ ∃ a m, (labelled labels l).flatMap (chansOf sz t.reprs) = List.range' a m) := by
  have hall : ∀ l ∈ labels, ∃ c, checkConsecutive (labelChans sz l 0 labels t.reprs) = .ok c ∧
      (c = true ↔ ∃ a, labelChans sz l 0 labels t.reprs = List.range' a (labelChans sz l 0 labels t.reprs).length) := fun l hl =>
    checkConsecutive_iff _ (labelChans_ne_nil l 0 labels t.reprs hpos h hl) (labelChans_sorted l 0 labels t.reprs).1
  choose! c hc1 hc2 using hall
  refine ⟨labels.map fun l => (l, c l, FType.labelLoop l 0 labels, labelChans sz l 0 labels t.reprs), ?_, ?_, ?_⟩
  · rw [indexesFromLabels, if_neg (not_not.2 h)]
    refine mapE_map fun l hl => ?_
    rw [hc1 l hl]
    rfl
  · intro l; rw [List.map_map]; simp
  · intro l hl
    rw [FType.lookupLast_map (fun l => (c l, FType.labelLoop l 0 labels, labelChans sz l 0 labels t.reprs)), if_pos hl]
    refine ⟨c l, ?_, ?_, ?_⟩
    · rw [labelled_eq, labelChans_eq l labels t.reprs h]
    · rw [← labelChans_eq l labels t.reprs h]; exact (labelChans_sorted l 0 labels t.reprs).1
    · rw [← labelChans_eq l labels t.reprs h, hc2 l hl]
      constructor
      · rintro ⟨a, ha⟩; exact ⟨a, _, ha⟩
      · rintro ⟨a, m, ha⟩
        refine ⟨a, ?_⟩
        rw [ha, List.length_range']

/-- **C29** Labels of the wrong number are rejected. -/
theorem C29_indexes_rejects (t : FType S R) (labels : List L) (h : labels.length ≠ t.len) :
    indexesFromLabels sz t labels = .error .assertion := by rw [indexesFromLabels, if_pos h]

/-- **C29** If the flag is set, taking the slice `[min, max + 1)` of the channels is the same as gathering the channels one by one. -/
theorem C29_slice (x : FTensor B P) (L : List ℕ) (hne : L ≠ []) (hs : L.Pairwise (· < ·)) (hx : ∀ c ∈ L, c < x.chans)
    (hc : checkConsecutive L = .ok true) :
    ∃ y, GTensor.chanGather x L = .ok y ∧ GTensor.chanSlice x (L.min hne) (L.max hne + 1) ≈ y := by
  obtain ⟨c, h1, h2⟩ := checkConsecutive_iff L hne hs
  rw [hc] at h1
  obtain rfl : true = c := by simpa using h1
  obtain ⟨a, ha⟩ := h2.1 rfl
  have hl := List.length_pos_of_ne_nil hne
  have hmem : ∀ x, x ∈ L ↔ a ≤ x ∧ x < a + L.length := by intro x; rw [ha, List.mem_range'_1]; simp
  have e1 : L.min hne = a := by
    have h1 := (hmem _).1 (List.min_mem hne)
    have h2 := List.min_le_of_mem ((hmem a).2 ⟨le_refl _, by omega⟩)
    omega
  have e2 : L.max hne = a + L.length - 1 := by
    have h1 := (hmem _).1 (List.max_mem hne)
    have h2 := List.le_max_of_mem ((hmem (a + L.length - 1)).2 ⟨by omega, by omega⟩)
    omega
  refine ⟨_, by rw [GTensor.chanGather, if_pos]; simpa using hx, ?_, fun b c p hc => ?_⟩
  · simp only [GTensor.chanSlice]; omega
  · simp only [GTensor.chanSlice] at hc ⊢
    have hc' : c < L.length := by omega
    rw [List.getD_eq_getElem _ _ hc', e1]
    have : L[c] = a + c := by
      have h3 : (List.range' a L.length)[c]'(by simpa using hc') = a + c := by simp
      rw [← h3]
      congr 1
    rw [this]

/-- On lists with repetitions `check_consecutive_numbers` is wrong: `1, 3, 1, 1` is reported as consecutive.  `indexes_from_labels` never
passes such a list. -/
theorem C29_repeated_violated : checkConsecutive [1, 3, 1, 1] = .ok true ∧ ¬ ∃ a m, ([1, 3, 1, 1] : List ℕ).Perm (List.range' a m) := by
  refine ⟨rfl, ?_⟩
  rintro ⟨a, m, h⟩
  have := h.nodup_iff.2 List.nodup_range'
  simp at this

example : ∃ d, indexesFromLabels (fun n : ℕ => n + 1) (⟨(), [0, 1, 0]⟩ : FType Unit ℕ) ["a", "b", "a"] = .ok d ∧
    FType.lookupLast d "a" = some (false, [0, 2], [0, 3]) ∧ FType.lookupLast d "b" = some (true, [1], [1, 2]) :=
  ⟨_, rfl, by decide, by decide⟩

end Escnn
