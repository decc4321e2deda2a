import Verif.Model.InvariantMaps
import Verif.Lemmas.GroupedRun
import Verif.Lemmas.Equivariant

/-!
# The tables of the invariant maps
-/

namespace Escnn

variable {B P S R R' L G Id C : Type} [DecidableEq L] {sz : R → ℕ} {sz' : R' → ℕ}

theorem labelLoop_eq_chans (l : L) (c : ℕ) (xs : List L) (rs' : List R') (h : xs.length = rs'.length) (h1 : ∀ r ∈ rs', sz' r = 1) : FType.labelLoop l c xs = labelChans sz' l c xs rs' := by
  induction xs generalizing c rs' with
  | nil => simp [FType.labelLoop, labelChans]
  | cons x xs ih =>
    cases rs' with
    | nil => simp at h
    | cons r rs' =>
      rw [FType.labelLoop, labelChans, h1 r (by simp), ih (c + 1) rs' (by simpa using h) fun r hr => h1 r (List.mem_cons_of_mem _ hr)]
      rfl

theorem mapE_comp {α β γ : Type} (f : β → Except Err γ) (g : α → β) (l : List α) : mapE f (l.map g) = mapE (fun a => f (g a)) l := by
  induction l with
  | nil => rfl
  | cons a l ih => rw [List.map_cons, mapE, mapE, ih]

/-- If the channels of a label are an interval, so are its fields. -/
theorem labelled_interval {rs : List R} (hpos : ∀ r ∈ rs, 0 < sz r) {labels : List L} (h : labels.length = rs.length) {l : L} (hl : l ∈ labels) {a m : ℕ} (hI : labelIdx sz rs labels l = List.range' a m) :
    ∃ i n, labelled labels l = List.range' i n := by
  have hne : labelled labels l ≠ [] := by
    obtain ⟨k, hk⟩ := List.mem_iff_getElem?.1 hl
    exact List.ne_nil_of_mem (mem_labelled.2 hk)
  have hpw : (labelled labels l).Pairwise (· < ·) := List.pairwise_lt_range.filter _
  obtain ⟨i, hi⟩ := Option.isSome_iff_exists.1 (List.isSome_min?_iff.2 hne)
  obtain ⟨j, hj⟩ := Option.isSome_iff_exists.1 (List.isSome_max?_iff.2 hne)
  rw [List.min?_eq_some_iff] at hi
  rw [List.max?_eq_some_iff] at hj
  refine ⟨i, j + 1 - i, List.Pairwise.eq_of_mem_iff (r := (· < ·)) hpw List.pairwise_lt_range' fun k => ?_⟩
  rw [List.mem_range'_1]
  constructor
  · intro hk
    have := hi.2 k hk
    have := hj.2 k hk
    omega
  · rintro ⟨h1, h2⟩
    have hjl : j < rs.length := by rw [← h]; exact (List.getElem?_eq_some_iff.1 (mem_labelled.1 hj.1)).1
    have hkl : k < rs.length := by omega
    have hil : i < rs.length := by omega
    have hmem : ∀ q, (hq : q < rs.length) → q ∈ labelled labels l → chanOffset sz rs q ∈ List.range' a m := by
      intro q hq hql
      rw [← hI]
      exact mem_labelIdx.2 ⟨q, rs[q], 0, mem_labelled.1 hql, List.getElem?_eq_getElem hq, hpos _ (List.getElem_mem hq), rfl⟩
    have h3 := hmem i hil hi.1
    have h4 := hmem j hjl hj.1
    rw [List.mem_range'_1] at h3 h4
    have h5 := chanOffset_mono (sz := sz) rs h1
    have h6 := chanOffset_mono (sz := sz) rs (show k ≤ j by omega)
    have h7 : chanOffset sz rs k ∈ labelIdx sz rs labels l := by rw [hI, List.mem_range'_1]; omega
    obtain ⟨k', r, o, e1, e2, e3, e4⟩ := mem_labelIdx.1 h7
    obtain ⟨rfl, -⟩ := field_unique (List.getElem?_eq_getElem hkl) e2 (hpos _ (List.getElem_mem hkl)) e3 (by rw [Nat.add_zero]; exact e4)
    exact mem_labelled.2 e1

theorem flagTable_idxEntry (rs : List R) (labels : List L) (D : List (L × Bool)) : mapE (fun e : L × Bool => idxEntry e.1 e.2 (labelChans sz e.1 0 labels rs)) D = flagTable sz rs labels D := rfl

theorem poolTables_spec (t : FType S R) (hpos : ∀ r ∈ t.reprs, 0 < sz r) (labels : List L) (h : labels.length = t.reprs.length) (rs' : List R') (h' : labels.length = rs'.length) (h1 : ∀ r ∈ rs', sz' r = 1) :
    ∃ d, poolTables sz t labels = .ok d ∧ Tab sz t.reprs labels d.1 ∧ Tab sz' rs' labels d.2 := by
  have hall : ∀ l ∈ labels, ∃ c, checkConsecutive (labelChans sz l 0 labels t.reprs) = .ok c ∧
      (c = true ↔ ∃ a, labelChans sz l 0 labels t.reprs = List.range' a (labelChans sz l 0 labels t.reprs).length) := fun l hl =>
    checkConsecutive_iff _ (labelChans_ne_nil l 0 labels t.reprs hpos h hl) (labelChans_sorted l 0 labels t.reprs).1
  choose! c hc1 hc2 using hall
  have hd : indexesFromLabels sz t labels = .ok (labels.map fun l => (l, c l, FType.labelLoop l 0 labels, labelChans sz l 0 labels t.reprs)) := by
    rw [indexesFromLabels, if_neg (show ¬ labels.length ≠ t.len from not_not.2 h)]
    exact mapE_map fun l hl => by rw [hc1 l hl]; rfl
  have hmem : ∀ e ∈ labels.map (fun l => (l, c l)), e.1 ∈ labels := by
    intro e he
    obtain ⟨l, hl, rfl⟩ := List.mem_map.1 he
    exact hl
  have hinv : ∀ l ∈ labels, ∃ b, FType.lookupLast (labels.map fun l => (l, c l)) l = some b ∧ (b = true → ∃ i m, labelled labels l = List.range' i m) := by
    intro l hl
    refine ⟨c l, by rw [FType.lookupLast_map c, if_pos hl], fun hb => ?_⟩
    obtain ⟨a, ha⟩ := (hc2 l hl).1 hb
    exact labelled_interval hpos h hl (a := a) (by rw [labelIdx, ← labelChans_eq l labels t.reprs h]; exact ha)
  obtain ⟨d1, e1, e2⟩ := flagTable_spec hpos labels h _ hmem hinv
  obtain ⟨d2, f1, f2⟩ := flagTable_spec (sz := sz') (rs := rs') (fun r hr => by rw [h1 r hr]; exact one_pos) labels h' _ hmem hinv
  refine ⟨(d1, d2), ?_, e2, f2⟩
  have g1 : mapE (fun e : L × Bool × List ℕ × List ℕ => idxEntry e.1 e.2.1 e.2.2.2) (labels.map fun l => (l, c l, FType.labelLoop l 0 labels, labelChans sz l 0 labels t.reprs)) = .ok d1 := by
    rw [mapE_comp, ← e1, ← flagTable_idxEntry, mapE_comp]
  have g2 : mapE (fun e : L × Bool × List ℕ × List ℕ => idxEntry e.1 e.2.1 e.2.2.1) (labels.map fun l => (l, c l, FType.labelLoop l 0 labels, labelChans sz l 0 labels t.reprs)) = .ok d2 := by
    rw [mapE_comp, ← f1, ← flagTable_idxEntry, mapE_comp]
    simp only [labelLoop_eq_chans (sz' := sz') _ 0 labels rs' h' h1]
  rw [poolTables, hd]
  simp only [bind, Except.bind, g1, g2]

theorem runPoolTables_spec (t : FType S R) (hpos : ∀ r ∈ t.reprs, 0 < sz r) (labels : List L) (h : labels.length = t.reprs.length) (rs' : List R') (h' : labels.length = rs'.length) (h1 : ∀ r ∈ rs', sz' r = 1) :
    ∃ d, runPoolTables sz t labels = .ok d ∧ Tab sz t.reprs labels d.1 ∧ Tab sz' rs' labels d.2 := by
  have hinv := contigLoop_inv labels [] [] (fun l => ⟨fun _ => rfl, fun h => absurd h (by simp)⟩)
  rw [List.nil_append, List.getLast?_nil] at hinv
  obtain ⟨d1, e1, e2⟩ := flagTable_spec hpos labels h _ (contigLoop_mem labels) fun l hl => (hinv l).2 hl
  obtain ⟨d2, f1, f2⟩ := flagTable_spec (sz := sz') (rs := rs') (fun r hr => by rw [h1 r hr]; exact one_pos) labels h' _ (contigLoop_mem labels) fun l hl => (hinv l).2 hl
  refine ⟨(d1, d2), ?_, e2, f2⟩
  have g2 : mapE (fun e : L × Bool => idxEntry e.1 e.2 (FType.labelLoop e.1 0 labels)) (contigLoop none [] labels) = .ok d2 := by
    rw [← f1, ← flagTable_idxEntry]
    simp only [labelLoop_eq_chans (sz' := sz') _ 0 labels rs' h' h1]
  rw [runPoolTables]
  simp only [bind, Except.bind, flagTable_idxEntry, e1, g2]

/-- A field map which sends field `k`, with label `l`, to the number `ψ l (field)`. -/
theorem PoolMap.forward_spec {m : PoolMap L S (Rep G Id)} {t : FType S (Rep G Id)} {labels : List L} {s : L → ℕ} (hin : m.inType = t) (hlen : labels.length = t.reprs.length)
    (hout : m.outType.reprs.length = t.reprs.length) (h1 : ∀ r ∈ m.outType.reprs, r.size = 1) (hs : ∀ (k : ℕ) l r, labels[k]? = some l → t.reprs[k]? = some r → r.size = s l)
    (htin : Tab Rep.size t.reprs labels m.tin) (htout : Tab Rep.size m.outType.reprs labels m.tout) (hnd : m.order.Nodup) (hmem : ∀ l, l ∈ m.order ↔ l ∈ labels)
    {step : L → FTensor B P → Except Err (FTensor B P)} (ψ : L → (ℕ → ℝ) → ℝ) (hψ : ∀ l v w, (∀ o < s l, v o = w o) → ψ l v = ψ l w)
    (hstep : ∀ l ∈ labels, ∀ (d : FTensor B P) n, d.chans = n * s l → ∃ e, step l d = .ok e ∧ e.chans = n ∧ ∀ i < n, ∀ b p, e.get b i p = ψ l fun o => d.get b (i * s l + o) p)
    (junk : B → ℕ → P → ℝ) (x : GTensor B P S (Rep G Id) C) (hx : x.type = t) (hc : x.tensor.chans = t.size Rep.size) :
    ∃ y, forward step junk m x = .ok y ∧ y.type = m.outType ∧ y.coords = x.coords ∧ y.tensor.chans = m.outType.size Rep.size ∧
      ∀ (k : ℕ) l, labels[k]? = some l → ∀ b p, y.tensor.get b k p = ψ l fun o => x.tensor.get b (chanOffset Rep.size t.reprs k + o) p := by
  rw [FType.size_eq] at hc
  obtain ⟨res, e1, e2, e3⟩ := groupedLoop_run (x := x.tensor) (out := (⟨m.outType.size Rep.size, junk⟩ : FTensor B P)) (F := step) (rs := t.reprs) (rs' := m.outType.reprs) (sz := Rep.size) (sz' := Rep.size)
    (labels := labels) (ls := m.order) (tin := m.tin) (tout := m.tout) (s := s) (s' := fun _ => 1) (fun l n k b o p => ψ l fun o => x.tensor.get b (chanOffset Rep.size t.reprs k + o) p)
    hnd hmem hlen (hlen.trans hout.symm) hs (fun k l r _ hr => h1 r (List.mem_of_getElem? hr)) htin htout hc (by rw [FType.size_eq])
    (fun l hl d hd => by
      obtain ⟨e, f1, f2, f3⟩ := hstep l hl d _ hd.1
      refine ⟨e, f1, by rw [f2, Nat.mul_one], fun n k hn b o p ho => ?_⟩
      obtain rfl : o = 0 := by omega
      rw [Nat.mul_one, Nat.add_zero, f3 n (List.getElem?_eq_some_iff.1 hn).1 b p]
      exact hψ l _ _ fun o ho => hd.2 n k hn b o p ho)
  refine ⟨⟨res, m.outType, x.coords⟩, ?_, rfl, rfl, by rw [FType.size_eq]; exact e2, fun k l hk b p => ?_⟩
  · rw [forward, if_pos (hx.trans hin.symm)]
    simp only [bind, Except.bind, e1]
    exact if_pos (by rw [e2, FType.size_eq])
  · have hkl : k < m.outType.reprs.length := by rw [hout, ← hlen]; exact (List.getElem?_eq_some_iff.1 hk).1
    have := e3 k l hk b 0 p one_pos
    have ho : chanOffset Rep.size m.outType.reprs k = k := by
      have : (m.outType.reprs.take k).map Rep.size = List.replicate k 1 := by
        rw [List.eq_replicate_iff]
        refine ⟨by simp; omega, fun z hz => ?_⟩
        obtain ⟨r', hr', rfl⟩ := List.mem_map.1 hz
        exact h1 r' (List.mem_of_mem_take hr')
      rw [chanOffset, this]
      simp
    rw [Nat.add_zero, ho] at this
    exact this

end Escnn
