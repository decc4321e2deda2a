import Verif.Model.Grouped
import Verif.Props.C29_IndexTables
import Verif.Props.C28_Modules

/-!
# Lemmas about group-wise processing of fields
-/

namespace Escnn

variable {B P P' S S' R R' L : Type} [DecidableEq L] {sz : R → ℕ}

theorem tabGet_ok {V : Type} {d : List (L × V)} {l : L} {v : V} : tabGet d l = .ok v ↔ FType.lookupLast d l = some v := by
  unfold tabGet
  cases FType.lookupLast d l <;> simp

/-- A row of a table: the channels `I`, as a list or as the bounds of an interval. -/
def Entry (c : Bool) (idx I : List ℕ) : Prop := (c = false ∧ idx = I) ∨ (c = true ∧ ∃ a m, I = List.range' a m ∧ idx = [a, a + m])

theorem readIdx_ok {x : FTensor B P} {c : Bool} {idx I : List ℕ} (h : Entry c idx I) (hI : ∀ i ∈ I, i < x.chans) :
    ∃ d, readIdx x c idx = .ok d ∧ d.chans = I.length ∧ ∀ b (j : ℕ) (i : ℕ) p, I[j]? = some i → d.get b j p = x.get b i p := by
  rcases h with ⟨rfl, rfl⟩ | ⟨rfl, a, m, rfl, rfl⟩
  · refine ⟨_, by rw [readIdx, if_neg (by simp), GTensor.chanGather, if_pos (by simpa using hI)], rfl, ?_⟩
    intro b j i p hj
    simp [List.getD, hj]
  · refine ⟨GTensor.chanSlice x a (a + m), rfl, by simp [GTensor.chanSlice], ?_⟩
    intro b j i p hj
    obtain ⟨h1, h2⟩ := List.getElem?_eq_some_iff.1 hj
    simp at h1 h2
    simp [GTensor.chanSlice, ← h2]

theorem writeIdx_ok {out d : FTensor B P} {c : Bool} {idx O : List ℕ} (h : Entry c idx O) (hO : ∀ i ∈ O, i < out.chans) (hnd : O.Nodup)
    (hd : d.chans = O.length) :
    ∃ res, writeIdx out c idx d = .ok res ∧ res.chans = out.chans ∧ (∀ b (j : ℕ) (i : ℕ) p, O[j]? = some i → res.get b i p = d.get b j p) ∧
      ∀ b i p, i ∉ O → res.get b i p = out.get b i p := by
  rcases h with ⟨rfl, rfl⟩ | ⟨rfl, a, m, rfl, rfl⟩
  · refine ⟨⟨out.chans, fun b c p => if c ∈ idx then d.get b (idx.idxOf c) p else out.get b c p⟩,
      by rw [writeIdx, if_neg (by simp), chanScatter, if_pos (by simpa using hO), if_pos hd], rfl, ?_, ?_⟩
    · intro b j i p hj
      obtain ⟨h1, h2⟩ := List.getElem?_eq_some_iff.1 hj
      simp only
      rw [if_pos (List.mem_of_getElem? hj), ← h2, hnd.idxOf_getElem]
    · intro b i p hi
      simp only
      rw [if_neg hi]
  · have hb : writeIdx out true [a, a + m] d = setSlice out a (a + m - a) d := rfl
    rw [hb, setSlice]
    simp only [List.length_range'] at hd
    by_cases hm : m = 0
    · subst hm
      simp only [List.range'_zero, List.not_mem_nil, not_false_eq_true]
      rw [if_pos (by simp [hd])]
      refine ⟨_, rfl, rfl, by simp, fun b i p _ => ?_⟩
      simp only
      rw [if_neg]
      omega
    · have h1 : a + m - 1 < out.chans := hO _ (by rw [List.mem_range'_1]; omega)
      have e1 : min a out.chans = a := by omega
      have e2 : min (a + (a + m - a)) out.chans = a + m := by omega
      simp only [e1, e2]
      rw [if_pos (by omega)]
      refine ⟨_, rfl, rfl, ?_, ?_⟩
      · intro b j i p hj
        obtain ⟨h2, h3⟩ := List.getElem?_eq_some_iff.1 hj
        simp at h2 h3
        subst h3
        simp only
        rw [if_pos (by omega)]
        congr 1
        omega
      · intro b i p hi
        rw [List.mem_range'_1] at hi
        simp only
        rw [if_neg (by omega)]

/-- The loop writes to the channels of every label what was computed from the channels of that label. -/
theorem groupedLoop_spec {F : L → FTensor B P → Except Err (FTensor B P')} {tin tout : List (L × Bool × List ℕ)} {x : FTensor B P} {I O : L → List ℕ}
    {E : L → FTensor B P'} (ls : List L) (out : FTensor B P')
    (hin : ∀ l ∈ ls, ∃ c idx, FType.lookupLast tin l = some (c, idx) ∧ Entry c idx (I l)) (hI : ∀ l ∈ ls, ∀ i ∈ I l, i < x.chans)
    (hout : ∀ l ∈ ls, ∃ c idx, FType.lookupLast tout l = some (c, idx) ∧ Entry c idx (O l)) (hO : ∀ l ∈ ls, ∀ i ∈ O l, i < out.chans)
    (hnd : ∀ l ∈ ls, (O l).Nodup) (hdis : ∀ l ∈ ls, ∀ l' ∈ ls, ∀ i, i ∈ O l → i ∈ O l' → l = l') (hlsnd : ls.Nodup)
    (hF : ∀ l ∈ ls, ∀ d : FTensor B P, d.chans = (I l).length → (∀ b (j : ℕ) (i : ℕ) p, (I l)[j]? = some i → d.get b j p = x.get b i p) →
      ∃ e, F l d = .ok e ∧ e ≈ E l)
    (hE : ∀ l ∈ ls, (E l).chans = (O l).length) :
    ∃ res, groupedLoop F tin tout x out ls = .ok res ∧ res.chans = out.chans ∧
      (∀ l ∈ ls, ∀ b (j : ℕ) (i : ℕ) p, (O l)[j]? = some i → res.get b i p = (E l).get b j p) ∧
      ∀ b i p, (∀ l ∈ ls, i ∉ O l) → res.get b i p = out.get b i p := by
  induction ls generalizing out with
  | nil => exact ⟨out, rfl, rfl, by simp, fun _ _ _ _ => rfl⟩
  | cons l ls ih =>
    obtain ⟨c, idx, h1, h2⟩ := hin l (by simp)
    obtain ⟨c', idx', h3, h4⟩ := hout l (by simp)
    obtain ⟨d, e1, e2, e3⟩ := readIdx_ok h2 (hI l (by simp))
    obtain ⟨e, e4, e5⟩ := hF l (by simp) d e2 e3
    obtain ⟨out', e6, e7, e8, e9⟩ := writeIdx_ok h4 (hO l (by simp)) (hnd l (by simp)) (d := e) (e5.1.trans (hE l (by simp)))
    obtain ⟨res, f1, f2, f3, f4⟩ := ih out' (fun l hl => hin l (List.mem_cons_of_mem _ hl)) (fun l hl => hI l (List.mem_cons_of_mem _ hl))
      (fun l hl => hout l (List.mem_cons_of_mem _ hl)) (fun l hl => by rw [e7]; exact hO l (List.mem_cons_of_mem _ hl))
      (fun l hl => hnd l (List.mem_cons_of_mem _ hl)) (fun l hl l' hl' => hdis l (List.mem_cons_of_mem _ hl) l' (List.mem_cons_of_mem _ hl'))
      (List.nodup_cons.1 hlsnd).2 (fun l hl => hF l (List.mem_cons_of_mem _ hl)) (fun l hl => hE l (List.mem_cons_of_mem _ hl))
    refine ⟨res, ?_, f2.trans e7, ?_, ?_⟩
    · rw [groupedLoop]
      simp only [bind, Except.bind, tabGet_ok.2 h1, e1, e4, tabGet_ok.2 h3, e6]
      exact f1
    · intro l' hl' b j i p hj
      rcases List.mem_cons.1 hl' with rfl | hl'
      · have hlt := (List.getElem?_eq_some_iff.1 hj).1
        rw [f4 b i p, e8 b j i p hj]
        · exact e5.2 b j p (by rw [e5.1, hE _ (by simp)]; exact hlt)
        · intro l'' hl'' hi
          have := hdis l' (by simp) l'' (List.mem_cons_of_mem _ hl'') i (List.mem_of_getElem? hj) hi
          subst this
          exact (List.nodup_cons.1 hlsnd).1 hl''
      · exact f3 l' hl' b j i p hj
    · intro b i p hi
      rw [f4 b i p fun l hl => hi l (List.mem_cons_of_mem _ hl), e9 b i p (hi l (by simp))]

/-- The channels of the fields with label `l`. -/
def labelIdx (sz : R → ℕ) (rs : List R) (labels : List L) (l : L) : List ℕ := (labelled labels l).flatMap (chansOf sz rs)

theorem mem_keysInOrder {labels : List L} {l : L} : l ∈ keysInOrder labels ↔ l ∈ labels := by simp [keysInOrder]
theorem keysInOrder_nodup (labels : List L) : (keysInOrder labels).Nodup := by
  rw [keysInOrder, List.nodup_reverse]; exact List.nodup_dedup _

theorem mem_labelled {labels : List L} {l : L} {k : ℕ} : k ∈ labelled labels l ↔ labels[k]? = some l := by
  unfold labelled
  rw [List.mem_filter, List.mem_range]
  simp only [decide_eq_true_eq, and_iff_right_iff_imp]
  intro h
  exact (List.getElem?_eq_some_iff.1 h).1

theorem mem_chansOf {rs : List R} {k c : ℕ} : c ∈ chansOf sz rs k ↔ ∃ r o, rs[k]? = some r ∧ o < sz r ∧ c = chanOffset sz rs k + o := by
  unfold chansOf
  rw [List.mem_range'_1]
  cases h : rs[k]? with
  | none => simp
  | some r =>
    simp only [Option.map_some, Option.getD_some, Option.some.injEq]
    constructor
    · rintro ⟨h1, h2⟩
      exact ⟨r, c - chanOffset sz rs k, rfl, by omega, by omega⟩
    · rintro ⟨r', o, rfl, h1, rfl⟩
      omega

/-- A channel belongs to one field. -/
theorem field_unique {rs : List R} {k k' o o' : ℕ} {r r' : R} (h : rs[k]? = some r) (h' : rs[k']? = some r') (ho : o < sz r) (ho' : o' < sz r')
    (e : chanOffset sz rs k + o = chanOffset sz rs k' + o') : k = k' ∧ o = o' := by
  have key : ∀ {k k' o o' : ℕ} {r r' : R}, rs[k]? = some r → rs[k']? = some r' → o < sz r → o' < sz r' → chanOffset sz rs k + o = chanOffset sz rs k' + o' → ¬ k < k' := by
    intro k k' o o' r r' h h' ho ho' e hlt
    have h1 := chanOffset_succ (sz := sz) h
    have h2 := chanOffset_mono (sz := sz) rs (show k + 1 ≤ k' from hlt)
    omega
  have h1 := key h h' ho ho' e
  have h2 := key h' h ho' ho e.symm
  have : k = k' := by omega
  subst this
  exact ⟨rfl, by omega⟩

theorem mem_labelIdx {rs : List R} {labels : List L} {l : L} {c : ℕ} :
    c ∈ labelIdx sz rs labels l ↔ ∃ k r o, labels[k]? = some l ∧ rs[k]? = some r ∧ o < sz r ∧ c = chanOffset sz rs k + o := by
  unfold labelIdx
  rw [List.mem_flatMap]
  constructor
  · rintro ⟨k, h1, h2⟩
    obtain ⟨r, o, h3, h4, h5⟩ := mem_chansOf.1 h2
    exact ⟨k, r, o, mem_labelled.1 h1, h3, h4, h5⟩
  · rintro ⟨k, r, o, h1, h2, h3, h4⟩
    exact ⟨k, mem_labelled.2 h1, mem_chansOf.2 ⟨r, o, h2, h3, h4⟩⟩

theorem labelIdx_lt {rs : List R} {labels : List L} {l : L} {c : ℕ} (h : c ∈ labelIdx sz rs labels l) : c < (rs.map sz).sum := by
  obtain ⟨k, r, o, -, h2, h3, rfl⟩ := mem_labelIdx.1 h
  exact chanOffset_lt h2 h3

theorem labelIdx_disjoint {rs : List R} {labels : List L} {l l' : L} {c : ℕ} (h : c ∈ labelIdx sz rs labels l) (h' : c ∈ labelIdx sz rs labels l') : l = l' := by
  obtain ⟨k, r, o, h1, h2, h3, rfl⟩ := mem_labelIdx.1 h
  obtain ⟨k', r', o', h1', h2', h3', e⟩ := mem_labelIdx.1 h'
  obtain ⟨rfl, -⟩ := field_unique h2 h2' h3 h3' e
  rw [h1] at h1'
  exact Option.some.inj h1'

theorem labelIdx_sorted {rs : List R} {labels : List L} (h : labels.length = rs.length) (l : L) : (labelIdx sz rs labels l).Pairwise (· < ·) := by
  rw [labelIdx, ← labelChans_eq l labels rs h]
  exact (labelChans_sorted l 0 labels rs).1

theorem labelIdx_nodup {rs : List R} {labels : List L} (h : labels.length = rs.length) (l : L) : (labelIdx sz rs labels l).Nodup :=
  (labelIdx_sorted h l).imp fun {_ _} h => Nat.ne_of_lt h

theorem getElem?_flatMap_uniform (M : List ℕ) (f : ℕ → List ℕ) (s : ℕ) (h : ∀ k ∈ M, (f k).length = s) (n o : ℕ) (ho : o < s) :
    (M.flatMap f)[n * s + o]? = (M[n]?).bind fun k => (f k)[o]? := by
  induction M generalizing n with
  | nil => simp
  | cons a M ih =>
    have ha := h a (by simp)
    rw [List.flatMap_cons]
    cases n with
    | zero =>
      rw [List.getElem?_append_left (by omega)]
      simp
    | succ n =>
      have : (n + 1) * s + o = s + (n * s + o) := by ring
      rw [List.getElem?_append_right (by rw [ha, this]; omega), ha, this, Nat.add_sub_cancel_left,
        ih (fun k hk => h k (List.mem_cons_of_mem _ hk)) n]
      simp

/-- Channel `o` of the `n`-th field with label `l`. -/
theorem labelIdx_get {rs : List R} {labels : List L} (hlen : labels.length = rs.length) (l : L) (s : ℕ) (hs : ∀ (k : ℕ) (r : R), labels[k]? = some l → rs[k]? = some r → sz r = s)
    {n k o : ℕ} (hn : (labelled labels l)[n]? = some k) (ho : o < s) : (labelIdx sz rs labels l)[n * s + o]? = some (chanOffset sz rs k + o) := by
  have hsz : ∀ k ∈ labelled labels l, ∃ r, rs[k]? = some r ∧ sz r = s := by
    intro k hk
    have h1 := mem_labelled.1 hk
    have h2 : k < rs.length := by rw [← hlen]; exact (List.getElem?_eq_some_iff.1 h1).1
    exact ⟨rs[k], List.getElem?_eq_getElem h2, hs k _ h1 (List.getElem?_eq_getElem h2)⟩
  rw [labelIdx, getElem?_flatMap_uniform _ _ s ?_ n o ho, hn]
  · obtain ⟨r, h1, h2⟩ := hsz k (List.mem_of_getElem? hn)
    simp [chansOf, h1, h2, ho]
  · intro k hk
    obtain ⟨r, h1, h2⟩ := hsz k hk
    simp [chansOf, h1, h2]

theorem labelIdx_length {rs : List R} {labels : List L} (hlen : labels.length = rs.length) (l : L) (s : ℕ) (hs : ∀ (k : ℕ) (r : R), labels[k]? = some l → rs[k]? = some r → sz r = s) :
    (labelIdx sz rs labels l).length = (labelled labels l).length * s := by
  rw [labelIdx, List.length_flatMap]
  have : ((labelled labels l).map fun k => (chansOf sz rs k).length) = (labelled labels l).map fun _ => s := by
    refine List.map_congr_left fun k hk => ?_
    have h1 := mem_labelled.1 hk
    have h2 : k < rs.length := by rw [← hlen]; exact (List.getElem?_eq_some_iff.1 h1).1
    have h3 : rs[k]? = some rs[k] := List.getElem?_eq_getElem h2
    simp [chansOf, h3, hs k _ h1 h3]
  rw [this]
  simp

theorem fieldTable_spec (t : FType S R) (hpos : ∀ r ∈ t.reprs, 0 < sz r) (labels : List L) (h : labels.length = t.len) :
    ∃ d, fieldTable sz t labels = .ok d ∧ ∀ l ∈ labels, ∃ c idx, FType.lookupLast d l = some (c, idx) ∧ Entry c idx (labelIdx sz t.reprs labels l) := by
  have hall : ∀ l ∈ labels, ∃ c, checkConsecutive (labelChans sz l 0 labels t.reprs) = .ok c ∧
      (c = true ↔ ∃ a, labelChans sz l 0 labels t.reprs = List.range' a (labelChans sz l 0 labels t.reprs).length) := fun l hl =>
    checkConsecutive_iff _ (labelChans_ne_nil l 0 labels t.reprs hpos h hl) (labelChans_sorted l 0 labels t.reprs).1
  choose! c hc1 hc2 using hall
  have hd : indexesFromLabels sz t labels = .ok (labels.map fun l => (l, c l, FType.labelLoop l 0 labels, labelChans sz l 0 labels t.reprs)) := by
    rw [indexesFromLabels, if_neg (not_not.2 h)]
    exact mapE_map fun l hl => by rw [hc1 l hl]; rfl
  have hent : ∀ l ∈ labels, ∃ idx, (if c l then
      match (labelChans sz l 0 labels t.reprs).min?, (labelChans sz l 0 labels t.reprs).max? with
      | some a, some b => Except.ok (l, true, [a, b + 1])
      | _, _ => Except.error Err.value
    else .ok (l, false, labelChans sz l 0 labels t.reprs)) = .ok (l, c l, idx) ∧ Entry (c l) idx (labelIdx sz t.reprs labels l) := by
    intro l hl
    have hne := labelChans_ne_nil (sz := sz) l 0 labels t.reprs hpos h hl
    have hlc := labelChans_eq (sz := sz) l labels t.reprs h
    cases hcl : c l with
    | false => exact ⟨_, rfl, .inl ⟨rfl, hlc⟩⟩
    | true =>
      obtain ⟨a, ha⟩ := (hc2 l hl).1 hcl
      have hm : 0 < (labelChans sz l 0 labels t.reprs).length := List.length_pos_of_ne_nil hne
      generalize (labelChans sz l 0 labels t.reprs).length = m at ha hm
      have h1 : (labelChans sz l 0 labels t.reprs).min? = some a := by
        rw [List.min?_eq_some_iff]
        rw [ha]
        simp only [List.mem_range'_1]
        exact ⟨by omega, fun b hb => hb.1⟩
      have h2 : (labelChans sz l 0 labels t.reprs).max? = some (a + m - 1) := by
        rw [List.max?_eq_some_iff]
        rw [ha]
        simp only [List.mem_range'_1]
        exact ⟨by omega, fun b hb => by omega⟩
      refine ⟨[a, a + m - 1 + 1], ?_, .inr ⟨rfl, a, m, ?_, ?_⟩⟩
      · simp only [h1, h2, if_true]
      · rw [labelIdx, ← hlc, ha]
      · rw [show a + m - 1 + 1 = a + m by omega]
  choose! idx hi1 hi2 using hent
  refine ⟨labels.map fun l => (l, c l, idx l), ?_, fun l hl => ?_⟩
  · rw [fieldTable, hd]
    simp only [bind, Except.bind]
    rw [mapE_ok_iff, List.forall₂_map_left_iff, List.forall₂_map_right_iff, List.forall₂_same]
    exact fun l hl => hi1 l hl
  · exact ⟨c l, idx l, by rw [FType.lookupLast_map (fun l => (c l, idx l)), if_pos hl], hi2 l hl⟩

/-- The fields with label `l` of a tensor. -/
def fieldsView (sz : R → ℕ) (rs : List R) (labels : List L) (s : ℕ) (x : FTensor B P) (l : L) : FieldsT B P :=
  ⟨(labelled labels l).length, s, fun b n o p => x.get b (chanOffset sz rs ((labelled labels l).getD n 0) + o) p⟩

/-- Equality of the entries inside of the shape. -/
def FieldsT.Eqv (f g : FieldsT B P) : Prop := f.n = g.n ∧ f.size = g.size ∧ ∀ b n o p, n < f.n → o < f.size → f.get b n o p = g.get b n o p

theorem FieldsT.Eqv.flat {f g : FieldsT B P} (h : f.Eqv g) : f.flat ≈ g.flat := by
  obtain ⟨h1, h2, h3⟩ := h
  refine ⟨by simp [FieldsT.flat, h1, h2], fun b c p hc => ?_⟩
  have hc : c < f.n * f.size := hc
  have hs : 0 < f.size := by
    rcases Nat.eq_zero_or_pos f.size with h | h
    · simp [h] at hc
    · exact h
  simp only [FieldsT.flat]
  rw [h3 b _ _ p (Nat.div_lt_of_lt_mul (by rw [Nat.mul_comm]; exact hc)) (Nat.mod_lt _ hs), h2]

/-- A table which lists the channels of each label. -/
def Tab (sz : R → ℕ) (rs : List R) (labels : List L) (tab : List (L × Bool × List ℕ)) : Prop :=
  ∀ l ∈ labels, ∃ c idx, FType.lookupLast tab l = some (c, idx) ∧ Entry c idx (labelIdx sz rs labels l)

/-- Group-wise processing in terms of fields.  For every label `l`, the computation `F l` is that of `Φ l` on the fields with that
label; then field `k` of the output, being the `n`-th one with its label, is the `n`-th field of the result for that label. -/
theorem groupedLoop_tab {rs : List R} {rs' : List R'} {sz' : R' → ℕ} {labels : List L} {tin tout : List (L × Bool × List ℕ)} {s s' : L → ℕ}
    {F : L → FTensor B P → Except Err (FTensor B P')} {x : FTensor B P} {out : FTensor B P'} (Φ : L → FieldsT B P')
    (hl : labels.length = rs.length) (hl' : labels.length = rs'.length)
    (hs : ∀ (k : ℕ) l r, labels[k]? = some l → rs[k]? = some r → sz r = s l) (hs' : ∀ (k : ℕ) l r, labels[k]? = some l → rs'[k]? = some r → sz' r = s' l)
    (hin : Tab sz rs labels tin) (hout : Tab sz' rs' labels tout)
    (hx : x.chans = (rs.map sz).sum) (ho : out.chans = (rs'.map sz').sum)
    (hF : ∀ l ∈ labels, ∀ f : FieldsT B P, f.Eqv (fieldsView sz rs labels (s l) x l) → ∀ d : FTensor B P, d ≈ f.flat → ∃ e, F l d = .ok e ∧ e ≈ (Φ l).flat)
    (hΦ : ∀ l ∈ labels, (Φ l).n = (labelled labels l).length ∧ (Φ l).size = s' l) :
    ∃ res, groupedLoop F tin tout x out (keysInOrder labels) = .ok res ∧ res.chans = out.chans ∧
      ∀ (k : ℕ) l, labels[k]? = some l → ∃ n, (labelled labels l)[n]? = some k ∧ ∀ b o p, o < s' l → res.get b (chanOffset sz' rs' k + o) p = (Φ l).get b n o p := by
  have g1 := hin
  have g2 := hout
  obtain ⟨res, h1, h2, h3, -⟩ := groupedLoop_spec (F := F) (tin := tin) (tout := tout) (x := x) (I := labelIdx sz rs labels) (O := labelIdx sz' rs' labels)
    (E := fun l => (Φ l).flat) (keysInOrder labels) out
    (fun l hl => g1 l (mem_keysInOrder.1 hl)) (fun l _ i hi => by rw [hx]; exact labelIdx_lt hi)
    (fun l hl => g2 l (mem_keysInOrder.1 hl)) (fun l _ i hi => by rw [ho]; exact labelIdx_lt hi)
    (fun l _ => labelIdx_nodup hl' l) (fun l _ l' _ i hi hi' => labelIdx_disjoint hi hi') (keysInOrder_nodup labels)
    (fun l hlm d hd1 hd2 => by
      refine hF l (mem_keysInOrder.1 hlm) _ ⟨rfl, rfl, fun _ _ _ _ _ _ => rfl⟩ d ?_
      have hlen := labelIdx_length hl l (s l) (sz := sz) (fun k r => hs k l r)
      refine ⟨by rw [hd1, hlen]; rfl, fun b c p hc => ?_⟩
      rw [hd1, hlen] at hc
      have hs0 : 0 < s l := by
        rcases Nat.eq_zero_or_pos (s l) with h | h
        · simp [h] at hc
        · exact h
      have hn : c / s l < (labelled labels l).length := Nat.div_lt_of_lt_mul (by rw [Nat.mul_comm]; exact hc)
      have hg := labelIdx_get hl l (s l) (sz := sz) (fun k r => hs k l r) (n := c / s l) (k := (labelled labels l)[c / s l]) (o := c % s l)
        (List.getElem?_eq_getElem hn) (Nat.mod_lt _ hs0)
      rw [Nat.div_add_mod'] at hg
      rw [hd2 b c _ p hg]
      simp only [FieldsT.flat, fieldsView]
      rw [List.getD_eq_getElem _ _ hn])
    (fun l hlm => by
      obtain ⟨a1, a2⟩ := hΦ l (mem_keysInOrder.1 hlm)
      rw [labelIdx_length hl' l (s' l) (sz := sz') (fun k r => hs' k l r)]
      simp [FieldsT.flat, a1, a2])
  refine ⟨res, h1, h2, fun k l hk => ?_⟩
  obtain ⟨n, hn, hn'⟩ := List.getElem_of_mem (mem_labelled.2 hk)
  refine ⟨n, by rw [← hn']; exact List.getElem?_eq_getElem hn, fun b o p ho' => ?_⟩
  have hlm : l ∈ labels := List.mem_of_getElem? hk
  obtain ⟨a1, a2⟩ := hΦ l hlm
  have hg := labelIdx_get hl' l (s' l) (sz := sz') (fun k r => hs' k l r) (n := n) (k := k) (o := o) (by rw [← hn']; exact List.getElem?_eq_getElem hn) ho'
  rw [h3 l (mem_keysInOrder.2 hlm) b _ _ p hg]
  simp only [FieldsT.flat, a2]
  have hp : 0 < s' l := by omega
  congr 1
  · rw [Nat.mul_comm, Nat.mul_add_div hp, Nat.div_eq_of_lt ho', Nat.add_zero]
  · rw [Nat.mul_comm, Nat.mul_add_mod, Nat.mod_eq_of_lt ho']

/-- Group-wise processing in terms of fields.  For every label `l`, the computation `F l` is that of `Φ l` on the fields with that
label; then field `k` of the output, being the `n`-th one with its label, is the `n`-th field of the result for that label. -/
theorem groupedLoop_fields {rs : List R} {rs' : List R'} {sz' : R' → ℕ} {t : FType S R} {t' : FType S' R'} {labels : List L} {tin tout : List (L × Bool × List ℕ)} {s s' : L → ℕ}
    {F : L → FTensor B P → Except Err (FTensor B P')} {x : FTensor B P} {out : FTensor B P'} (Φ : L → FieldsT B P')
    (hrs : t.reprs = rs) (hrs' : t'.reprs = rs') (hl : labels.length = rs.length) (hl' : labels.length = rs'.length)
    (hpos : ∀ r ∈ rs, 0 < sz r) (hpos' : ∀ r ∈ rs', 0 < sz' r)
    (hs : ∀ (k : ℕ) l r, labels[k]? = some l → rs[k]? = some r → sz r = s l) (hs' : ∀ (k : ℕ) l r, labels[k]? = some l → rs'[k]? = some r → sz' r = s' l)
    (hin : fieldTable sz t labels = .ok tin) (hout : fieldTable sz' t' labels = .ok tout)
    (hx : x.chans = (rs.map sz).sum) (ho : out.chans = (rs'.map sz').sum)
    (hF : ∀ l ∈ labels, ∀ f : FieldsT B P, f.Eqv (fieldsView sz rs labels (s l) x l) → ∀ d : FTensor B P, d ≈ f.flat → ∃ e, F l d = .ok e ∧ e ≈ (Φ l).flat)
    (hΦ : ∀ l ∈ labels, (Φ l).n = (labelled labels l).length ∧ (Φ l).size = s' l) :
    ∃ res, groupedLoop F tin tout x out (keysInOrder labels) = .ok res ∧ res.chans = out.chans ∧
      ∀ (k : ℕ) l, labels[k]? = some l → ∃ n, (labelled labels l)[n]? = some k ∧ ∀ b o p, o < s' l → res.get b (chanOffset sz' rs' k + o) p = (Φ l).get b n o p := by
  subst hrs hrs'
  obtain ⟨d1, e1, g1⟩ := fieldTable_spec t hpos labels hl
  obtain ⟨d2, e2, g2⟩ := fieldTable_spec t' hpos' labels hl'
  rw [hin] at e1; cases e1
  rw [hout] at e2; cases e2
  exact groupedLoop_tab Φ hl hl' hs hs' g1 g2 hx ho hF hΦ

end Escnn
