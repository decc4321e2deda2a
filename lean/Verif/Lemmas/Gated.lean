import Verif.Lemmas.GroupedRun
import Verif.Model.Gated

/-!
# Gates: positions kept in the output, numbering of the fields
-/

namespace Escnn

variable {B P P' S R R' L : Type} [DecidableEq L] {sz : R → ℕ}

/-- Group-wise processing where the input and the output have different lists of fields, with the same number of fields of each of the labels `ls`. -/
theorem groupedLoop_run2 {rs : List R} {rs' : List R'} {sz' : R' → ℕ} {labels labels' ls : List L} {tin tout : List (L × Bool × List ℕ)} {s s' : L → ℕ}
    {F : L → FTensor B P → Except Err (FTensor B P')} {x : FTensor B P} {out : FTensor B P'} (φ : L → ℕ → B → ℕ → P' → ℝ)
    (hls : ls.Nodup) (hmem : ∀ l ∈ ls, l ∈ labels ∧ l ∈ labels')
    (hl : labels.length = rs.length) (hl' : labels'.length = rs'.length)
    (hs : ∀ (k : ℕ) l r, l ∈ ls → labels[k]? = some l → rs[k]? = some r → sz r = s l) (hs' : ∀ (k : ℕ) l r, l ∈ ls → labels'[k]? = some l → rs'[k]? = some r → sz' r = s' l)
    (hin : Tab sz rs labels tin) (hout : Tab sz' rs' labels' tout)
    (hx : x.chans = (rs.map sz).sum) (ho : out.chans = (rs'.map sz').sum)
    (hF : ∀ l ∈ ls, ∀ d : FTensor B P, Holds sz rs labels (s l) x l d → ∃ e, F l d = .ok e ∧ e.chans = (labelled labels' l).length * s' l ∧
      ∀ n < (labelled labels' l).length, ∀ b o p, o < s' l → e.get b (n * s' l + o) p = φ l n b o p) :
    ∃ res, groupedLoop F tin tout x out ls = .ok res ∧ res.chans = (rs'.map sz').sum ∧
      (∀ (k : ℕ) l, labels'[k]? = some l → l ∈ ls → ∀ b o p, o < s' l → res.get b (chanOffset sz' rs' k + o) p = φ l ((labelled labels' l).idxOf k) b o p) ∧
      ∀ (k : ℕ) l r, labels'[k]? = some l → rs'[k]? = some r → l ∉ ls → ∀ b o p, o < sz' r → res.get b (chanOffset sz' rs' k + o) p = out.get b (chanOffset sz' rs' k + o) p := by
  obtain ⟨res, h1, h2, h3, h4⟩ := groupedLoop_spec (F := F) (tin := tin) (tout := tout) (x := x) (I := labelIdx sz rs labels) (O := labelIdx sz' rs' labels')
    (E := fun l => ⟨(labelled labels' l).length * s' l, fun b c p => φ l (c / s' l) b (c % s' l) p⟩) ls out
    (fun l hl => hin l (hmem l hl).1) (fun l _ i hi => by rw [hx]; exact labelIdx_lt hi)
    (fun l hl => hout l (hmem l hl).2) (fun l _ i hi => by rw [ho]; exact labelIdx_lt hi)
    (fun l _ => labelIdx_nodup hl' l) (fun l _ l' _ i hi hi' => labelIdx_disjoint hi hi') hls
    (fun l hlm d hd1 hd2 => by
      have hlen := labelIdx_length hl l (s l) (sz := sz) (fun k r => hs k l r hlm)
      obtain ⟨e, e1, e2, e3⟩ := hF l hlm d ⟨by rw [hd1, hlen], fun n k hn b o p ho => hd2 b _ _ p (labelIdx_get hl l (s l) (fun k r => hs k l r hlm) hn ho)⟩
      refine ⟨e, e1, e2, fun b c p hc => ?_⟩
      rw [e2] at hc
      have hs0 : 0 < s' l := by
        rcases Nat.eq_zero_or_pos (s' l) with h | h
        · simp [h] at hc
        · exact h
      have hn : c / s' l < (labelled labels' l).length := Nat.div_lt_of_lt_mul (by rw [Nat.mul_comm]; exact hc)
      have := e3 (c / s' l) hn b (c % s' l) p (Nat.mod_lt _ hs0)
      rw [Nat.div_add_mod'] at this
      exact this)
    (fun l hlm => (labelIdx_length hl' l (s' l) (fun k r => hs' k l r hlm)).symm)
  refine ⟨res, h1, h2.trans ho, fun k l hk hlm b o p hos => ?_, fun k l r hk hr hln b o p hos => ?_⟩
  · have hkm : k ∈ labelled labels' l := mem_labelled.2 hk
    have hn : (labelled labels' l)[(labelled labels' l).idxOf k]? = some k := by
      rw [List.getElem?_eq_getElem (List.idxOf_lt_length_of_mem hkm), List.getElem_idxOf]
    have := h3 l hlm b _ _ p (labelIdx_get hl' l (s' l) (fun k r => hs' k l r hlm) hn hos)
    have hs0 : 0 < s' l := by omega
    rw [this]
    simp only
    rw [Nat.mul_comm, Nat.mul_add_div hs0, Nat.div_eq_of_lt hos, Nat.mul_add_mod, Nat.mod_eq_of_lt hos, add_zero]
  · refine h4 b _ p fun l' hl' hmem' => ?_
    have : chanOffset sz' rs' k + o ∈ labelIdx sz' rs' labels' l := mem_labelIdx.2 ⟨k, r, o, hk, hr, hos, rfl⟩
    exact hln (labelIdx_disjoint this hmem' ▸ hl')

/-- The positions of the kept labels. -/
def keptPos (labels : List (Option L)) (drop : Bool) : List ℕ := (List.range labels.length).filter fun k => ((labels[k]?).bind id).isSome || !drop

theorem filter_zip_eq (labels : List (Option L)) (rs : List R) (q : Option L → Bool) (h : labels.length = rs.length) :
    (labels.zip rs).filter (fun e => q e.1) = ((List.range labels.length).filter fun k => ((labels[k]?).map q).getD false).filterMap fun k => (labels.zip rs)[k]? := by
  induction labels using List.reverseRecOn generalizing rs with
  | nil => simp
  | append_singleton labels l ih =>
    rcases List.eq_nil_or_concat rs with rfl | ⟨rs, r, rfl⟩
    · simp at h
    · have h' : labels.length = rs.length := by simpa using h
      rw [List.concat_eq_append, List.zip_append h', List.filter_append, ih rs h', List.length_append, List.length_singleton, List.range_succ, List.filter_append, List.filterMap_append]
      congr 1
      · have e : (List.filter (fun k => ((labels ++ [l])[k]?.map q).getD false) (List.range labels.length)) = List.filter (fun k => (labels[k]?.map q).getD false) (List.range labels.length) := by
          refine List.filter_congr fun k hk => ?_
          rw [List.getElem?_append_left (List.mem_range.1 hk)]
        rw [e]
        refine List.filterMap_congr fun k hk => ?_
        have hk' := List.mem_range.1 (List.mem_filter.1 hk).1
        rw [List.getElem?_append_left (by simp; omega)]
      · have e2 : (labels.zip rs ++ [l].zip [r])[labels.length]? = some (l, r) := by
          rw [List.getElem?_append_right (by simp [h'])]
          simp [h']
        cases hq : q l with
        | true =>
          have e3 : (labels.zip rs ++ [(l, r)])[labels.length]? = some (l, r) := e2
          simp [List.filter_cons, hq, List.filterMap_cons, e3]
        | false => simp [List.filter_cons, hq]

theorem kept_forall {labels : List (Option L)} {rs : List R} (h : labels.length = rs.length) (drop : Bool) :
    List.Forall₂ (fun k e => (labels.zip rs)[k]? = some e) (keptPos labels drop) ((labels.zip rs).filter fun e => e.1.isSome || !drop) := by
  rw [filter_zip_eq labels rs (fun a => a.isSome || !drop) h]
  have e : ((List.range labels.length).filter fun k => ((labels[k]?).map fun a => a.isSome || !drop).getD false) = keptPos labels drop := by
    refine List.filter_congr fun k hk => ?_
    rw [List.getElem?_eq_getElem (List.mem_range.1 hk)]
    rfl
  rw [e]
  have hlt : ∀ k ∈ keptPos labels drop, k < (labels.zip rs).length := by
    intro k hk
    have := List.mem_range.1 (List.mem_filter.1 hk).1
    simp; omega
  generalize keptPos labels drop = K at *
  clear e
  induction K with
  | nil => exact .nil
  | cons k K ih =>
    have hk := hlt k (by simp)
    rw [List.filterMap_cons, List.getElem?_eq_getElem hk]
    exact .cons (List.getElem?_eq_getElem hk) (ih fun k hk => hlt k (List.mem_cons_of_mem _ hk))

/-- The fields with a label keep their order. -/
theorem labelled_kept {M : Type} [DecidableEq M] {labels labels' : List M} {K : List ℕ} (hK : List.Forall₂ (fun (k : ℕ) l => labels[k]? = some l) K labels') (l : M) :
    (labelled labels' l).map (fun j => K.getD j 0) = K.filter fun k => labels[k]? = some l := by
  have hlen := hK.length_eq
  have h1 : K = (List.range K.length).map fun j => K.getD j 0 := by
    refine List.ext_getElem (by simp) fun i h1 h2 => ?_
    simp [List.getD]
    rw [List.getElem?_eq_getElem h1]; rfl
  conv_rhs => rw [h1]
  rw [List.filter_map, labelled, ← hlen]
  congr 1
  refine List.filter_congr fun j hj => ?_
  have hj' := List.mem_range.1 hj
  have h2 := (List.forall₂_iff_get.1 hK).2 j hj' (by omega)
  simp only [List.get_eq_getElem] at h2
  simp only [Function.comp]
  rw [List.getElem?_eq_getElem (show j < labels'.length by omega)]
  have : K.getD j 0 = K[j] := by simp [List.getD, hj']
  simp only [this, h2]

theorem labelled_append' {M : Type} [DecidableEq M] (A C : List M) (l : M) : labelled (A ++ C) l = labelled A l ++ (labelled C l).map (A.length + ·) := by
  induction C using List.reverseRecOn with
  | nil => simp [labelled]
  | append_singleton C c ih =>
    rw [← List.append_assoc, labelled_append, ih, labelled_append, List.map_append, List.append_assoc]
    congr 1
    split_ifs <;> simp

theorem labelled_eq_nil {M : Type} [DecidableEq M] {A : List M} {l : M} (h : l ∉ A) : labelled A l = [] := by
  rw [List.eq_nil_iff_forall_not_mem]
  exact fun k hk => h (List.mem_of_getElem? (mem_labelled.1 hk))

theorem labelled_replicate {M : Type} [DecidableEq M] (m : ℕ) (l : M) : labelled (List.replicate m l) l = List.range' 0 m := by
  unfold labelled
  rw [List.length_replicate, List.filter_eq_self.2, List.range_eq_range']
  intro k hk
  simp [List.getElem?_replicate, List.mem_range.1 hk]

/-- A label contiguous in a list stays contiguous if other labels are removed. -/
theorem range_filter {M : Type} [DecidableEq M] {labels : List M} {l : M} (q : M → Bool) (hq : q l = true) (h : ∃ i m, labelled labels l = List.range' i m) :
    ∃ i m, labelled (labels.filter q) l = List.range' i m := by
  obtain ⟨i, m, h⟩ := h
  rcases Nat.eq_zero_or_pos m with rfl | hm
  · refine ⟨0, 0, labelled_eq_nil fun hm => ?_⟩
    obtain ⟨k, hk⟩ := List.mem_iff_getElem?.1 (List.mem_filter.1 hm).1
    have := mem_labelled.2 hk
    rw [h] at this
    simp at this
  · have hiff : ∀ k, labels[k]? = some l ↔ i ≤ k ∧ k < i + m := by
      intro k
      rw [← mem_labelled, h, List.mem_range'_1]
    have hle : i + m ≤ labels.length := by
      have := (List.getElem?_eq_some_iff.1 ((hiff (i + m - 1)).2 (by omega))).1
      omega
    have hsplit : labels = labels.take i ++ (List.replicate m l ++ labels.drop (i + m)) := by
      have e1 : (labels.drop i).take m = List.replicate m l := by
        rw [List.eq_replicate_iff]
        refine ⟨by simp; omega, fun b hb => ?_⟩
        obtain ⟨k, hk⟩ := List.mem_iff_getElem?.1 hb
        rw [List.getElem?_take, List.getElem?_drop] at hk
        split_ifs at hk with hkm
        rw [(hiff (i + k)).2 (by omega)] at hk
        exact (Option.some.inj hk).symm
      conv_lhs => rw [← List.take_append_drop i labels, ← List.take_append_drop m (labels.drop i), e1, List.drop_drop]
    have hA : l ∉ labels.take i := by
      intro hm
      obtain ⟨k, hk⟩ := List.mem_iff_getElem?.1 hm
      rw [List.getElem?_take] at hk
      split_ifs at hk with hki
      have := (hiff k).1 hk
      omega
    have hC : l ∉ labels.drop (i + m) := by
      intro hm
      obtain ⟨k, hk⟩ := List.mem_iff_getElem?.1 hm
      rw [List.getElem?_drop] at hk
      have := (hiff _).1 hk
      omega
    refine ⟨((labels.take i).filter q).length, m, ?_⟩
    conv_lhs => rw [hsplit]
    rw [List.filter_append, List.filter_append, labelled_append', labelled_append', labelled_eq_nil (fun h => hA (List.mem_filter.1 h).1), labelled_eq_nil (fun h => hC (List.mem_filter.1 h).1)]
    rw [List.filter_replicate_of_pos hq, labelled_replicate]
    simp [List.map_add_range']

theorem lookupLast_filter {M V : Type} [DecidableEq M] (D : List (M × V)) (q : M → Bool) (l : M) (hq : q l = true) : FType.lookupLast (D.filter fun e => q e.1) l = FType.lookupLast D l := by
  unfold FType.lookupLast
  rw [List.filter_filter]
  congr 2
  refine List.filter_congr fun e _ => ?_
  by_cases h : e.1 = l
  · simp [h, hq]
  · simp [h]

/-- The tables of the gated nonlinearities. -/
theorem gatedTables_spec {rs : List R} (hpos : ∀ r ∈ rs, 0 < sz r) (labels : List (Option L)) (h : labels.length = rs.length) (drop : Bool) :
    ∃ tabs, gatedTables sz rs labels drop = .ok tabs ∧ Tab sz rs labels tabs.1 ∧
      Tab sz (((labels.zip rs).filter fun e => e.1.isSome || !drop).map Prod.snd) (((labels.zip rs).filter fun e => e.1.isSome || !drop).map Prod.fst) tabs.2 := by
  have hinv := contigLoop_inv labels [] [] (fun l => ⟨fun _ => rfl, fun h => absurd h (by simp)⟩)
  rw [List.nil_append, List.getLast?_nil] at hinv
  have hfst : ((labels.zip rs).filter fun e => e.1.isSome || !drop).map Prod.fst = labels.filter fun a => a.isSome || !drop := by
    conv_rhs => rw [← List.map_fst_zip (l₁ := labels) (l₂ := rs) (by omega), List.filter_map]
    rfl
  obtain ⟨d1, a1, a2⟩ := flagTable_spec (sz := sz) hpos labels h _ (contigLoop_mem labels) fun l hl => (hinv l).2 hl
  obtain ⟨d2, b1, b2⟩ := flagTable_spec (sz := sz) (rs := ((labels.zip rs).filter fun e => e.1.isSome || !drop).map Prod.snd)
    (by
      intro r hr
      obtain ⟨e, he, rfl⟩ := List.mem_map.1 hr
      exact hpos _ (List.of_mem_zip (List.mem_filter.1 he).1).2)
    (((labels.zip rs).filter fun e => e.1.isSome || !drop).map Prod.fst) (by simp) ((contigLoop none [] labels).filter fun e => e.1.isSome || !drop)
    (by
      intro e he
      rw [hfst]
      exact List.mem_filter.2 ⟨contigLoop_mem labels e (List.mem_filter.1 he).1, (List.mem_filter.1 he).2⟩)
    (by
      intro l hl
      rw [hfst] at hl ⊢
      obtain ⟨hl1, hl2⟩ := List.mem_filter.1 hl
      obtain ⟨c, hc1, hc2⟩ := (hinv l).2 hl1
      exact ⟨c, by rw [lookupLast_filter _ (fun a => a.isSome || !drop) l hl2, hc1], fun hc => range_filter _ hl2 (hc2 hc)⟩)
  exact ⟨(d1, d2), by simp only [gatedTables, bind, Except.bind, a1, b1], a2, b2⟩

/-- The number of a field in the order of the labels `ls`. -/
def orderIdx (labels ls : List L) (l : L) (k : ℕ) : ℕ := nextOf labels ls l + (labelled labels l).idxOf k

theorem orderIdx_lt {labels ls : List L} {l : L} {k : ℕ} (hl : l ∈ ls) (hk : labels[k]? = some l) :
    orderIdx labels ls l k < (ls.map fun l => nfieldsOf labels l).sum := by
  obtain ⟨pre, q, h1, h2⟩ := List.eq_append_cons_of_mem hl
  have hn : nextOf labels ls l = (pre.map fun s' => nfieldsOf labels s').sum := by
    rw [nextOf, h1, List.takeWhile_append_of_pos (fun a ha => by simpa using fun e : a = l => h2 (e ▸ ha)), List.takeWhile_cons_of_neg (by simp), List.append_nil]
  have : (labelled labels l).idxOf k < nfieldsOf labels l := by
    rw [nfieldsOf, ← labelled_length]
    exact List.idxOf_lt_length_of_mem (mem_labelled.2 hk)
  rw [orderIdx, hn, h1, List.map_append, List.sum_append, List.map_cons, List.sum_cons]
  omega

theorem orderIdx_inj {labels ls : List L} {l l' : L} {k k' : ℕ} (hl : l ∈ ls) (hl' : l' ∈ ls) (hk : labels[k]? = some l) (hk' : labels[k']? = some l')
    (e : orderIdx labels ls l k = orderIdx labels ls l' k') : k = k' := by
  have hlt : ∀ {s : L} {k : ℕ}, labels[k]? = some s → (labelled labels s).idxOf k < nfieldsOf labels s := by
    intro s k hk
    rw [nfieldsOf, ← labelled_length]
    exact List.idxOf_lt_length_of_mem (mem_labelled.2 hk)
  have hsplit : ∀ {s : L}, s ∈ ls → ∃ pre q, ls = pre ++ s :: q ∧ s ∉ pre ∧ nextOf labels ls s = (pre.map fun s' => nfieldsOf labels s').sum := by
    intro s hs
    obtain ⟨pre, q, h1, h2⟩ := List.eq_append_cons_of_mem hs
    refine ⟨pre, q, h1, h2, ?_⟩
    rw [nextOf, h1, List.takeWhile_append_of_pos (fun a ha => by simpa using fun e : a = s => h2 (e ▸ ha)), List.takeWhile_cons_of_neg (by simp), List.append_nil]
  obtain ⟨pre, q, hq, hp, hn⟩ := hsplit hl
  obtain ⟨pre', q', hq', hp', hn'⟩ := hsplit hl'
  have h1 := hlt hk
  have h2 := hlt hk'
  unfold orderIdx at e
  rcases List.append_eq_append_iff.1 (hq.symm.trans hq') with ⟨w, hw1, hw2⟩ | ⟨w, hw1, hw2⟩
  · cases w with
    | nil =>
      simp only [List.append_nil, List.nil_append, List.cons.injEq] at hw1 hw2
      obtain ⟨rfl, -⟩ := hw2
      subst hw1
      exact (List.idxOf_inj (mem_labelled.2 hk)).1 (by omega)
    | cons a w =>
      obtain ⟨rfl, -⟩ := List.cons.inj hw2
      rw [hw1] at hn'
      simp only [List.map_append, List.sum_append, List.map_cons, List.sum_cons] at hn'
      omega
  · cases w with
    | nil =>
      simp only [List.append_nil, List.nil_append, List.cons.injEq] at hw1 hw2
      obtain ⟨rfl, -⟩ := hw2
      subst hw1
      exact (List.idxOf_inj (mem_labelled.2 hk)).1 (by omega)
    | cons a w =>
      obtain ⟨rfl, -⟩ := List.cons.inj hw2
      rw [hw1] at hn
      simp only [List.map_append, List.sum_append, List.map_cons, List.sum_cons] at hn
      omega

/-- The fields of the output. -/
def keptFields (labels : List (Option L)) (rs : List R) (drop : Bool) : List R := ((labels.zip rs).filter fun e => e.1.isSome || !drop).map Prod.snd
/-- Their labels. -/
def keptLabels (labels : List (Option L)) (rs : List R) (drop : Bool) : List (Option L) := ((labels.zip rs).filter fun e => e.1.isSome || !drop).map Prod.fst

theorem kept_fields {labels : List (Option L)} {rs : List R} (h : labels.length = rs.length) (drop : Bool) :
    List.Forall₂ (fun (k : ℕ) r => rs[k]? = some r) (keptPos labels drop) (keptFields labels rs drop) ∧
    List.Forall₂ (fun (k : ℕ) l => labels[k]? = some l) (keptPos labels drop) (keptLabels labels rs drop) := by
  have := kept_forall h drop
  constructor
  · exact List.forall₂_map_right_iff.2 (this.imp fun k e he => (List.getElem?_zip_eq_some.1 he).2)
  · exact List.forall₂_map_right_iff.2 (this.imp fun k e he => (List.getElem?_zip_eq_some.1 he).1)

theorem keptPos_filter (labels : List (Option L)) (drop : Bool) (l : Option L) (hl : (l.isSome || !drop) = true) : ((keptPos labels drop).filter fun k => labels[k]? = some l) = labelled labels l := by
  rw [keptPos, List.filter_filter, labelled]
  refine List.filter_congr fun k hk => ?_
  by_cases h : labels[k]? = some l
  · simp [h, hl]
  · simp [h]

theorem forall₂_get {α β : Type} {Q : α → β → Prop} {A : List α} {C : List β} (h : List.Forall₂ Q A C) {k : ℕ} {a : α} (hk : A[k]? = some a) : ∃ c, C[k]? = some c ∧ Q a c := by
  obtain ⟨h1, h2⟩ := List.getElem?_eq_some_iff.1 hk
  have h3 : k < C.length := by rw [← h.length_eq]; exact h1
  refine ⟨C[k], List.getElem?_eq_getElem h3, ?_⟩
  have := (List.forall₂_iff_get.1 h).2 k h1 h3
  simpa [h2] using this

/-- The fields with one label have the same numbers in the input and in the output. -/
theorem kept_idxOf {labels : List (Option L)} {rs : List R} (h : labels.length = rs.length) {drop : Bool} {l : Option L} (hl : (l.isSome || !drop) = true) {k' k : ℕ}
    (hk' : (keptPos labels drop)[k']? = some k) (hkl : labels[k]? = some l) :
    (keptLabels labels rs drop)[k']? = some l ∧ (labelled (keptLabels labels rs drop) l).idxOf k' = (labelled labels l).idxOf k ∧
      (labelled (keptLabels labels rs drop) l).length = (labelled labels l).length := by
  have hf := (kept_fields h drop).2
  have hmap := labelled_kept hf l
  rw [keptPos_filter labels drop l hl] at hmap
  obtain ⟨l', hl', e⟩ := forall₂_get hf hk'
  obtain rfl : l' = l := by rw [hkl] at e; exact (Option.some.inj e).symm
  have hlen := congrArg List.length hmap
  rw [List.length_map] at hlen
  refine ⟨hl', ?_, hlen⟩
  have hm : k' ∈ labelled (keptLabels labels rs drop) l' := mem_labelled.2 hl'
  have hi := List.idxOf_lt_length_of_mem hm
  have h1 : ((labelled (keptLabels labels rs drop) l').map fun j => (keptPos labels drop).getD j 0)[(labelled (keptLabels labels rs drop) l').idxOf k']? = some k := by
    rw [List.getElem?_map, List.getElem?_eq_getElem hi, List.getElem_idxOf]
    simp [List.getD, hk']
  rw [hmap] at h1
  obtain ⟨h2, h3⟩ := List.getElem?_eq_some_iff.1 h1
  exact ((labelled_nodup labels l').idxOf_getElem _ h2 ▸ (congrArg (fun a => (labelled labels l').idxOf a) h3))

section run
variable {rs : List R} {labels : List (Option L)} {order : List L} {Q : ℕ} {sub : L → ℕ} {drop : Bool}
  {tin tout : List (Option L × Bool × List ℕ)}

/-- The multiplication with the gates. -/
theorem gatedLoop_spec (h : labels.length = rs.length) (hQ : 0 < Q) (hs : ∀ (k : ℕ) l r, labels[k]? = some (some l) → rs[k]? = some r → sz r = Q * sub l)
    (hsub : ∀ l ∈ order, 0 < sub l)
    (hnd : order.Nodup) (hmem : ∀ l, l ∈ order ↔ some l ∈ labels)
    (hin : Tab sz rs labels tin) (hout : Tab sz (keptFields labels rs drop) (keptLabels labels rs drop) tout)
    {x out gates : FTensor B P} (hx : x.chans = (rs.map sz).sum) (ho : out.chans = ((keptFields labels rs drop).map sz).sum) :
    ∃ res, groupedLoop (gatedStep Q sub labels order gates) tin tout x out (order.map some) = .ok res ∧ res.chans = ((keptFields labels rs drop).map sz).sum ∧
      (∀ (k' k : ℕ) l, (keptPos labels drop)[k']? = some k → labels[k]? = some (some l) → ∀ b o p, o < Q * sub l →
        res.get b (chanOffset sz (keptFields labels rs drop) k' + o) p =
          x.get b (chanOffset sz rs k + o) p * gates.get b (orderIdx labels (order.map some) (some l) k * Q + o / sub l) p) ∧
      ∀ (k' k : ℕ) r, (keptPos labels drop)[k']? = some k → labels[k]? = some none → rs[k]? = some r → ∀ b o p, o < sz r →
        res.get b (chanOffset sz (keptFields labels rs drop) k' + o) p = out.get b (chanOffset sz (keptFields labels rs drop) k' + o) p := by
  obtain ⟨hf1, hf2⟩ := kept_fields (rs := rs) h drop
  have hpos : ∀ {k : ℕ} {l : L}, labels[k]? = some (some l) → ∃ k' : ℕ, (keptPos labels drop)[k']? = some k := by
    intro k l hk
    have hm : k ∈ keptPos labels drop := List.mem_filter.2 ⟨List.mem_range.2 (List.getElem?_eq_some_iff.1 hk).1, by simp [hk]⟩
    exact List.mem_iff_getElem?.1 hm
  let s : Option L → ℕ := fun l => match l with | none => 0 | some l => Q * sub l
  have hkept : ∀ (k' : ℕ) (l : Option L), (keptLabels labels rs drop)[k']? = some l → ∃ k, (keptPos labels drop)[k']? = some k ∧ labels[k]? = some l := by
    intro k' l hl
    have h1 := (List.getElem?_eq_some_iff.1 hl).1
    rw [← hf2.length_eq] at h1
    obtain ⟨l2, e1, e2⟩ := forall₂_get hf2 (List.getElem?_eq_getElem h1)
    rw [hl] at e1
    obtain rfl := Option.some.inj e1
    exact ⟨_, List.getElem?_eq_getElem h1, e2⟩
  obtain ⟨res, h1, h2, h3, h4⟩ := groupedLoop_run2 (x := x) (out := out) (F := gatedStep Q sub labels order gates) (rs := rs) (rs' := keptFields labels rs drop) (sz := sz) (sz' := sz)
    (labels := labels) (labels' := keptLabels labels rs drop) (ls := order.map some) (tin := tin) (tout := tout) (s := s) (s' := s)
    (fun l n b o p => match l with
      | none => 0
      | some l => x.get b (chanOffset sz rs ((labelled labels (some l)).getD n 0) + o) p * gates.get b (nextOf labels (order.map some) (some l) * Q + (n * Q + o / sub l)) p)
    (hnd.map (Option.some_injective _))
    (by
      intro l hl
      obtain ⟨l, hl', rfl⟩ := List.mem_map.1 hl
      have hm := (hmem l).1 hl'
      refine ⟨hm, ?_⟩
      obtain ⟨k, hk⟩ := List.mem_iff_getElem?.1 hm
      obtain ⟨k', hk'⟩ := hpos hk
      exact List.mem_of_getElem? (kept_idxOf h (by simp) hk' hk).1)
    h (by rw [← hf2.length_eq, hf1.length_eq])
    (by
      intro k l r hl hk hr
      obtain ⟨l, hl', rfl⟩ := List.mem_map.1 hl
      exact hs k l r hk hr)
    (by
      intro k' l r hl hk hr
      obtain ⟨l, hl', rfl⟩ := List.mem_map.1 hl
      obtain ⟨k, e1, e2⟩ := hkept k' _ hk
      obtain ⟨r', e3, e4⟩ := forall₂_get hf1 e1
      rw [hr] at e3
      obtain rfl := Option.some.inj e3
      exact hs k l r e2 e4)
    hin hout hx ho
    (by
      intro l hl d hd
      obtain ⟨l, hl', rfl⟩ := List.mem_map.1 hl
      have hm := (hmem l).1 hl'
      obtain ⟨k, hk⟩ := List.mem_iff_getElem?.1 hm
      obtain ⟨k', hk'⟩ := hpos hk
      have hlen := (kept_idxOf (rs := rs) h (by simp) hk' hk).2.2
      have hd1 : d.chans = (labelled labels (some l)).length * (Q * sub l) := hd.1
      rw [labelled_length, ← Nat.mul_assoc] at hd1
      have hd1 : d.chans = nfieldsOf labels (some l) * Q * sub l := hd1
      refine ⟨(⟨nfieldsOf labels (some l) * Q, sub l, fun b i o p => d.get b (i * sub l + o) p * gates.get b (nextOf labels (order.map some) (some l) * Q + i) p⟩ : FieldsT B P).flat, ?_, ?_, ?_⟩
      · simp only [gatedStep, FTensor.toFields, if_pos hd1, bind, Except.bind]
      · rw [hlen, labelled_length]
        show nfieldsOf labels (some l) * Q * sub l = nfieldsOf labels (some l) * (Q * sub l)
        rw [Nat.mul_assoc]
      · intro n hn b o p ho
        rw [hlen] at hn
        have ho : o < Q * sub l := ho
        have hsl := hsub l hl'
        have hget : (labelled labels (some l))[n]? = some ((labelled labels (some l)).getD n 0) := by simp [List.getD, hn]
        have e1 : n * s (some l) + o = (n * Q + o / sub l) * sub l + o % sub l := by
          show n * (Q * sub l) + o = _
          have := Nat.div_add_mod' o (sub l)
          rw [Nat.add_mul, Nat.mul_assoc, Nat.add_assoc, this]
        have e2 := hd.2 n _ hget b o p ho
        rw [e1] at e2 ⊢
        rw [FieldsT.flat_get (⟨nfieldsOf labels (some l) * Q, sub l, fun b i o p => d.get b (i * sub l + o) p * gates.get b (nextOf labels (order.map some) (some l) * Q + i) p⟩ : FieldsT B P) b p
          (n := n * Q + o / sub l) (o := o % sub l) (Nat.mod_lt _ hsl)]
        simp only [e2])
  refine ⟨res, h1, h2, fun k' k l hk' hk b o p ho => ?_, fun k' k r hk' hk hr b o p ho => ?_⟩
  · obtain ⟨a1, a2, -⟩ := kept_idxOf (rs := rs) h (l := some l) (by simp) hk' hk
    have := h3 k' (some l) a1 (List.mem_map_of_mem ((hmem l).2 (List.mem_of_getElem? hk))) b o p ho
    rw [this]
    simp only [a2]
    have hkm : k ∈ labelled labels (some l) := mem_labelled.2 hk
    have hn : (labelled labels (some l)).getD ((labelled labels (some l)).idxOf k) 0 = k := by
      simp [List.getD, List.getElem?_eq_getElem (List.idxOf_lt_length_of_mem hkm), List.getElem_idxOf]
    rw [hn, orderIdx, Nat.add_mul, Nat.add_assoc]
  · have hl' : (keptLabels labels rs drop)[k']? = some none := by
      obtain ⟨l', hl', e⟩ := forall₂_get hf2 hk'
      rw [hk] at e
      rw [hl', ← e]
    obtain ⟨r', e3, e4⟩ := forall₂_get hf1 hk'
    rw [hr] at e4
    obtain rfl := Option.some.inj e4
    exact h4 k' none r hl' e3 (by simp) b o p ho

/-- Reading the gates. -/
theorem readGates (h : labels.length = rs.length) (hQ : ∀ (k : ℕ) r, labels[k]? = some none → rs[k]? = some r → sz r = Q) (hg : none ∈ labels)
    (hin : Tab sz rs labels tin) {x : FTensor B P} (hx : x.chans = (rs.map sz).sum) :
    ∃ c idx d, tabGet tin none = .ok (c, idx) ∧ Entry c idx (labelIdx sz rs labels none) ∧ readIdx x c idx = .ok d ∧ d.chans = (labelled labels none).length * Q ∧
      ∀ n k : ℕ, (labelled labels none)[n]? = some k → ∀ b o p, o < Q → d.get b (n * Q + o) p = x.get b (chanOffset sz rs k + o) p := by
  obtain ⟨c, idx, h1, h2⟩ := hin none hg
  obtain ⟨d, h3, h4, h5⟩ := readIdx_ok h2 (x := x) fun i hi => by rw [hx]; exact labelIdx_lt hi
  have hlen := labelIdx_length h none Q (sz := sz) hQ
  exact ⟨c, idx, d, tabGet_ok.2 h1, h2, h3, by rw [h4, hlen], fun n k hn b o p ho => h5 b _ _ p (labelIdx_get h none Q hQ hn ho)⟩

end run

theorem zip_filter_true {labels : List (Option L)} {rs : List R} (h : labels.length = rs.length) : keptFields labels rs false = rs ∧ keptLabels labels rs false = labels ∧
    keptPos labels false = List.range labels.length := by
  refine ⟨?_, ?_, ?_⟩
  · simp only [keptFields, Bool.not_false, Bool.or_true, List.filter_true]
    exact List.map_snd_zip (by omega)
  · simp only [keptLabels, Bool.not_false, Bool.or_true, List.filter_true]
    exact List.map_fst_zip (by omega)
  · simp [keptPos]

end Escnn
