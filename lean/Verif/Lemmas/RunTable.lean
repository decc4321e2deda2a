import Verif.Lemmas.Grouped
import Verif.Lemmas.Expansion

/-!
# The tables built by comparing consecutive labels
-/

namespace Escnn

variable {S R L : Type} [DecidableEq L] {sz : R → ℕ}

theorem labelled_append (pre : List L) (l l' : L) : labelled (pre ++ [l]) l' = labelled pre l' ++ if l = l' then [pre.length] else [] := by
  unfold labelled
  rw [List.length_append, List.length_singleton, List.range_succ, List.filter_append]
  congr 1
  · refine List.filter_congr fun k hk => ?_
    rw [List.getElem?_append_left (List.mem_range.1 hk)]
  · rw [List.filter_singleton]
    simp

theorem lookupLast_append {V : Type} (d : List (L × V)) (l l' : L) (v : V) :
    FType.lookupLast (d ++ [(l, v)]) l' = if l = l' then some v else FType.lookupLast d l' := by
  unfold FType.lookupLast
  by_cases h : l = l'
  · simp [List.filter_append, h]
  · simp [List.filter_append, h]

/-- The flags computed for the labels seen so far. -/
def ContigInv (pre : List L) (d : List (L × Bool)) : Prop :=
  ∀ l, (l ∉ pre → FType.lookupLast d l = none) ∧ (l ∈ pre → ∃ c, FType.lookupLast d l = some c ∧ (c = true → ∃ i m, labelled pre l = List.range' i m))

theorem contigLoop_inv (ls pre : List L) (d : List (L × Bool)) (h : ContigInv pre d) : ContigInv (pre ++ ls) (contigLoop pre.getLast? d ls) := by
  induction ls generalizing pre d with
  | nil => simpa [contigLoop] using h
  | cons l ls ih =>
    rw [contigLoop]
    have e1 : pre ++ l :: ls = (pre ++ [l]) ++ ls := by simp
    have e2 : some l = (pre ++ [l]).getLast? := by simp
    rw [e1, e2]
    refine ih _ _ fun l' => ?_
    rw [← e2]
    by_cases hll : l = l'
    · subst hll
      refine ⟨fun hn => absurd (by simp) hn, fun _ => ?_⟩
      rw [labelled_append, if_pos rfl]
      by_cases hlast : some l = pre.getLast?
      · have hmem : l ∈ pre := List.mem_of_getLast? hlast.symm
        obtain ⟨c, hc1, hc2⟩ := (h l).2 hmem
        rw [if_neg (not_not.2 hlast)]
        refine ⟨c, hc1, fun hct => ?_⟩
        obtain ⟨i, m, him⟩ := hc2 hct
        refine ⟨i, m + 1, ?_⟩
        have hp : 0 < pre.length := List.length_pos_of_mem hmem
        have hin : pre.length - 1 ∈ labelled pre l := by
          rw [mem_labelled, hlast, List.getLast?_eq_getElem?]
        rw [him, List.mem_range'_1] at hin
        have hup : i + m - 1 ∈ labelled pre l := by
          rw [him, List.mem_range'_1]; omega
        have := (List.getElem?_eq_some_iff.1 (mem_labelled.1 hup)).1
        rw [him, List.range'_concat]
        congr 2
        omega
      · rw [if_pos hlast]
        by_cases hmem : l ∈ pre
        · obtain ⟨c, hc1, -⟩ := (h l).2 hmem
          rw [hc1, Option.isSome_some, if_pos rfl]
          exact ⟨false, by rw [lookupLast_append, if_pos rfl], by simp⟩
        · rw [(h l).1 hmem, Option.isSome_none, if_neg (by simp)]
          refine ⟨true, by rw [lookupLast_append, if_pos rfl], fun _ => ⟨pre.length, 1, ?_⟩⟩
          have : labelled pre l = [] := by
            rw [List.eq_nil_iff_forall_not_mem]
            exact fun k hk => hmem (List.mem_of_getElem? (mem_labelled.1 hk))
          rw [this]; simp
    · have hd : FType.lookupLast (if some l ≠ pre.getLast? then (if (FType.lookupLast d l).isSome then d ++ [(l, false)] else d ++ [(l, true)]) else d) l' = FType.lookupLast d l' := by
        split_ifs
        · rw [lookupLast_append, if_neg hll]
        · rw [lookupLast_append, if_neg hll]
        · rfl
      rw [hd, labelled_append, if_neg hll, List.append_nil]
      have hm : l' ∈ pre ++ [l] ↔ l' ∈ pre := by
        rw [List.mem_append, List.mem_singleton]
        exact ⟨fun h => h.resolve_right fun e => hll e.symm, Or.inl⟩
      rw [hm]
      exact h l'

theorem chansOf_range' {rs : List R} (i m : ℕ) (h : i + m ≤ rs.length) :
    (List.range' i m).flatMap (chansOf sz rs) = List.range' (chanOffset sz rs i) (chanOffset sz rs (i + m) - chanOffset sz rs i) := by
  induction m with
  | zero => simp
  | succ m ih =>
    have hlt : i + m < rs.length := by omega
    have hg : rs[i + m]? = some rs[i + m] := List.getElem?_eq_getElem hlt
    have h1 := chanOffset_succ (sz := sz) hg
    have h2 := chanOffset_mono (sz := sz) rs (show i ≤ i + m by omega)
    rw [List.range'_concat, List.flatMap_append, ih (by omega), List.flatMap_singleton, chansOf, Nat.one_mul, hg, ← Nat.add_assoc, h1]
    simp only [Option.map_some, Option.getD_some]
    have : chanOffset sz rs (i + m) = chanOffset sz rs i + 1 * (chanOffset sz rs (i + m) - chanOffset sz rs i) := by omega
    conv_lhs => rw [this]
    rw [show chanOffset sz rs i + 1 * (chanOffset sz rs (i + m) - chanOffset sz rs i) - chanOffset sz rs i = chanOffset sz rs (i + m) - chanOffset sz rs i by omega, List.range'_append]
    congr 1
    omega

theorem lookupLast_mapE {V W : Type} {d : List (L × V)} {f : L × V → Except Err (L × W)} {d' : List (L × W)} (h : mapE f d = .ok d') (hf : ∀ e e', f e = .ok e' → e'.1 = e.1) (l : L) {v : V}
    (hv : FType.lookupLast d l = some v) : ∃ w, f (l, v) = .ok (l, w) ∧ FType.lookupLast d' l = some w := by
  rw [mapE_ok_iff] at h
  have h2 : List.Forall₂ (fun e e' => f e = .ok e') (d.filter fun p => p.1 = l) (d'.filter fun p => p.1 = l) := by
    clear hv
    induction h with
    | nil => exact List.Forall₂.nil
    | @cons a b l1 l2 hab _ ih =>
      have hk := hf _ _ hab
      by_cases ha : a.1 = l
      · rw [List.filter_cons_of_pos (by simpa using ha), List.filter_cons_of_pos (by simpa [hk] using ha)]
        exact .cons hab ih
      · rw [List.filter_cons_of_neg (by simpa using ha), List.filter_cons_of_neg (by simpa [hk] using ha)]
        exact ih
  unfold FType.lookupLast at hv ⊢
  rw [Option.map_eq_some_iff] at hv
  obtain ⟨e, he1, he2⟩ := hv
  have hel : e.1 = l := by
    have := List.mem_of_getLast? he1
    simpa using (List.mem_filter.1 this).2
  obtain ⟨e', he3, he4⟩ : ∃ e', (d'.filter fun p => p.1 = l).getLast? = some e' ∧ f e = .ok e' := by
    generalize (d.filter fun p => p.1 = l) = A at *
    generalize (d'.filter fun p => p.1 = l) = B at *
    have hr := List.forall₂_reverse_iff.2 h2
    rw [← List.head?_reverse] at he1
    rw [← List.head?_reverse]
    revert hr he1
    generalize A.reverse = A'
    generalize B.reverse = B'
    intro he1 hr
    cases hr with
    | nil => simp at he1
    | cons hab _ =>
      simp at he1
      subst he1
      exact ⟨_, rfl, hab⟩
  have hk := hf _ _ he4
  refine ⟨e'.2, ?_, by rw [he3]; rfl⟩
  rw [← he2, ← hel]
  rw [he4, ← hk]

theorem contigLoop_mem (labels : List L) : ∀ e ∈ contigLoop none [] labels, e.1 ∈ labels := by
  have hinv := contigLoop_inv labels [] [] (fun l => ⟨fun _ => rfl, fun h => absurd h (by simp)⟩)
  rw [List.nil_append, List.getLast?_nil] at hinv
  intro e he
  by_contra hn
  have h1 := (hinv e.1).1 hn
  obtain ⟨v, hv, -⟩ := lookupLast_mem (List.mem_map_of_mem he : e.1 ∈ (contigLoop none [] labels).map Prod.fst)
  rw [h1] at hv
  simp at hv

/-- A table built from flags which are right lists the channels of each label. -/
theorem flagTable_spec {rs : List R} (hpos : ∀ r ∈ rs, 0 < sz r) (labels : List L) (h : labels.length = rs.length) (D : List (L × Bool)) (hmem : ∀ e ∈ D, e.1 ∈ labels)
    (hinv : ∀ l ∈ labels, ∃ c, FType.lookupLast D l = some c ∧ (c = true → ∃ i m, labelled labels l = List.range' i m)) :
    ∃ d, flagTable sz rs labels D = .ok d ∧ Tab sz rs labels d := by
  let f : L × Bool → Except Err (L × Bool × List ℕ) := fun e =>
    if e.2 then
      match (labelChans sz e.1 0 labels rs).min?, (labelChans sz e.1 0 labels rs).max? with
      | some a, some b => .ok (e.1, true, [a, b + 1])
      | _, _ => .error .value
    else .ok (e.1, false, labelChans sz e.1 0 labels rs)
  have hkey : ∀ e e', f e = .ok e' → e'.1 = e.1 := by
    intro e e' he
    simp only [f] at he
    split_ifs at he
    · split at he
      · simp only [Except.ok.injEq] at he
        rw [← he]
      · simp at he
    · simp only [Except.ok.injEq] at he
      rw [← he]
  have hok : ∃ d, mapE f D = .ok d := by
    have : ∀ e ∈ D, ∃ e', f e = .ok e' := by
      intro e he
      have hne := labelChans_ne_nil (sz := sz) e.1 0 labels rs hpos h (hmem e he)
      simp only [f]
      split_ifs
      · obtain ⟨a, ha⟩ := Option.isSome_iff_exists.1 (List.isSome_min?_iff.2 hne)
        obtain ⟨b, hb⟩ := Option.isSome_iff_exists.1 (List.isSome_max?_iff.2 hne)
        rw [ha, hb]
        exact ⟨_, rfl⟩
      · exact ⟨_, rfl⟩
    clear hmem hinv
    induction D with
    | nil => exact ⟨[], rfl⟩
    | cons e D ih =>
      obtain ⟨e', he'⟩ := this e (by simp)
      obtain ⟨d, hd⟩ := ih fun e he => this e (List.mem_cons_of_mem _ he)
      exact ⟨e' :: d, by simp only [mapE, he', hd]⟩
  obtain ⟨d, hd⟩ := hok
  refine ⟨d, hd, fun l hl => ?_⟩
  obtain ⟨c, hc1, hc2⟩ := hinv l hl
  obtain ⟨w, hw1, hw2⟩ := lookupLast_mapE hd hkey l hc1
  refine ⟨w.1, w.2, hw2, ?_⟩
  have hlc := labelChans_eq (sz := sz) l labels rs h
  have hne := labelChans_ne_nil (sz := sz) l 0 labels rs hpos h hl
  simp only [f] at hw1
  cases c with
  | false =>
    rw [if_neg (by simp)] at hw1
    simp only [Except.ok.injEq, Prod.mk.injEq, true_and] at hw1
    rw [← hw1]
    exact .inl ⟨rfl, hlc⟩
  | true =>
    rw [if_pos rfl] at hw1
    obtain ⟨i, m, him⟩ := hc2 rfl
    have hle : i + m ≤ rs.length ∨ m = 0 := by
      rcases Nat.eq_zero_or_pos m with hm | hm
      · exact .inr hm
      · left
        have : i + m - 1 ∈ labelled labels l := by rw [him, List.mem_range'_1]; omega
        have := (List.getElem?_eq_some_iff.1 (mem_labelled.1 this)).1
        omega
    rcases hle with hle | hm
    · have hI : labelIdx sz rs labels l = List.range' (chanOffset sz rs i) (chanOffset sz rs (i + m) - chanOffset sz rs i) := by
        rw [labelIdx, him, chansOf_range' i m hle]
      have hL : labelChans sz l 0 labels rs = labelIdx sz rs labels l := hlc
      rw [hL, hI] at hne
      rw [hL, hI] at hw1
      generalize chanOffset sz rs i = a at *
      generalize chanOffset sz rs (i + m) - a = M at *
      have hM : 0 < M := by
        rcases Nat.eq_zero_or_pos M with h0 | h0
        · exact absurd (by rw [h0]; rfl) hne
        · exact h0
      have h1 : (List.range' a M).min? = some a := by
        rw [List.min?_eq_some_iff]
        simp only [List.mem_range'_1]
        exact ⟨by omega, fun b hb => hb.1⟩
      have h2 : (List.range' a M).max? = some (a + M - 1) := by
        rw [List.max?_eq_some_iff]
        simp only [List.mem_range'_1]
        exact ⟨by omega, fun b hb => by omega⟩
      rw [h1, h2] at hw1
      simp only [Except.ok.injEq, Prod.mk.injEq, true_and] at hw1
      rw [← hw1]
      exact .inr ⟨rfl, a, M, hI, by rw [show a + M - 1 + 1 = a + M by omega]⟩
    · exfalso
      rw [hlc, him, hm] at hne
      simp at hne

/-- The table built by comparing consecutive labels lists the channels of each label. -/
theorem runTable_spec (t : FType S R) (hpos : ∀ r ∈ t.reprs, 0 < sz r) (labels : List L) (h : labels.length = t.reprs.length) :
    ∃ d, runTable sz t labels = .ok d ∧ Tab sz t.reprs labels d := by
  have hinv := contigLoop_inv labels [] [] (fun l => ⟨fun _ => rfl, fun h => absurd h (by simp)⟩)
  rw [List.nil_append, List.getLast?_nil] at hinv
  exact flagTable_spec hpos labels h _ (contigLoop_mem labels) fun l hl => (hinv l).2 hl

end Escnn
