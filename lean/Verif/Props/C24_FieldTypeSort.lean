import Verif.Props.C23_FieldType
import Mathlib.Data.List.Perm.Basic
import Mathlib.Data.List.Sort

/-!
# C24: `sorted`, `group_by_labels` and `restrict` of field types
-/

namespace Escnn

namespace FType

variable {S R : Type} {sz : R → ℕ}

theorem keyLe_iff (a b : ℕ × ℕ) : keyLe a b = true ↔ a.1 < b.1 ∨ (a.1 = b.1 ∧ a.2 ≤ b.2) := by
  simp [keyLe]

/-- The list of keys is a sorted permutation. -/
theorem sortKeys (t : FType S R) :
    let keys := (t.reprs.zipIdx.map fun ri => (sz ri.1, ri.2)).mergeSort keyLe
    keys.Perm (t.reprs.zipIdx.map fun ri => (sz ri.1, ri.2)) ∧ keys.Pairwise fun a b => keyLe a b = true := by
  refine ⟨List.mergeSort_perm _ _, List.pairwise_mergeSort ?_ ?_ _⟩
  · intro a b c h1 h2
    rw [keyLe_iff] at *
    omega
  · intro a b
    rw [Bool.or_eq_true, keyLe_iff, keyLe_iff]
    omega

/-- **C24** `sorted()` succeeds; its fields are the fields of `t` permuted by a permutation `σ` of the indices, with non-decreasing
sizes, fields of equal sizes staying in order. -/
theorem C24_sorted (t : FType S R) (hne : t.reprs ≠ []) :
    ∃ (u : FType S R) (σ : List ℕ), t.sorted sz = .ok u ∧ u.gspace = t.gspace ∧ σ.Perm (List.range t.len) ∧ u.len = t.len ∧
      (∀ k i : ℕ, σ[k]? = some i → u.reprs[k]? = t.reprs[i]?) ∧ u.reprs.Perm t.reprs ∧
      (u.reprs.map sz).Pairwise (· ≤ ·) ∧
      ∀ k l i j : ℕ, k < l → σ[k]? = some i → σ[l]? = some j → (t.reprs[i]?).map sz = (t.reprs[j]?).map sz → i < j := by
  obtain ⟨hp, hs⟩ := sortKeys (sz := sz) t
  set keys := (t.reprs.zipIdx.map fun ri => (sz ri.1, ri.2)).mergeSort keyLe with hkeys
  have hσ : (sortPerm sz t).Perm (List.range t.len) := by
    have := hp.map Prod.snd
    rw [List.map_map, show (Prod.snd ∘ fun ri : R × ℕ => (sz ri.1, ri.2)) = Prod.snd from rfl] at this
    rw [show t.reprs.zipIdx.map Prod.snd = List.range t.len by
      rw [List.zipIdx_map_snd, List.range_eq_range', len]] at this
    exact this
  have hlen : (sortPerm sz t).length = t.len := by rw [hσ.length_eq, List.length_range]
  have hmem : ∀ p ∈ keys, ∃ r, t.reprs[p.2]? = some r ∧ p.1 = sz r := by
    intro p hpm
    obtain ⟨⟨r, i⟩, h1, rfl⟩ := List.mem_map.1 (hp.mem_iff.1 hpm)
    exact ⟨r, List.mem_zipIdx_iff_getElem?.1 h1, rfl⟩
  have hidx : ∀ k i : ℕ, (sortPerm sz t)[k]? = some i → ∃ r, t.reprs[i]? = some r ∧ keys[k]? = some (sz r, i) := by
    intro k i hk
    rw [sortPerm, ← hkeys, List.getElem?_map] at hk
    obtain ⟨p, hp1, hp2⟩ := Option.map_eq_some_iff.1 hk
    obtain ⟨r, h1, h2⟩ := hmem p (List.mem_of_getElem? hp1)
    subst hp2
    exact ⟨r, h1, by rw [hp1, ← h2]⟩
  have hall : ∀ i ∈ (sortPerm sz t).map (fun i : ℕ => (i : ℤ)), 0 ≤ i ∧ i < t.len := by
    intro i hi
    obtain ⟨j, hj, rfl⟩ := List.mem_map.1 hi
    have := List.mem_range.1 (hσ.mem_iff.1 hj)
    omega
  have hne' : (sortPerm sz t).map (fun i : ℕ => (i : ℤ)) ≠ [] := by
    intro h
    have := congrArg List.length h
    rw [List.length_map, hlen] at this
    exact hne (List.length_eq_zero_iff.1 this)
  obtain ⟨u, hu⟩ := (C23_index_select t _).1.2 ⟨hne', hall⟩
  obtain ⟨hg, hl, hget⟩ := (C23_index_select t _).2 u hu
  rw [List.length_map, hlen] at hl
  have hget' : ∀ k i : ℕ, (sortPerm sz t)[k]? = some i → u.reprs[k]? = t.reprs[i]? := by
    intro k i hk
    exact hget k i (by rw [List.getElem?_map, hk]; rfl)
  have hmapσ : u.reprs = (sortPerm sz t).filterMap fun i => t.reprs[i]? := by
    have hl1 : ∀ L : List ℕ, (∀ i ∈ L, i < t.reprs.length) → ∀ k : ℕ,
        (L.filterMap fun i => t.reprs[i]?)[k]? = (L[k]?).bind fun i => t.reprs[i]? := by
      intro L hL
      induction L with
      | nil => simp
      | cons a L ih =>
        intro k
        have e : t.reprs[a]? = some (t.reprs[a]'(hL a (by simp))) := List.getElem?_eq_getElem _
        rw [List.filterMap_cons_some (f := fun i : ℕ => t.reprs[i]?) e]
        cases k with
        | zero => simp
        | succ k => simpa using ih (fun i hi => hL i (List.mem_cons_of_mem _ hi)) k
    apply List.ext_getElem?
    intro k
    rw [hl1 _ fun i hi => List.mem_range.1 (hσ.mem_iff.1 hi)]
    cases hk : (sortPerm sz t)[k]? with
    | none =>
      have : t.len ≤ k := by rw [← hlen]; exact List.getElem?_eq_none_iff.1 hk
      rw [List.getElem?_eq_none_iff.2 (by rw [← hl] at this; exact this)]
      rfl
    | some i => rw [hget' k i hk]; rfl
  refine ⟨u, sortPerm sz t, hu, hg, hσ, hl, hget', ?_, ?_, ?_⟩
  · rw [hmapσ]
    refine (hσ.filterMap _).trans (List.Perm.of_eq ?_)
    rw [len]
    have : ∀ L : List R, (List.range L.length).filterMap (fun i => L[i]?) = L := by
      intro L
      induction L with
      | nil => rfl
      | cons a L ih =>
        rw [List.length_cons, List.range_succ_eq_map, List.filterMap_cons_some (b := a) (by simp), List.filterMap_map]
        congr 1
    exact this t.reprs
  · have : u.reprs.map sz = keys.map Prod.fst := by
      apply List.ext_getElem?
      intro k
      rw [List.getElem?_map, List.getElem?_map]
      cases hk : (sortPerm sz t)[k]? with
      | none =>
        have h1 : t.len ≤ k := by rw [← hlen]; exact List.getElem?_eq_none_iff.1 hk
        have h2 : keys.length ≤ k := by rw [sortPerm, ← hkeys, List.length_map] at hlen; omega
        rw [List.getElem?_eq_none_iff.2 (by rw [← hl] at h1; exact h1), List.getElem?_eq_none_iff.2 h2]
        rfl
      | some i =>
        obtain ⟨r, h1, h2⟩ := hidx k i hk
        rw [hget' k i hk, h1, h2]
        rfl
    rw [this, List.pairwise_map]
    exact hs.imp fun {a b} h => by rw [keyLe_iff] at h; omega
  · intro k l i j hkl hk hl' he
    obtain ⟨r, h1, h2⟩ := hidx k i hk
    obtain ⟨r', h1', h2'⟩ := hidx l j hl'
    rw [h1, h1'] at he
    simp only [Option.map_some, Option.some.injEq] at he
    have hk' := (List.getElem?_eq_some_iff.1 h2)
    have hl'' := (List.getElem?_eq_some_iff.1 h2')
    have hle := List.pairwise_iff_getElem.1 hs k l hk'.1 hl''.1 hkl
    rw [hk'.2, hl''.2, keyLe_iff] at hle
    simp only [he, lt_irrefl, true_and, false_or] at hle
    rcases Nat.lt_or_eq_of_le hle with h | h
    · exact h
    · exfalso
      subst h
      have hnd : (sortPerm sz t).Nodup := hσ.nodup_iff.2 List.nodup_range
      have a1 := List.getElem?_eq_some_iff.1 hk
      have a2 := List.getElem?_eq_some_iff.1 hl'
      have := (hnd.getElem_inj_iff (hi := a1.1) (hj := a2.1)).1 (a1.2.trans a2.2.symm)
      omega

/-! ### `group_by_labels` -/

theorem labelLoop_spec {L : Type} [DecidableEq L] (l : L) (c : ℕ) (xs : List L) :
    labelLoop l c xs = ((xs.zipIdx c).filter fun p => p.1 = l).map Prod.snd := by
  induction xs generalizing c with
  | nil => rfl
  | cons x xs ih =>
    rw [labelLoop, List.zipIdx_cons, List.filter_cons]
    by_cases h : x = l
    · simp [h, ih]
    · simp [h, ih]

/-- The fields with label `l`, in order. -/
def withLabel {L : Type} [DecidableEq L] (t : FType S R) (labels : List L) (l : L) : List R :=
  ((t.reprs.zip labels).filter fun p => p.2 = l).map Prod.fst

theorem select_label {L : Type} [DecidableEq L] (t : FType S R) (labels : List L) (h : labels.length = t.len) (l : L) (hl : l ∈ labels) :
    t.indexSelect ((labelLoop l 0 labels).map fun i : ℕ => (i : ℤ)) = .ok ⟨t.gspace, t.withLabel labels l⟩ := by
  have hmem : ∀ i ∈ labelLoop l 0 labels, i < t.len := by
    intro i hi
    rw [labelLoop_spec] at hi
    obtain ⟨p, hp, rfl⟩ := List.mem_map.1 hi
    have := (List.mem_zipIdx_iff_getElem?.1 (List.mem_filter.1 hp).1)
    rw [← h]
    exact (List.getElem?_eq_some_iff.1 this).1
  have hne : labelLoop l 0 labels ≠ [] := by
    obtain ⟨i, hi, rfl⟩ := List.getElem_of_mem hl
    have : i ∈ labelLoop labels[i] 0 labels := by
      rw [labelLoop_spec]
      refine List.mem_map.2 ⟨(labels[i], i), List.mem_filter.2 ⟨List.mem_zipIdx_iff_getElem?.2 (List.getElem?_eq_getElem hi), by simp⟩, rfl⟩
    intro h0
    rw [h0] at this
    cases this
  have hfm : ∀ (reprs : List R) (labels : List L) (pre : List R), reprs.length = labels.length →
      ((labelLoop l pre.length labels).filterMap fun i => (pre ++ reprs)[i]?) = ((reprs.zip labels).filter fun p => p.2 = l).map Prod.fst := by
    intro reprs
    induction reprs with
    | nil => intro labels pre hh; cases labels with | nil => rfl | cons => cases hh
    | cons r reprs ih =>
      intro labels pre hh
      cases labels with
      | nil => cases hh
      | cons x labels =>
        have := ih labels (pre ++ [r]) (by simpa using hh)
        rw [List.length_append, List.length_singleton, List.append_assoc, List.singleton_append] at this
        rw [labelLoop, List.zip_cons_cons, List.filter_cons]
        by_cases hx : x = l
        · rw [if_pos hx, if_pos (by simpa using hx), List.filterMap_cons_some (b := r) (by simp), this, List.map_cons]
        · rw [if_neg hx, if_neg (by simpa using hx), this]
  have h0 := hfm t.reprs labels [] h.symm
  simp only [List.length_nil, List.nil_append] at h0
  unfold indexSelect
  rw [if_neg (by simpa using hne), if_neg, if_neg, List.filterMap_map]
  · rw [show ((fun i : ℤ => t.reprs[i.toNat]?) ∘ fun i : ℕ => (i : ℤ)) = fun i : ℕ => t.reprs[i]? from by funext i; simp]
    rw [h0, mk', if_pos]
    · rfl
    · rw [← h0]
      obtain ⟨i, L', hL⟩ := List.exists_cons_of_ne_nil hne
      have hi : i < t.reprs.length := hmem i (by rw [hL]; simp)
      rw [hL, List.filterMap_cons_some (b := t.reprs[i]) (List.getElem?_eq_getElem hi)]
      simp
  · simp
  · rw [not_not, List.all_eq_true]
    intro i hi
    obtain ⟨j, hj, rfl⟩ := List.mem_map.1 hi
    have := hmem j hj
    rw [len] at this
    simpa using this

theorem groupLoop_spec {L : Type} [DecidableEq L] (t : FType S R) (labels : List L) (h : labels.length = t.len) (rest : List L)
    (hr : ∀ l ∈ rest, l ∈ labels) : groupLoop t labels rest = .ok (rest.map fun l => (l, ⟨t.gspace, t.withLabel labels l⟩)) := by
  induction rest with
  | nil => rfl
  | cons l rest ih =>
    rw [groupLoop, select_label t labels h l (hr l (by simp))]
    simp only
    rw [ih fun x hx => hr x (List.mem_cons_of_mem _ hx)]
    rfl

theorem lookupLast_map {L V : Type} [DecidableEq L] (f : L → V) (ls : List L) (l : L) :
    lookupLast (ls.map fun x => (x, f x)) l = if l ∈ ls then some (f l) else none := by
  unfold lookupLast
  rw [List.filter_map]
  have e : (ls.filter ((fun p : L × V => decide (p.1 = l)) ∘ fun x => (x, f x))) = List.replicate (ls.count l) l := by
    rw [show ((fun p : L × V => decide (p.1 = l)) ∘ fun x => (x, f x)) = fun x => x == l from by funext x; rw [beq_eq_decide]; rfl]
    exact List.filter_beq l
  rw [e]
  by_cases h : l ∈ ls
  · rw [if_pos h]
    have : ls.count l ≠ 0 := by rw [Ne, List.count_eq_zero]; exact not_not.2 h
    obtain ⟨n, hn⟩ := Nat.exists_eq_succ_of_ne_zero this
    rw [hn, List.replicate_succ', List.map_append, List.getLast?_append]
    simp
  · rw [if_neg h, List.count_eq_zero.2 h]
    rfl

/-- **C24** `group_by_labels` succeeds for one label per field (and only then); the keys are exactly the labels, and the type under
a label consists of the fields with that label, in their original order. -/
theorem C24_group_by_labels {L : Type} [DecidableEq L] (t : FType S R) (labels : List L) :
    (labels.length = t.len → ∃ d, t.groupByLabels labels = .ok d ∧
      (∀ l, l ∈ d.map Prod.fst ↔ l ∈ labels) ∧
      ∀ l ∈ labels, ∃ u, lookupLast d l = some u ∧ u.gspace = t.gspace ∧
        u.reprs = ((t.reprs.zip labels).filter fun p => p.2 = l).map Prod.fst) ∧
    (labels.length ≠ t.len → t.groupByLabels labels = .error .assertion) := by
  refine ⟨fun h => ⟨labels.map fun l => (l, ⟨t.gspace, t.withLabel labels l⟩), ?_, fun l => ?_, fun l hl => ?_⟩, fun h => ?_⟩
  · rw [groupByLabels, if_neg (not_not.2 h), groupLoop_spec t labels h labels fun _ h => h]
  · rw [List.map_map]; simp
  · refine ⟨⟨t.gspace, t.withLabel labels l⟩, ?_, rfl, rfl⟩
    rw [lookupLast_map (fun l => (⟨t.gspace, t.withLabel labels l⟩ : FType S R)), if_pos hl]
  · rw [groupByLabels, if_pos h]

/-- The labels partition the fields: every field has exactly one label, so the total size is preserved. -/
theorem C24_labels_partition {L : Type} [DecidableEq L] (t : FType S R) (labels : List L) (h : labels.length = t.len) :
    (labels.dedup.flatMap fun l => t.withLabel labels l).Perm t.reprs := by
  have key : ∀ (ps : List (R × L)) (ls : List L), ls.Nodup → (∀ p ∈ ps, p.2 ∈ ls) →
      (ls.flatMap fun l => ps.filter fun p => p.2 = l).Perm ps := by
    intro ps ls hnd
    induction ls generalizing ps with
    | nil =>
      intro hp
      cases ps with
      | nil => rfl
      | cons p ps => exact absurd (hp p (by simp)) (by simp)
    | cons l ls ih =>
      intro hp
      rw [List.flatMap_cons]
      have h1 : (ls.flatMap fun l' => ps.filter fun p => p.2 = l') =
          ls.flatMap fun l' => (ps.filter fun p => ¬ p.2 = l).filter fun p => p.2 = l' := by
        apply List.flatMap_congr
        intro l' hl'
        rw [List.filter_filter]
        apply List.filter_congr
        intro p _
        have : l' ≠ l := fun e => (List.nodup_cons.1 hnd).1 (e ▸ hl')
        by_cases e : p.2 = l' <;> simp [e, this]
      rw [h1]
      have h2 := ih (ps.filter fun p => ¬ p.2 = l) (List.nodup_cons.1 hnd).2 fun p hpm => by
        obtain ⟨a, b⟩ := List.mem_filter.1 hpm
        rcases List.mem_cons.1 (hp p a) with e | e
        · simp [e] at b
        · exact e
      refine (List.Perm.append_left _ h2).trans ?_
      have := List.filter_append_perm (fun p : R × L => decide (p.2 = l)) ps
      simpa using this
  have h1 := (key (t.reprs.zip labels) labels.dedup (List.nodup_dedup _) fun p hp => by
    rw [List.mem_dedup]; exact (List.of_mem_zip hp).2).map Prod.fst
  rw [List.map_flatMap] at h1
  rw [List.map_fst_zip (by rw [h, len])] at h1
  exact h1

/-! ### `restrict` -/

theorem restrictDict_spec {R' : Type} (name : R → String) (res : R → Except Err R') (uniq : List R) (f : R → R')
    (h : ∀ r ∈ uniq, res r = .ok (f r)) : restrictDict name res uniq = .ok (uniq.map fun r => (name r, f r)) := by
  induction uniq with
  | nil => rfl
  | cons r L ih =>
    rw [restrictDict, h r (by simp)]
    simp only
    rw [ih fun x hx => h x (List.mem_cons_of_mem _ hx)]
    rfl

/-- **C24** (partial) `restrict` restricts field by field, for every iteration order of the set of unique representations,
provided that among the representations equal names mean equal representations.  Missing: representations sharing a name (violated
below). -/
theorem C24_restrict_partial {S' R' : Type} (name : R → String) (res : R → Except Err R') (sub : S') (t : FType S R) (hne : t.reprs ≠ [])
    (uniq : List R) (hu : ∀ r, r ∈ uniq ↔ r ∈ t.reprs) (f : R → R') (h : ∀ r ∈ t.reprs, res r = .ok (f r))
    (hname : ∀ r ∈ t.reprs, ∀ r' ∈ t.reprs, name r = name r' → r = r') :
    t.restrict name res sub uniq = .ok ⟨sub, t.reprs.map f⟩ := by
  have hd := restrictDict_spec name res uniq f fun r hr => h r ((hu r).1 hr)
  have hlook : ∀ r ∈ t.reprs, lookupLast (uniq.map fun r => (name r, f r)) (name r) = some (f r) := by
    intro r hr
    unfold lookupLast
    have hin : r ∈ uniq := (hu r).2 hr
    have hall : ∀ x ∈ uniq, name x = name r → x = r := fun x hx e => hname x ((hu x).1 hx) r hr e
    have hmem : ∀ p ∈ (uniq.map fun r => (name r, f r)).filter (fun p => p.1 = name r), p = (name r, f r) := by
      intro p hp
      obtain ⟨a, b⟩ := List.mem_filter.1 hp
      obtain ⟨x, hx, rfl⟩ := List.mem_map.1 a
      rw [hall x hx (by simpa using b)]
    cases hl : ((uniq.map fun r => (name r, f r)).filter (fun p => p.1 = name r)).getLast? with
    | none =>
      exfalso
      rw [List.getLast?_eq_none_iff] at hl
      have : (name r, f r) ∈ (uniq.map fun r => (name r, f r)).filter (fun p => p.1 = name r) :=
        List.mem_filter.2 ⟨List.mem_map.2 ⟨r, hin, rfl⟩, by simp⟩
      rw [hl] at this
      cases this
    | some p => rw [hmem p (List.mem_of_getLast? hl)]; rfl
  unfold restrict
  rw [hd]
  simp only
  rw [if_pos]
  · rw [mk', if_pos]
    · congr 2
      exact (List.filterMap_congr fun r hr => hlook r hr).trans (congrFun (List.filterMap_eq_map (f := f)) t.reprs)
    · rw [show (t.reprs.filterMap fun r => lookupLast (uniq.map fun r => (name r, f r)) (name r)) = t.reprs.map f from
        (List.filterMap_congr fun r hr => hlook r hr).trans (congrFun (List.filterMap_eq_map (f := f)) t.reprs)]
      simpa using List.length_pos_of_ne_nil hne
  · rw [List.all_eq_true]
    intro r hr
    rw [hlook r hr]
    rfl

/-- **C24 is violated** when two different representations have the same name: the fields are then all restricted to the one
visited last (representations are given by a name and an id here). -/
theorem C24_restrict_violated :
    ∃ (t : FType Unit (String × ℕ)) (uniq : List (String × ℕ)), (∀ r, r ∈ uniq ↔ r ∈ t.reprs) ∧
      t.reprs = [("a", 0), ("a", 1)] ∧
      ∃ u, t.restrict (R' := ℕ) Prod.fst (fun r => .ok r.2) () uniq = .ok u ∧ u.reprs = [1, 1] :=
  ⟨⟨(), [("a", 0), ("a", 1)]⟩, [("a", 0), ("a", 1)], fun _ => Iff.rfl, rfl, ⟨(), [1, 1]⟩, by
    simp [restrict, restrictDict, lookupLast, mk'], rfl⟩

example : ∃ u, (⟨(), [3, 1, 2, 1]⟩ : FType Unit ℕ).sorted id = .ok u ∧ u.reprs = [1, 1, 2, 3] := by
  obtain ⟨u, σ, hu, -, -, -, -, hp, hs, -⟩ := C24_sorted (sz := id) (⟨(), [3, 1, 2, 1]⟩ : FType Unit ℕ) (by simp)
  refine ⟨u, hu, ?_⟩
  rw [List.map_id] at hs
  exact (hp.trans (by decide)).eq_of_pairwise (fun _ _ _ _ => Nat.le_antisymm) hs (by decide)

example : ((⟨(), [3, 1, 2]⟩ : FType Unit ℕ).withLabel ["a", "b", "a"] "a") = [3, 2] := by decide

end FType

end Escnn
