import Verif.Model.Modules
import Verif.Lemmas.Selection
import Verif.Props.C29_IndexTables

/-!
# C28: reshuffling, branching and merging
-/

namespace Escnn

open NpMat

variable {B P S R C L G Id : Type} {T : IrrepTable G Id} {El : G → Prop} {op : G → G → G} {one : G} {sz : R → ℕ}

theorem indexSelect_nat {t u : FType S R} {I : List ℕ} :
    t.indexSelect (I.map fun i : ℕ => (i : ℤ)) = .ok u ↔
      I ≠ [] ∧ u.gspace = t.gspace ∧ List.Forall₂ (fun (i : ℕ) r => t.reprs[i]? = some r) I u.reprs := by
  have hfm : ∀ I : List ℕ, (∀ i ∈ I, i < t.reprs.length) →
      List.Forall₂ (fun (i : ℕ) r => t.reprs[i]? = some r) I ((I.map fun i : ℕ => (i : ℤ)).filterMap fun i => t.reprs[i.toNat]?) := by
    intro I
    induction I with
    | nil => intro _; simp
    | cons i I ih =>
      intro h
      have e := List.getElem?_eq_getElem (h i (by simp))
      rw [List.map_cons, List.filterMap_cons_some (f := fun i : ℤ => t.reprs[i.toNat]?) (show t.reprs[((i : ℕ) : ℤ).toNat]? = some (t.reprs[i]'(h i (by simp))) by rw [Int.toNat_natCast]; exact e)]
      exact List.Forall₂.cons e (ih fun j hj => h j (List.mem_cons_of_mem _ hj))
  unfold FType.indexSelect
  by_cases h0 : I = []
  · subst h0; simp
  rw [if_neg (by simpa using h0)]
  by_cases h1 : ∀ i ∈ I, i < t.reprs.length
  · rw [if_neg (by simpa using h1), if_neg (by simp), FType.mk'_ok_iff]
    have h2 := hfm I h1
    constructor
    · rintro ⟨_, rfl⟩; exact ⟨h0, rfl, h2⟩
    · rintro ⟨_, e1, e2⟩
      refine ⟨fun h => ?_, ?_⟩
      · rw [h] at h2; cases h2; exact h0 rfl
      · have : u.reprs = (I.map fun i : ℕ => (i : ℤ)).filterMap fun i => t.reprs[i.toNat]? := by
          refine List.ext_getElem? fun k => ?_
          by_cases hk : k < I.length
          · have a1 := (List.forall₂_iff_get.1 e2).2 k hk (by rw [← e2.length_eq]; exact hk)
            have a2 := (List.forall₂_iff_get.1 h2).2 k hk (by rw [← h2.length_eq]; exact hk)
            rw [a1] at a2
            simp only [List.get_eq_getElem, Option.some.injEq] at a2
            rw [List.getElem?_eq_getElem (by rw [← e2.length_eq]; exact hk), List.getElem?_eq_getElem (by rw [← h2.length_eq]; exact hk), a2]
          · rw [List.getElem?_eq_none (by rw [← e2.length_eq]; omega), List.getElem?_eq_none (by rw [← h2.length_eq]; omega)]
        cases u
        simp_all
  · rw [if_pos (by simpa using h1)]
    constructor
    · intro h; cases h
    · rintro ⟨_, _, e2⟩
      exfalso
      refine h1 fun i hi => ?_
      obtain ⟨k, hk, rfl⟩ := List.getElem_of_mem hi
      have a1 := (List.forall₂_iff_get.1 e2).2 k hk (by rw [← e2.length_eq]; exact hk)
      exact (List.getElem?_eq_some_iff.1 a1).1

theorem zipWith_chansOf {rs : List R} {I : List ℕ} {us : List R} (h : List.Forall₂ (fun (i : ℕ) r => rs[i]? = some r) I us) :
    List.flatten (List.zipWith (fun (i : ℕ) r => List.range' (chanOffset sz rs i) (sz r)) I us) = I.flatMap (chansOf sz rs) := by
  induction h with
  | nil => rfl
  | cons h1 _ ih =>
    rw [List.zipWith_cons_cons, List.flatten_cons, ih, List.flatMap_cons, chansOf, h1]
    rfl

theorem chansOf_length {rs : List R} {I : List ℕ} {us : List R} (h : List.Forall₂ (fun (i : ℕ) r => rs[i]? = some r) I us) :
    (I.flatMap (chansOf sz rs)).length = (us.map sz).sum := by
  induction h with
  | nil => rfl
  | cons h1 _ ih => rw [List.flatMap_cons, List.length_append, ih, chansOf, h1]; simp

theorem chansOf_lt {rs : List R} {i c : ℕ} (h : c ∈ chansOf sz rs i) : c < (rs.map sz).sum := by
  unfold chansOf at h
  cases hr : rs[i]? with
  | none => rw [hr] at h; simp at h
  | some r =>
    rw [hr, List.mem_range'_1] at h
    simp only [Option.map_some, Option.getD_some] at h
    have := chanOffset_lt hr (show c - chanOffset sz rs i < sz r by omega)
    omega

/-- Gathering the channels of the fields `I` selects these fields. -/
theorem gather_fields {x : GTensor B P S R C} (hx : x.tensor.chans = (x.type.reprs.map sz).sum) {I : List ℕ} {u : FType S R}
    (hg : u.gspace = x.type.gspace) (h : List.Forall₂ (fun (i : ℕ) r => x.type.reprs[i]? = some r) I u.reprs) :
    ∃ d y, GTensor.chanGather x.tensor (I.flatMap (chansOf sz x.type.reprs)) = .ok d ∧ GTensor.mk' sz d u x.coords = .ok y ∧
      y = ⟨d, u, x.coords⟩ ∧ IsSelection sz x I y := by
  have h1 : ∀ c ∈ I.flatMap (chansOf sz x.type.reprs), c < x.tensor.chans := by
    intro c hc
    obtain ⟨i, -, hi⟩ := List.mem_flatMap.1 hc
    rw [hx]
    exact chansOf_lt hi
  refine ⟨_, _, by rw [GTensor.chanGather, if_pos (List.all_eq_true.2 fun c hc => decide_eq_true (h1 c hc))], GTensor.mk'_ok_iff.2 ⟨chansOf_length h, rfl⟩, rfl, ?_⟩
  have := IsSelection.gather (sz := sz) x I u.reprs (fun b c p => x.tensor.get b ((I.flatMap (chansOf sz x.type.reprs)).getD c 0) p) h
    (fun b p c => by rw [zipWith_chansOf h])
  rw [← hg, ← chansOf_length (sz := sz) h] at this
  exact this

/-! ## reshuffling -/

theorem Reshuffle.chans_ok {t : FType S R} {i : ℕ} (h : i < t.reprs.length) : Reshuffle.chans sz t (i : ℤ) = .ok (chansOf sz t.reprs i) := by
  have e := List.getElem?_eq_getElem h
  have e1 := (pyGet_nat t.reprs i _).2 e
  have e2 : pyGet (FType.startLoop sz 0 t.reprs) (i : ℤ) = .ok (chanOffset sz t.reprs i) := by
    rw [pyGet_nat]
    have := FType.fieldsStart_get (sz := sz) t i
    rw [FType.fieldsStart, if_pos h] at this
    exact this
  unfold Reshuffle.chans
  rw [e1]
  simp only [bind, Except.bind]
  rw [e2]
  simp only [chansOf, e]
  rfl

/-- What the constructor of `ReshuffleModule` computes. -/
theorem Reshuffle.init_ok {t : FType S R} {I : List ℕ} (hne : t.reprs ≠ []) (h : ∀ k, k ∈ I ↔ k < t.reprs.length) :
    ∃ u, Reshuffle.init sz t (I.map fun i : ℕ => (i : ℤ)) = .ok ⟨t, u, I.flatMap (chansOf sz t.reprs)⟩ ∧ u.gspace = t.gspace ∧
      List.Forall₂ (fun (i : ℕ) r => t.reprs[i]? = some r) I u.reprs := by
  have hI : I ≠ [] := by
    rintro rfl
    have := (h 0).2 (List.length_pos_of_ne_nil hne)
    simp at this
  have hex : ∃ us : List R, List.Forall₂ (fun (i : ℕ) r => t.reprs[i]? = some r) I us := by
    have : ∀ i ∈ I, i < t.reprs.length := fun i hi => (h i).1 hi
    clear h hI
    induction I with
    | nil => exact ⟨[], List.Forall₂.nil⟩
    | cons i I ih =>
      obtain ⟨us, hus⟩ := ih fun j hj => this j (List.mem_cons_of_mem _ hj)
      exact ⟨_ :: us, List.Forall₂.cons (List.getElem?_eq_getElem (this i (by simp))) hus⟩
  obtain ⟨us, hus⟩ := hex
  refine ⟨⟨t.gspace, us⟩, ?_, rfl, hus⟩
  rw [Reshuffle.init, if_pos, (indexSelect_nat (t := t) (u := ⟨t.gspace, us⟩)).2 ⟨hI, rfl, hus⟩]
  · have : mapE (Reshuffle.chans sz t) (I.map fun i : ℕ => (i : ℤ)) = .ok (I.map (chansOf sz t.reprs)) := by
      have := mapE_map (f := Reshuffle.chans sz t) (g := fun i => chansOf sz t.reprs i.toNat) (L := I.map fun i : ℕ => (i : ℤ)) (by
        intro a ha
        obtain ⟨i, hi, rfl⟩ := List.mem_map.1 ha
        exact Reshuffle.chans_ok ((h i).1 hi))
      rw [this, List.map_map]
      rfl
    simp only [bind, Except.bind]
    rw [this]
    simp only [List.flatMap]
  · constructor
    · intro i hi
      obtain ⟨j, hj, rfl⟩ := List.mem_map.1 hi
      have := (h j).1 hj
      constructor <;> omega
    · intro k hk
      exact List.mem_map.2 ⟨k, (h k).2 (List.mem_range.1 hk), rfl⟩

/-- **C28** `ReshuffleModule` accepts exactly the lists whose elements are the field indices (in particular the permutations); its
output has the declared type, and field `i` of the output is field `perm[i]` of the input.  Inputs of another type are rejected. -/
theorem C28_reshuffle {eqR : R → R → Prop} (hsz : ∀ r r', eqR r r' → sz r = sz r') (t : FType S R) (hne : t.reprs ≠ []) (perm : List ℤ) :
    ((∃ m, Reshuffle.init sz t perm = .ok m) ↔ ∀ i : ℤ, i ∈ perm ↔ 0 ≤ i ∧ i < t.reprs.length) ∧
    ∀ m, Reshuffle.init sz t perm = .ok m → m.inType = t ∧ ∀ x : GTensor B P S R C, x.tensor.chans = x.type.size sz →
      (x.type.PyEq eqR t → ∃ y, m.forward eqR sz x = .ok y ∧ y.type = m.outType ∧
        IsSelection sz ⟨x.tensor, t, x.coords⟩ (perm.map Int.toNat) y) ∧
      (¬ x.type.PyEq eqR t → m.forward eqR sz x = .error .assertion) := by
  have hiff : ((∀ i ∈ perm, 0 ≤ i ∧ i < (t.reprs.length : ℤ)) ∧ ∀ k ∈ List.range t.reprs.length, (k : ℤ) ∈ perm) ↔
      ∀ i : ℤ, i ∈ perm ↔ 0 ≤ i ∧ i < t.reprs.length := by
    constructor
    · rintro ⟨h1, h2⟩ i
      refine ⟨h1 i, fun hi => ?_⟩
      have := h2 i.toNat (List.mem_range.2 (by omega))
      rwa [Int.toNat_of_nonneg hi.1] at this
    · intro h
      exact ⟨fun i hi => (h i).1 hi, fun k hk => (h k).2 ⟨by omega, by have := List.mem_range.1 hk; omega⟩⟩
  have main : (∀ i : ℤ, i ∈ perm ↔ 0 ≤ i ∧ i < t.reprs.length) → ∃ u, Reshuffle.init sz t perm =
      .ok ⟨t, u, (perm.map Int.toNat).flatMap (chansOf sz t.reprs)⟩ ∧ u.gspace = t.gspace ∧
      List.Forall₂ (fun (i : ℕ) r => t.reprs[i]? = some r) (perm.map Int.toNat) u.reprs := by
    intro h
    have e : perm = (perm.map Int.toNat).map fun i : ℕ => (i : ℤ) := by
      rw [List.map_map]
      symm
      refine (List.map_congr_left fun i hi => ?_).trans (List.map_id _)
      simp [Int.toNat_of_nonneg ((h i).1 hi).1]
    have := Reshuffle.init_ok (sz := sz) (t := t) (I := perm.map Int.toNat) hne (by
      intro k
      rw [List.mem_map]
      constructor
      · rintro ⟨i, hi, rfl⟩
        have := (h i).1 hi
        omega
      · intro hk
        exact ⟨k, (h k).2 ⟨by omega, by omega⟩, by simp⟩)
    rwa [← e] at this
  refine ⟨⟨?_, fun h => ?_⟩, ?_⟩
  · rintro ⟨m, hm⟩
    rw [← hiff]
    by_contra hn
    rw [Reshuffle.init, if_neg hn] at hm
    cases hm
  · obtain ⟨u, hu, -⟩ := main h
    exact ⟨_, hu⟩
  · intro m hm
    have h : ∀ i : ℤ, i ∈ perm ↔ 0 ≤ i ∧ i < t.reprs.length := by
      rw [← hiff]
      by_contra hn
      rw [Reshuffle.init, if_neg hn] at hm
      cases hm
    obtain ⟨u, hu, h1, h2⟩ := main h
    rw [hu] at hm
    cases hm
    refine ⟨rfl, fun x hx => ⟨fun hxt => ?_, fun hn => by rw [Reshuffle.forward, if_neg hn]⟩⟩
    have hxs : x.tensor.chans = (t.reprs.map sz).sum := by
      rw [hx, FType.size_eq]
      have := hxt.2
      generalize x.type.reprs = A at this
      generalize t.reprs = A' at this
      induction this with
      | nil => rfl
      | cons h _ ih => simp only [List.map_cons, List.sum_cons, ih, hsz _ _ h]
    obtain ⟨d, y, e1, e2, rfl, e4⟩ := gather_fields (sz := sz) (x := ⟨x.tensor, t, x.coords⟩) hxs h1 h2
    refine ⟨_, ?_, rfl, e4⟩
    rw [Reshuffle.forward, if_pos hxt]
    simp only [bind, Except.bind]
    rw [e1]
    exact e2

/-! ## stable sorting -/

theorem pair_sublist {α : Type} {l : List α} {i j : ℕ} {a b : α} (hi : l[i]? = some a) (hj : l[j]? = some b) (h : i < j) : [a, b].Sublist l := by
  rw [← List.take_append_drop (i + 1) l]
  have h1 : [a].Sublist (l.take (i + 1)) := by
    refine List.singleton_sublist.2 (List.mem_of_getElem? (i := i) ?_)
    rw [List.getElem?_take_of_lt (by omega), hi]
  have h2 : [b].Sublist (l.drop (i + 1)) := by
    refine List.singleton_sublist.2 (List.mem_of_getElem? (i := j - (i + 1)) ?_)
    rw [List.getElem?_drop, show i + 1 + (j - (i + 1)) = j by omega, hj]
  exact h1.append h2

theorem stable_sort {α : Type} (le : α × ℕ → α × ℕ → Bool) (htrans : ∀ a b c, le a b → le b c → le a c) (htotal : ∀ a b, le a b || le b a)
    (l : List α) : (l.zipIdx.mergeSort le).Pairwise fun u v => le u v ∧ (le v u → u.2 < v.2) := by
  have hnd : (l.zipIdx.mergeSort le).Nodup := by
    rw [(List.mergeSort_perm l.zipIdx le).nodup_iff]
    refine List.Nodup.of_map Prod.snd ?_
    rw [List.zipIdx_map_snd]
    exact List.nodup_range'
  rw [List.pairwise_iff_forall_sublist]
  intro u v huv
  have hle := List.pairwise_iff_forall_sublist.1 (List.pairwise_mergeSort htrans htotal l.zipIdx) huv
  refine ⟨hle, fun hvu => ?_⟩
  have hmu : u ∈ l.zipIdx := (List.mergeSort_perm _ le).mem_iff.1 (huv.subset (by simp))
  have hmv : v ∈ l.zipIdx := (List.mergeSort_perm _ le).mem_iff.1 (huv.subset (by simp))
  have eu : l.zipIdx[u.2]? = some u := by rw [List.getElem?_zipIdx, List.mem_zipIdx_iff_getElem?.1 hmu]; simp
  have ev : l.zipIdx[v.2]? = some v := by rw [List.getElem?_zipIdx, List.mem_zipIdx_iff_getElem?.1 hmv]; simp
  have hne : u ≠ v := by
    rintro rfl
    have := hnd.sublist huv
    simp at this
  rcases lt_trichotomy u.2 v.2 with h | h | h
  · exact h
  · rw [h, ev] at eu; exact absurd (by simpa using eu.symm) hne
  · exfalso
    have hs := List.pair_sublist_mergeSort htrans htotal hvu (pair_sublist ev eu h)
    have hp : (l.zipIdx.mergeSort le).Pairwise fun a b => ∀ i j : ℕ, (l.zipIdx.mergeSort le)[i]? = some a → (l.zipIdx.mergeSort le)[j]? = some b → i < j := by
      rw [List.pairwise_iff_getElem]
      intro i j hi hj hij i' j' e1 e2
      obtain ⟨g1, g1'⟩ := List.getElem?_eq_some_iff.1 e1
      obtain ⟨g2, g2'⟩ := List.getElem?_eq_some_iff.1 e2
      have := (hnd.getElem_inj_iff).1 g1'
      have := (hnd.getElem_inj_iff).1 g2'
      omega
    obtain ⟨i, hi⟩ := List.mem_iff_getElem?.1 (huv.subset (show u ∈ [u, v] by simp))
    obtain ⟨j, hj⟩ := List.mem_iff_getElem?.1 (huv.subset (show v ∈ [u, v] by simp))
    have := List.pairwise_iff_forall_sublist.1 hp huv i j hi hj
    have := List.pairwise_iff_forall_sublist.1 hp hs j i hj hi
    omega

/-! ## branching -/

section branching

variable [LinearOrder L]

theorem contLoop_spec (labels : List L) : ∀ (pre : List L) (last : Option L) (d : L → Option Bool), last = pre.getLast? →
    (∀ l, (d l = none ↔ l ∉ pre) ∧ (d l = some true → ∃ A n A', pre = A ++ List.replicate n l ++ A' ∧ l ∉ A ∧ l ∉ A')) →
    ∀ l, (contLoop last d labels l = none ↔ l ∉ pre ++ labels) ∧
      (contLoop last d labels l = some true → ∃ A n A', pre ++ labels = A ++ List.replicate n l ++ A' ∧ l ∉ A ∧ l ∉ A') := by
  induction labels with
  | nil => intro pre last d _ h l; simpa [contLoop] using h l
  | cons a labels ih =>
    intro pre last d hlast h l
    have hsplit : pre ++ a :: labels = (pre ++ [a]) ++ labels := by simp
    rw [hsplit, contLoop]
    refine ih (pre ++ [a]) (some a) _ (by simp) (fun l => ?_) l
    have hother : l ≠ a → (d l = none ↔ l ∉ pre ++ [a]) ∧
        (d l = some true → ∃ A n A', pre ++ [a] = A ++ List.replicate n l ++ A' ∧ l ∉ A ∧ l ∉ A') := by
      intro hl
      refine ⟨by rw [(h l).1]; simp [hl], fun hd => ?_⟩
      obtain ⟨A, n, A', h1, h2, h3⟩ := (h l).2 hd
      exact ⟨A, n, A' ++ [a], by rw [h1]; simp, h2, by simp [h3, hl]⟩
    split_ifs with hc
    · by_cases hl : l = a
      · subst hl
        rw [Function.update_self]
        refine ⟨by simp, fun hd => ?_⟩
        have : d l = none := by simpa using hd
        exact ⟨pre, 1, [], by simp, (h l).1.1 this, by simp⟩
      · rw [Function.update_of_ne hl]
        exact hother hl
    · have hc : pre.getLast? = some a := by rw [← hlast]; simpa using (not_not.1 hc).symm
      by_cases hl : l = a
      · subst hl
        refine ⟨?_, fun hd => ?_⟩
        · rw [(h l).1]
          simp [List.mem_of_getLast? hc]
        · obtain ⟨A, n, A', h1, h2, h3⟩ := (h l).2 hd
          have : A' = [] := by
            by_contra hne
            rw [h1, List.getLast?_append_of_ne_nil _ hne] at hc
            exact h3 (List.mem_of_getLast? hc)
          subst this
          exact ⟨A, n + 1, [], by rw [h1, List.replicate_succ']; simp, h2, by simp⟩
      · exact hother hl

theorem labelChans_skip {l : L} {A : List L} (hA : l ∉ A) (xs : List L) (p : ℕ) (rs : List R) (h : A.length ≤ rs.length) :
    ∃ q, labelChans sz l p (A ++ xs) rs = labelChans sz l q xs (rs.drop A.length) := by
  induction A generalizing p rs with
  | nil => exact ⟨p, rfl⟩
  | cons a A ih =>
    cases rs with
    | nil => simp at h
    | cons r rs =>
      simp only [List.mem_cons, not_or] at hA
      obtain ⟨q, hq⟩ := ih hA.2 (p + sz r) rs (by simpa using h)
      refine ⟨q, ?_⟩
      rw [List.cons_append, labelChans, if_neg (Ne.symm hA.1), hq]
      rfl

theorem labelChans_none {l : L} {A : List L} (hA : l ∉ A) (p : ℕ) (rs : List R) : labelChans sz l p A rs = [] := by
  induction A generalizing p rs with
  | nil => rfl
  | cons a A ih =>
    cases rs with
    | nil => rfl
    | cons r rs =>
      simp only [List.mem_cons, not_or] at hA
      rw [labelChans, if_neg (Ne.symm hA.1), ih hA.2]

theorem labelChans_run {l : L} {A : List L} (hA : l ∉ A) (n p : ℕ) (rs : List R) :
    ∃ m, labelChans sz l p (List.replicate n l ++ A) rs = List.range' p m := by
  induction n generalizing p rs with
  | zero => exact ⟨0, by simpa using labelChans_none hA p rs⟩
  | succ n ih =>
    cases rs with
    | nil => exact ⟨0, rfl⟩
    | cons r rs =>
      obtain ⟨m, hm⟩ := ih (p + sz r) rs
      refine ⟨sz r + m, ?_⟩
      rw [List.replicate_succ, List.cons_append, labelChans, if_pos rfl, hm, List.range'_append_1]

/-- The runs of labels recognised as contiguous occupy an interval of channels. -/
theorem contiguous_interval {labels : List L} {rs : List R} (h : labels.length = rs.length) {l : L}
    (hc : contLoop none (fun _ => none) labels l = some true) : ∃ a m, labelChans sz l 0 labels rs = List.range' a m := by
  obtain ⟨A, n, A', h1, h2, h3⟩ := (contLoop_spec labels [] none (fun _ => none) rfl (by simp) l).2 hc
  rw [List.nil_append] at h1
  rw [h1, List.append_assoc]
  obtain ⟨q, hq⟩ := labelChans_skip (sz := sz) h2 (List.replicate n l ++ A') 0 rs (by rw [← h, h1]; simp)
  rw [hq]
  obtain ⟨m, hm⟩ := labelChans_run (sz := sz) h3 n q (rs.drop A.length)
  exact ⟨q, m, hm⟩

theorem withLabel_forall (t : FType S R) (labels : List L) (h : labels.length = t.len) (l : L) (hl : l ∈ labels) :
    List.Forall₂ (fun (i : ℕ) r => t.reprs[i]? = some r) (labelled labels l) (t.withLabel labels l) := by
  have := FType.select_label t labels h l hl
  rw [labelled_eq, indexSelect_nat] at this
  exact this.2.2

/-- The channels of a label are cut out of the tensor correctly, whether or not they are contiguous. -/
theorem branchEntry_spec {t : FType S R} (hpos : ∀ r ∈ t.reprs, 0 < sz r) {labels : List L} (h : labels.length = t.len) {l : L} (hl : l ∈ labels) :
    ∃ c idx, branchEntry sz labels t.reprs l = .ok (l, c, idx) ∧ ∀ x : GTensor B P S R C, x.type = t → x.tensor.chans = x.type.size sz →
      ∃ d, (if c then do
          let a ← pyGet idx 0
          let b ← pyGet idx 1
          .ok (GTensor.chanSlice x.tensor a b)
        else GTensor.chanGather x.tensor idx) = Except.ok d ∧ d.chans = ((t.withLabel labels l).map sz).sum ∧
        IsSelection sz x (labelled labels l) ⟨d, ⟨t.gspace, t.withLabel labels l⟩, x.coords⟩ := by
  have hf := withLabel_forall t labels h l hl
  have hch := labelChans_eq (sz := sz) l labels t.reprs h
  have hne := labelChans_ne_nil (sz := sz) l 0 labels t.reprs hpos h hl
  have hsort := (labelChans_sorted (sz := sz) l 0 labels t.reprs).1
  have hgat : ∀ x : GTensor B P S R C, x.type = t → x.tensor.chans = x.type.size sz → ∃ d,
      GTensor.chanGather x.tensor (labelChans sz l 0 labels t.reprs) = .ok d ∧ d.chans = ((t.withLabel labels l).map sz).sum ∧
        IsSelection sz x (labelled labels l) ⟨d, ⟨t.gspace, t.withLabel labels l⟩, x.coords⟩ := by
    intro x hxt hx
    subst hxt
    obtain ⟨d, y, e1, e2, rfl, e4⟩ := gather_fields (sz := sz) (x := x) (by rw [hx, FType.size_eq]) (u := ⟨x.type.gspace, x.type.withLabel labels l⟩) rfl hf
    exact ⟨d, by rw [hch, e1], e4.chans, e4⟩
  unfold branchEntry
  have hsome := (contLoop_spec labels [] none (fun _ => none) rfl (by simp) l).1
  cases hc : contLoop none (fun _ => none) labels l with
  | none => rw [hsome] at hc; simp [hl] at hc
  | some c =>
    cases c with
    | false => exact ⟨false, _, rfl, fun x hxt hx => by simpa using hgat x hxt hx⟩
    | true =>
      obtain ⟨a, m, ham⟩ := contiguous_interval (sz := sz) h hc
      have hcons : checkConsecutive (labelChans sz l 0 labels t.reprs) = .ok true := by
        obtain ⟨c, e1, e2⟩ := checkConsecutive_iff _ hne hsort
        rw [e1, e2.2 ⟨a, by rw [ham, List.length_range']⟩]
      simp only [List.min?_eq_some_min hne, List.max?_eq_some_max hne]
      refine ⟨true, _, rfl, fun x hxt hx => ?_⟩
      obtain ⟨d, e1, e2, e3⟩ := hgat x hxt hx
      have hlt : ∀ c ∈ labelChans sz l 0 labels t.reprs, c < x.tensor.chans := by
        intro c hcm
        rw [GTensor.chanGather] at e1
        split_ifs at e1 with h0
        exact of_decide_eq_true (List.all_eq_true.1 h0 c hcm)
      obtain ⟨y, e4, e5⟩ := C29_slice x.tensor _ hne hsort hlt hcons
      rw [e1] at e4
      cases e4
      refine ⟨_, rfl, by rw [e5.1, e2], e3.congr_right ⟨rfl, rfl, e5.symm⟩⟩

theorem dictGet_ok {K V : Type} [DecidableEq K] {d : List (K × V)} {l : K} {v : V} : dictGet d l = .ok v ↔ FType.lookupLast d l = some v := by
  unfold dictGet
  cases FType.lookupLast d l <;> simp

theorem finish_spec (t0 : FType S R) (layer : Option (Reshuffle S R)) (t : FType S R) (hpos : ∀ r ∈ t.reprs, 0 < sz r) (labels : List L)
    (h : labels.length = t.len) :
    ∃ m, Branching.finish sz t0 layer t labels = .ok m ∧ m.inType = t0 ∧ m.reshuffle = layer ∧ m.labels = labels.dedup ∧
      (∀ l, FType.lookupLast m.outType l = if l ∈ labels then some ⟨t.gspace, t.withLabel labels l⟩ else none) ∧
      ∀ x : GTensor B P S R C, x.type = t → x.tensor.chans = x.type.size sz → ∀ l ∈ labels, ∃ d,
        m.retrieve sz x l = .ok ⟨d, ⟨t.gspace, t.withLabel labels l⟩, x.coords⟩ ∧
        IsSelection sz x (labelled labels l) ⟨d, ⟨t.gspace, t.withLabel labels l⟩, x.coords⟩ := by
  have hg : t.groupByLabels labels = .ok (labels.map fun l => (l, ⟨t.gspace, t.withLabel labels l⟩)) := by
    rw [FType.groupByLabels, if_neg (not_not.2 h), FType.groupLoop_spec t labels h labels fun _ h => h]
  have hall : ∀ l ∈ labels, ∃ e : Bool × List ℕ, branchEntry sz labels t.reprs l = .ok (l, e) ∧
      ∀ x : GTensor B P S R C, x.type = t → x.tensor.chans = x.type.size sz →
      ∃ d, (if e.1 then do
          let a ← pyGet e.2 0
          let b ← pyGet e.2 1
          .ok (GTensor.chanSlice x.tensor a b)
        else GTensor.chanGather x.tensor e.2) = Except.ok d ∧ d.chans = ((t.withLabel labels l).map sz).sum ∧
        IsSelection sz x (labelled labels l) ⟨d, ⟨t.gspace, t.withLabel labels l⟩, x.coords⟩ := by
    intro l hl
    obtain ⟨c, idx, h1, h2⟩ := branchEntry_spec (B := B) (P := P) (C := C) hpos h hl
    exact ⟨(c, idx), h1, h2⟩
  choose! e he1 he2 using hall
  have ht : mapE (branchEntry sz labels t.reprs) labels.dedup = .ok (labels.dedup.map fun l => (l, e l)) :=
    mapE_map fun l hl => he1 l (List.mem_dedup.1 hl)
  refine ⟨⟨t0, layer, labels.dedup, labels.map fun l => (l, ⟨t.gspace, t.withLabel labels l⟩), labels.dedup.map fun l => (l, e l)⟩, ?_, rfl, rfl, rfl, ?_, ?_⟩
  · unfold Branching.finish
    rw [hg]
    simp only [bind, Except.bind]
    rw [ht]
  · intro l
    exact FType.lookupLast_map (fun l => (⟨t.gspace, t.withLabel labels l⟩ : FType S R)) labels l
  · intro x hxt hx l hl
    obtain ⟨d, h1, h2, h3⟩ := he2 l hl x hxt hx
    refine ⟨d, ?_, h3⟩
    unfold Branching.retrieve
    have g1 : dictGet (labels.dedup.map fun l => (l, e l)) l = .ok (e l) := by
      rw [dictGet_ok, FType.lookupLast_map e, if_pos (List.mem_dedup.2 hl)]
    have g2 : dictGet (labels.map fun l => (l, (⟨t.gspace, t.withLabel labels l⟩ : FType S R))) l = .ok ⟨t.gspace, t.withLabel labels l⟩ := by
      rw [dictGet_ok, FType.lookupLast_map (fun l => (⟨t.gspace, t.withLabel labels l⟩ : FType S R)), if_pos hl]
    simp only
    rw [g1]
    simp only [bind, Except.bind] at h1 ⊢
    rw [h1]
    simp only
    rw [g2]
    exact GTensor.mk'_ok_iff.2 ⟨h2, rfl⟩

theorem branchLe_trans (k : ℕ) (a b c : (L × ℕ) × ℕ) : branchLe k a b → branchLe k b c → branchLe k a c := by
  unfold branchLe
  split_ifs
  · simp only [decide_eq_true_eq]; exact le_trans
  · simp only [Bool.or_eq_true, Bool.and_eq_true, decide_eq_true_eq]
    rintro (h | ⟨h1, h2⟩) (h' | ⟨h1', h2'⟩)
    · exact Or.inl (h.trans h')
    · exact Or.inl (h1' ▸ h)
    · exact Or.inl (h1 ▸ h')
    · exact Or.inr ⟨h1.trans h1', h2.trans h2'⟩

theorem branchLe_total (k : ℕ) (a b : (L × ℕ) × ℕ) : branchLe k a b || branchLe k b a := by
  unfold branchLe
  split_ifs
  · simp only [Bool.or_eq_true, decide_eq_true_eq]; exact le_total _ _
  · simp only [Bool.or_eq_true, Bool.and_eq_true, decide_eq_true_eq]
    rcases lt_trichotomy a.1.1 b.1.1 with h | h | h
    · tauto
    · rcases le_total a.1.2 b.1.2 with h' | h'
      · tauto
      · right; right; exact ⟨h.symm, h'⟩
    · tauto

theorem branchPerm_perm (k : ℕ) (labels : List L) (rs : List R) (h : labels.length = rs.length) :
    (branchPerm sz k labels rs).Perm (List.range rs.length) := by
  unfold branchPerm
  refine ((List.mergeSort_perm _ _).map Prod.snd).trans ?_
  rw [List.zipIdx_map_snd, List.range_eq_range']
  simp [h]

/-- The order of the fields with one label after the permutation: by size for `reshuffle = 2`, and by position otherwise. -/
theorem branchPerm_sorted (k : ℕ) (labels : List L) (rs : List R) (h : labels.length = rs.length) (l : L) :
    ((branchPerm sz k labels rs).filter fun i => labels[i]? = some l).Pairwise fun i j => if k = 1 then i < j else
      (rs[i]?.map sz).getD 0 < (rs[j]?.map sz).getD 0 ∨ ((rs[i]?.map sz).getD 0 = (rs[j]?.map sz).getD 0 ∧ i < j) := by
  have hs := stable_sort (branchLe (L := L) k) (branchLe_trans k) (branchLe_total k) (labels.zip (rs.map sz))
  have hm : ∀ u ∈ ((labels.zip (rs.map sz)).zipIdx).mergeSort (branchLe k), labels[u.2]? = some u.1.1 ∧ (rs[u.2]?.map sz).getD 0 = u.1.2 := by
    intro u hu
    have hu := (List.mergeSort_perm _ _).mem_iff.1 hu
    have hu := List.mem_zipIdx_iff_getElem?.1 hu
    rw [List.getElem?_zip_eq_some] at hu
    refine ⟨hu.1, ?_⟩
    rw [← List.getElem?_map, hu.2]
    rfl
  unfold branchPerm
  rw [List.filter_map, List.pairwise_map]
  refine List.Pairwise.imp_of_mem (R := fun u v : (L × ℕ) × ℕ => branchLe k u v ∧ (branchLe k v u → u.2 < v.2)) ?_ (hs.filter _)
  intro u v hu hv huv
  obtain ⟨hu1, hu2⟩ := List.mem_filter.1 hu
  obtain ⟨hv1, hv2⟩ := List.mem_filter.1 hv
  obtain ⟨a1, a2⟩ := hm u hu1
  obtain ⟨b1, b2⟩ := hm v hv1
  have c1 : labels[u.2]? = some l := by simpa using hu2
  have c2 : labels[v.2]? = some l := by simpa using hv2
  rw [c1] at a1
  rw [c2] at b1
  have d1 : u.1.1 = l := by simpa using a1.symm
  have d2 : v.1.1 = l := by simpa using b1.symm
  rw [a2, b2]
  unfold branchLe at huv
  rw [d1, d2] at huv
  split_ifs with hk
  · simp only [hk, if_true] at huv
    exact huv.2 (by simp)
  · simp only [hk, if_false] at huv
    simp only [lt_self_iff_false, decide_false, decide_true, Bool.true_and, Bool.false_or, decide_eq_true_eq] at huv
    rcases Nat.lt_or_eq_of_le huv.1 with h' | h'
    · exact Or.inl h'
    · exact Or.inr ⟨h', huv.2 (by omega)⟩

theorem labelled_map (labels : List L) (perm : List ℕ) (hp : ∀ i ∈ perm, i < labels.length) (labels' : List L)
    (hl : List.Forall₂ (fun (p : ℕ) l => labels[p]? = some l) perm labels') (l : L) :
    (labelled labels' l).map (fun j => perm.getD j 0) = perm.filter fun i => labels[i]? = some l := by
  rw [← labelled_eq]
  have key : ∀ (c : ℕ) (pre : List ℕ), pre.length = c →
      (FType.labelLoop l c labels').map (fun j => (pre ++ perm).getD j 0) = perm.filter fun i => labels[i]? = some l := by
    clear hp
    induction hl with
    | nil => intro c pre _; rfl
    | cons h1 _ ih =>
      rename_i a b as bs _
      intro c pre hc
      rw [FType.labelLoop, List.filter_cons]
      have e := ih (c + 1) (pre ++ [a]) (by simp [hc])
      rw [List.append_assoc] at e
      by_cases hb : b = l
      · rw [if_pos hb, if_pos (by rw [h1, hb]; simp), List.map_cons]
        refine congrArg₂ _ ?_ e
        rw [List.getD_append_right _ _ _ _ (by omega), hc]
        simp
      · rw [if_neg hb, if_neg (by rw [h1]; simpa using hb)]
        exact e
  exact key 0 [] rfl

/-- **C28** `BranchingModule` accepts the labels iff there is one for each field; branch `l` of the output has the declared type
`out_type[l]` and consists of the fields with label `l`: in their order if `reshuffle` is `0` or `1`, sorted by size (and by position among equal sizes)
if it is `2`. -/
theorem C28_branching {eqR : R → R → Prop} (hsz : ∀ r r', eqR r r' → sz r = sz r') (t : FType S R) (hne : t.reprs ≠ [])
    (hpos : ∀ r ∈ t.reprs, 0 < sz r) (labels : List L) (k : ℕ) :
    (¬ (k < 3 ∧ labels.length = t.reprs.length) → Branching.init sz t labels k = .error .assertion) ∧
    (k < 3 → labels.length = t.reprs.length → ∃ m, Branching.init sz t labels k = .ok m ∧ m.inType = t ∧ (∀ l, l ∈ m.labels ↔ l ∈ labels) ∧
      ∃ I : L → List ℕ, (∀ l ∈ labels, (I l).Perm (labelled labels l) ∧ (k < 2 → I l = labelled labels l) ∧
          (k = 2 → (I l).Pairwise fun i j => (t.reprs[i]?.map sz).getD 0 < (t.reprs[j]?.map sz).getD 0 ∨
            ((t.reprs[i]?.map sz).getD 0 = (t.reprs[j]?.map sz).getD 0 ∧ i < j))) ∧
        ∀ x : GTensor B P S R C, x.tensor.chans = x.type.size sz →
          (x.type.PyEq eqR t → ∃ d, m.forward eqR sz x = .ok d ∧ (∀ l, l ∈ d.map Prod.fst ↔ l ∈ labels) ∧
            ∀ l ∈ labels, ∃ y, FType.lookupLast d l = some y ∧ FType.lookupLast m.outType l = some y.type ∧
              IsSelection sz ⟨x.tensor, t, x.coords⟩ (I l) y) ∧
          (¬ x.type.PyEq eqR t → m.forward eqR sz x = .error .assertion)) := by
  constructor
  · intro h
    unfold Branching.init
    by_cases hk : k < 3
    · rw [if_neg (not_not.2 hk), if_pos]
      intro h'
      exact h ⟨hk, h'.symm⟩
    · rw [if_pos hk]
  intro hk hlen
  have hxsz : ∀ x : GTensor B P S R C, x.tensor.chans = x.type.size sz → x.type.PyEq eqR t → x.tensor.chans = t.size sz := by
    intro x hx hxt
    rw [hx, FType.size_eq, FType.size_eq]
    have := hxt.2
    generalize x.type.reprs = A at this
    generalize t.reprs = A' at this
    induction this with
    | nil => rfl
    | cons h _ ih => simp only [List.map_cons, List.sum_cons, ih, hsz _ _ h]
  have hperm := branchPerm_perm (sz := sz) k labels t.reprs hlen
  have hfilt : ∀ l, ((branchPerm sz k labels t.reprs).filter fun i => labels[i]? = some l).Perm (labelled labels l) := by
    intro l
    unfold labelled
    rw [hlen]
    exact hperm.filter _
  have hlab : ∀ l, (labelled labels l).Pairwise (· < ·) := fun l => List.Pairwise.filter _ (List.pairwise_lt_range)
  -- the order of the fields with label `l`
  by_cases hc : 0 < k ∧ branchPerm sz k labels t.reprs ≠ List.range t.reprs.length
  · have hmem : ∀ i, i ∈ branchPerm sz k labels t.reprs ↔ i < t.reprs.length := fun i => by rw [hperm.mem_iff, List.mem_range]
    obtain ⟨u, hu1, hu2, hu3⟩ := Reshuffle.init_ok (sz := sz) hne hmem
    have hlabels : ∃ labels', mapE (fun p : ℕ => pyGet labels (p : ℤ)) (branchPerm sz k labels t.reprs) = .ok labels' ∧
        List.Forall₂ (fun (p : ℕ) l => labels[p]? = some l) (branchPerm sz k labels t.reprs) labels' := by
      have hmem' : ∀ i ∈ branchPerm sz k labels t.reprs, i < labels.length := fun i hi => by rw [hlen]; exact (hmem i).1 hi
      generalize branchPerm sz k labels t.reprs = Q at hmem'
      induction Q with
      | nil => exact ⟨[], rfl, List.Forall₂.nil⟩
      | cons q Q ih =>
        obtain ⟨ls, h1, h2⟩ := ih fun i hi => hmem' i (List.mem_cons_of_mem _ hi)
        have e := List.getElem?_eq_getElem (hmem' q (by simp))
        refine ⟨_ :: ls, ?_, List.Forall₂.cons e h2⟩
        rw [mapE, (pyGet_nat labels q _).2 e]
        simp only
        rw [h1]
    obtain ⟨labels', hl1, hl2⟩ := hlabels
    have hl3 : ∀ l, l ∈ labels' ↔ l ∈ labels := by
      intro l
      constructor
      · intro h
        obtain ⟨j, hj⟩ := List.mem_iff_getElem?.1 h
        have hj' := (List.getElem?_eq_some_iff.1 hj).1
        have := (List.forall₂_iff_get.1 hl2).2 j (by rw [hl2.length_eq]; exact hj') hj'
        simp only [List.get_eq_getElem] at this
        rw [← (List.getElem?_eq_some_iff.1 hj).2]
        exact List.mem_of_getElem? this
      · intro h
        obtain ⟨i, hi⟩ := List.mem_iff_getElem?.1 h
        have := (hmem i).2 (by rw [← hlen]; exact (List.getElem?_eq_some_iff.1 hi).1)
        obtain ⟨j, hj⟩ := List.mem_iff_getElem?.1 this
        have hj' := (List.getElem?_eq_some_iff.1 hj).1
        have g := (List.forall₂_iff_get.1 hl2).2 j hj' (by rw [← hl2.length_eq]; exact hj')
        simp only [List.get_eq_getElem] at g
        rw [(List.getElem?_eq_some_iff.1 hj).2, hi] at g
        rw [Option.some.inj g]
        exact List.getElem_mem _
    have hl4 : labels'.length = u.len := by
      rw [← hl2.length_eq, hu3.length_eq]; rfl
    have hpos' : ∀ r ∈ u.reprs, 0 < sz r := by
      intro r hr
      obtain ⟨j, hj⟩ := List.mem_iff_getElem?.1 hr
      have hj' := (List.getElem?_eq_some_iff.1 hj).1
      have := (List.forall₂_iff_get.1 hu3).2 j (by rw [hu3.length_eq]; exact hj') hj'
      simp only [List.get_eq_getElem] at this
      rw [(List.getElem?_eq_some_iff.1 hj).2] at this
      exact hpos r (List.mem_of_getElem? this)
    obtain ⟨m, hm1, hm2, hm3, hm4, hm5, hm6⟩ := finish_spec (B := B) (P := P) (C := C) t (some ⟨t, u, (branchPerm sz k labels t.reprs).flatMap (chansOf sz t.reprs)⟩) u hpos' labels' hl4
    refine ⟨m, ?_, hm2, fun l => by rw [hm4, List.mem_dedup, hl3], fun l => (branchPerm sz k labels t.reprs).filter fun i => labels[i]? = some l, ?_, ?_⟩
    · unfold Branching.init
      rw [if_neg (not_not.2 hk), if_neg (not_not.2 hlen.symm)]
      simp only
      rw [if_pos hc, hu1]
      simp only [bind, Except.bind]
      rw [hl1]
      exact hm1
    · intro l _
      have hsort := branchPerm_sorted (sz := sz) k labels t.reprs hlen l
      refine ⟨hfilt l, fun hk2 => ?_, fun hk2 => ?_⟩
      · obtain rfl : k = 1 := by omega
        simp only [if_true] at hsort
        exact (hfilt l).eq_of_pairwise (fun x y _ _ h h' => absurd h (Nat.lt_asymm h')) hsort (hlab l)
      · subst hk2
        simpa using hsort
    · intro x hx
      refine ⟨fun hxt => ?_, fun hn => by rw [Branching.forward, if_neg (by rw [hm2]; exact hn)]⟩
      have hx' := hxsz x hx hxt
      obtain ⟨dd, y, e1, e2, e3, e4⟩ := gather_fields (sz := sz) (x := ⟨x.tensor, t, x.coords⟩) (by rw [FType.size_eq] at hx'; exact hx') hu2 hu3
      have hy : y.type = u := by rw [e3]
      have hret := hm6 y hy (by rw [e4.chans, FType.size_eq])
      haveI : Nonempty (FTensor B P) := ⟨x.tensor⟩
      choose! d hd1 hd2 using hret
      have hmap : mapE (fun l => do let y ← m.retrieve sz y l; .ok (l, y)) m.labels =
          .ok (m.labels.map fun l => (l, (⟨d l, ⟨u.gspace, u.withLabel labels' l⟩, y.coords⟩ : GTensor B P S R C))) := by
        refine mapE_map fun l hl => ?_
        rw [hm4, List.mem_dedup] at hl
        rw [hd1 l hl]
        rfl
      refine ⟨m.labels.map fun l => (l, (⟨d l, ⟨u.gspace, u.withLabel labels' l⟩, y.coords⟩ : GTensor B P S R C)), ?_, ?_, ?_⟩
      rotate_left
      · intro l
        rw [List.map_map, hm4]
        simp [hl3]
      · intro l hl
        refine ⟨⟨d l, ⟨u.gspace, u.withLabel labels' l⟩, y.coords⟩, ?_, ?_, ?_⟩
        · rw [FType.lookupLast_map (fun l => (⟨d l, ⟨u.gspace, u.withLabel labels' l⟩, y.coords⟩ : GTensor B P S R C)),
            if_pos (by rw [hm4, List.mem_dedup, hl3]; exact hl)]
        · rw [hm5, if_pos ((hl3 l).2 hl)]
        · have := e4.comp (hd2 l ((hl3 l).2 hl))
          rwa [labelled_map labels _ (fun i hi => by rw [hlen]; exact (hmem i).1 hi) labels' hl2 l] at this
      · rw [Branching.forward, if_pos (by rw [hm2]; exact hxt), hm3]
        simp only [bind, Except.bind]
        have : Reshuffle.forward eqR sz ⟨t, u, (branchPerm sz k labels t.reprs).flatMap (chansOf sz t.reprs)⟩ x = .ok y := by
          rw [Reshuffle.forward, if_pos hxt]
          simp only [bind, Except.bind]
          rw [e1]
          exact e2
        rw [this]
        exact hmap
  · obtain ⟨m, hm1, hm2, hm3, hm4, hm5, hm6⟩ := finish_spec (B := B) (P := P) (C := C) t none t hpos labels hlen
    refine ⟨m, ?_, hm2, fun l => by rw [hm4, List.mem_dedup], labelled labels, ?_, ?_⟩
    · unfold Branching.init
      rw [if_neg (not_not.2 hk), if_neg (not_not.2 hlen.symm)]
      simp only
      rw [if_neg hc]
      exact hm1
    · intro l _
      refine ⟨List.Perm.refl _, fun _ => rfl, fun hk2 => ?_⟩
      subst hk2
      have hid : branchPerm sz 2 labels t.reprs = List.range t.reprs.length := by
        by_contra h
        exact hc ⟨by omega, h⟩
      have hsort := branchPerm_sorted (sz := sz) 2 labels t.reprs hlen l
      rw [hid, ← hlen] at hsort
      simpa [labelled] using hsort
    · intro x hx
      refine ⟨fun hxt => ?_, fun hn => by rw [Branching.forward, if_neg (by rw [hm2]; exact hn)]⟩
      have hx' := hxsz x hx hxt
      have hret := hm6 ⟨x.tensor, t, x.coords⟩ rfl hx'
      haveI : Nonempty (FTensor B P) := ⟨x.tensor⟩
      choose! d hd1 hd2 using hret
      have hmap : mapE (fun l => do let y ← m.retrieve sz x l; .ok (l, y)) m.labels =
          .ok (m.labels.map fun l => (l, (⟨d l, ⟨t.gspace, t.withLabel labels l⟩, x.coords⟩ : GTensor B P S R C))) := by
        refine mapE_map fun l hl => ?_
        rw [hm4, List.mem_dedup] at hl
        rw [show m.retrieve sz x l = m.retrieve sz ⟨x.tensor, t, x.coords⟩ l from rfl, hd1 l hl]
        rfl
      refine ⟨m.labels.map fun l => (l, (⟨d l, ⟨t.gspace, t.withLabel labels l⟩, x.coords⟩ : GTensor B P S R C)), ?_, ?_, ?_⟩
      rotate_left
      · intro l
        rw [List.map_map, hm4]
        simp
      · intro l hl
        refine ⟨⟨d l, ⟨t.gspace, t.withLabel labels l⟩, x.coords⟩, ?_, ?_, hd2 l hl⟩
        · rw [FType.lookupLast_map (fun l => (⟨d l, ⟨t.gspace, t.withLabel labels l⟩, x.coords⟩ : GTensor B P S R C)),
            if_pos (by rw [hm4, List.mem_dedup]; exact hl)]
        · rw [hm5, if_pos hl]
      · rw [Branching.forward, if_pos (by rw [hm2]; exact hxt), hm3]
        exact hmap

end branching

end Escnn
