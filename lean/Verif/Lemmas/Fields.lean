import Verif.Spec.Fields
import Verif.Lemmas.FTensor
import Verif.Props.C23_FieldType
import Mathlib.Data.List.Basic
import Mathlib.Tactic.Linarith

/-!
# Lemmas about lists of fields, Python indices and slices
-/

namespace Escnn

variable {B P S R C : Type} {sz : R → ℕ}

/-! ## list comprehensions -/

theorem mapE_ok_iff {α β : Type} {f : α → Except Err β} {L : List α} {M : List β} :
    mapE f L = .ok M ↔ List.Forall₂ (fun a b => f a = .ok b) L M := by
  induction L generalizing M with
  | nil => simp [mapE, List.forall₂_nil_left_iff, eq_comm]
  | cons a L ih =>
    rw [mapE]
    cases hf : f a with
    | error e => simp [List.forall₂_cons_left_iff, hf]
    | ok b =>
      cases hm : mapE f L with
      | error e =>
        simp only [reduceCtorEq, false_iff, List.forall₂_cons_left_iff, hf]
        rintro ⟨b', u, -, h2, -⟩
        rw [ih.2 h2] at hm
        cases hm
      | ok M' =>
        simp only [Except.ok.injEq, List.forall₂_cons_left_iff, hf]
        constructor
        · rintro rfl
          exact ⟨b, M', rfl, ih.1 hm, rfl⟩
        · rintro ⟨b', u, rfl, h2, rfl⟩
          rw [ih.2 h2] at hm
          cases hm
          rfl

theorem mapE_map {α β : Type} {f : α → Except Err β} {g : α → β} {L : List α} (h : ∀ a ∈ L, f a = .ok (g a)) : mapE f L = .ok (L.map g) := by
  induction L with
  | nil => rfl
  | cons a L ih =>
    rw [mapE, h a (by simp)]
    simp only
    rw [ih fun b hb => h b (List.mem_cons_of_mem _ hb)]
    rfl

theorem pyGet_nat {α : Type} (L : List α) (i : ℕ) (a : α) : pyGet L (i : ℤ) = .ok a ↔ L[i]? = some a := by
  unfold pyGet
  rw [if_pos (Int.natCast_nonneg i), Int.toNat_natCast]
  cases L[i]? <;> simp

theorem pyGet_ok_iff {α : Type} (L : List α) (i : ℤ) (a : α) :
    pyGet L i = .ok a ↔ ∃ k : ℕ, L[k]? = some a ∧ (i = k ∨ i = (k : ℤ) - L.length) := by
  have hlt : ∀ k : ℕ, L[k]? = some a → k < L.length := fun k hk => (List.getElem?_eq_some_iff.1 hk).1
  unfold pyGet
  split_ifs with h1 h2
  · constructor
    · intro h
      cases hg : L[i.toNat]? with
      | none => rw [hg] at h; cases h
      | some b => rw [hg] at h; cases h; exact ⟨_, hg, .inl (by omega)⟩
    · rintro ⟨k, hk, rfl | rfl⟩
      · rw [Int.toNat_natCast, hk]
      · have := hlt k hk; omega
  · constructor
    · intro h
      cases hg : L[(i + L.length).toNat]? with
      | none => rw [hg] at h; cases h
      | some b => rw [hg] at h; cases h; exact ⟨_, hg, .inr (by omega)⟩
    · rintro ⟨k, hk, rfl | rfl⟩
      · omega
      · rw [show ((k : ℤ) - L.length + L.length).toNat = k by omega, hk]
  · simp only [reduceCtorEq, false_iff]
    rintro ⟨k, hk, rfl | rfl⟩ <;> omega

/-! ## offsets -/

@[simp] theorem chanOffset_zero (L : List R) : chanOffset sz L 0 = 0 := rfl
@[simp] theorem chanOffset_cons_succ (r : R) (L : List R) (k : ℕ) : chanOffset sz (r :: L) (k + 1) = sz r + chanOffset sz L k := rfl
theorem chanOffset_length (L : List R) : chanOffset sz L L.length = (L.map sz).sum := by rw [chanOffset, List.take_length]

theorem chanOffset_succ {L : List R} {k : ℕ} {r : R} (h : L[k]? = some r) : chanOffset sz L (k + 1) = chanOffset sz L k + sz r := by
  rw [chanOffset, List.take_succ, h, chanOffset]; simp

theorem chanOffset_mono (L : List R) {i j : ℕ} (h : i ≤ j) : chanOffset sz L i ≤ chanOffset sz L j := by
  have : L.take j = L.take i ++ (L.take j).drop i := by
    conv_lhs => rw [← List.take_append_drop i (L.take j), List.take_take, Nat.min_eq_left h]
  rw [chanOffset, chanOffset, this]; simp

theorem chanOffset_le (L : List R) (i : ℕ) : chanOffset sz L i ≤ (L.map sz).sum := by
  rcases Nat.le_total i L.length with h | h
  · rw [← chanOffset_length]; exact chanOffset_mono L h
  · rw [chanOffset, List.take_of_length_le h]

theorem chanOffset_lt {L : List R} {k : ℕ} {r : R} (h : L[k]? = some r) {o : ℕ} (ho : o < sz r) : chanOffset sz L k + o < (L.map sz).sum := by
  have h1 := chanOffset_succ (sz := sz) h
  have h2 := chanOffset_le (sz := sz) L (k + 1)
  omega

theorem chanOffset_append_left (L M : List R) {k : ℕ} (h : k ≤ L.length) : chanOffset sz (L ++ M) k = chanOffset sz L k := by
  rw [chanOffset, List.take_append_of_le_length h, chanOffset]

theorem chanOffset_append_right (L M : List R) (k : ℕ) : chanOffset sz (L ++ M) (L.length + k) = (L.map sz).sum + chanOffset sz M k := by
  rw [chanOffset, List.take_length_add_append]; simp [chanOffset]

theorem chanOffset_drop (L : List R) (a k : ℕ) : chanOffset sz (L.drop a) k = chanOffset sz L (a + k) - chanOffset sz L a := by
  rw [chanOffset, chanOffset, chanOffset, List.take_add]; simp

theorem chanOffset_take (L : List R) (b k : ℕ) (h : k ≤ b) : chanOffset sz (L.take b) k = chanOffset sz L k := by
  rw [chanOffset, List.take_take, Nat.min_eq_left h, chanOffset]

theorem sum_drop (L : List R) (a : ℕ) : ((L.drop a).map sz).sum = (L.map sz).sum - chanOffset sz L a := by
  have h : (L.map sz).sum = chanOffset sz L a + ((L.drop a).map sz).sum := by
    conv_lhs => rw [← List.take_append_drop a L]
    rw [List.map_append, List.sum_append, chanOffset]
  omega

theorem exists_field {L : List R} {c : ℕ} (h : c < (L.map sz).sum) : ∃ k r o, L[k]? = some r ∧ o < sz r ∧ c = chanOffset sz L k + o := by
  induction L generalizing c with
  | nil => simp at h
  | cons r L ih =>
    by_cases hc : c < sz r
    · exact ⟨0, r, c, rfl, hc, by simp⟩
    · obtain ⟨k, r', o, h1, h2, h3⟩ := ih (c := c - sz r) (by simp at h; omega)
      exact ⟨k + 1, r', o, h1, h2, by rw [chanOffset_cons_succ]; omega⟩

namespace FType

theorem fieldsStart_get (t : FType S R) (i : ℕ) :
    (t.fieldsStart sz)[i]? = if i < t.reprs.length then some (chanOffset sz t.reprs i) else none := by
  rw [fieldsStart, startLoop_get, Nat.zero_add]; rfl

theorem fieldsEnd_get (t : FType S R) (i : ℕ) :
    (t.fieldsEnd sz)[i]? = if i < t.reprs.length then some (chanOffset sz t.reprs (i + 1)) else none := by
  rw [fieldsEnd, endLoop_get, Nat.zero_add]; rfl

theorem fieldsStart_length (t : FType S R) : (t.fieldsStart sz).length = t.reprs.length := (C23_fields t).2.1
theorem fieldsEnd_length (t : FType S R) : (t.fieldsEnd sz).length = t.reprs.length := (C23_fields t).2.2.1

theorem mk'_ok_iff {g : S} {L : List R} {t : FType S R} : mk' g L = .ok t ↔ L ≠ [] ∧ t = ⟨g, L⟩ := by
  unfold mk'
  split_ifs with h
  · simp only [Except.ok.injEq, eq_comm, ne_eq, iff_and_self]; rintro - rfl; simp at h
  · simp only [reduceCtorEq, false_iff, not_and]; intro h'; exact absurd (List.length_pos_of_ne_nil h') h

end FType

theorem GTensor.mk'_ok_iff {x : FTensor B P} {t : FType S R} {c : C} {y : GTensor B P S R C} :
    mk' sz x t c = .ok y ↔ x.chans = (t.reprs.map sz).sum ∧ y = ⟨x, t, c⟩ := by
  unfold mk'
  rw [FType.size_eq]
  split_ifs with h <;> simp [h, eq_comm]

theorem GTensor.positions_get (p : ℕ) (L : List R) (i : ℕ) :
    (GTensor.positions sz p L)[i]? = if i ≤ L.length then some (p + chanOffset sz L i) else none := by
  induction L generalizing p i with
  | nil => cases i <;> simp [positions]
  | cons r L ih =>
    cases i with
    | zero => simp [positions]
    | succ i => simp [positions, ih, Nat.add_assoc]

theorem GTensor.positions_length (p : ℕ) (L : List R) : (GTensor.positions sz p L).length = L.length + 1 := by
  induction L generalizing p with
  | nil => rfl
  | cons r L ih => simp [positions, ih]

/-! ## selections -/

namespace IsSelection

variable {x y z : GTensor B P S R C} {I J : List ℕ}

/-- Whole intervals of fields. -/
theorem interval (x : GTensor B P S R C) {a b : ℕ} (hab : a ≤ b) (hb : b ≤ x.type.reprs.length) :
    IsSelection sz x (List.range' a (b - a))
      ⟨GTensor.chanSlice x.tensor (chanOffset sz x.type.reprs a) (chanOffset sz x.type.reprs b),
        ⟨x.type.gspace, (x.type.reprs.take b).drop a⟩, x.coords⟩ := by
  refine ⟨rfl, rfl, ?_, ?_, ?_, ?_, ?_⟩
  · simp; omega
  · intro i hi; rw [List.mem_range'_1] at hi; omega
  · intro k i hk
    have h : k < b - a := by simpa using (List.getElem?_eq_some_iff.1 hk).1
    rw [List.getElem?_range' h] at hk
    obtain rfl : a + k = i := by simpa using hk
    rw [List.getElem?_drop, List.getElem?_take_of_lt (by omega)]
  · rw [GTensor.chanSlice, sum_drop, ← chanOffset, chanOffset_take _ _ _ hab]
  · intro k i r hk hr b' o p ho
    have h : k < b - a := by simpa using (List.getElem?_eq_some_iff.1 hk).1
    rw [List.getElem?_range' h] at hk
    obtain rfl : a + k = i := by simpa using hk
    simp only [GTensor.chanSlice]
    rw [chanOffset_drop, chanOffset_take _ _ _ (by omega), chanOffset_take _ _ _ hab]
    have := chanOffset_mono (sz := sz) x.type.reprs (show a ≤ a + k by omega)
    congr 1
    omega

theorem append (hI : IsSelection sz x I y) (hJ : IsSelection sz x J z) :
    IsSelection sz x (I ++ J) ⟨GTensor.chanCat2 y.tensor z.tensor, ⟨y.type.gspace, y.type.reprs ++ z.type.reprs⟩, y.coords⟩ := by
  refine ⟨hI.gspace, hI.coords, ?_, ?_, ?_, ?_, ?_⟩
  · simp [hI.len, hJ.len]
  · intro i hi
    rcases List.mem_append.1 hi with h | h
    · exact hI.mem i h
    · exact hJ.mem i h
  · intro k i hk
    simp only
    by_cases h : k < I.length
    · rw [List.getElem?_append_left h] at hk
      rw [List.getElem?_append_left (by rw [hI.len]; exact h), hI.repr k i hk]
    · rw [List.getElem?_append_right (by omega)] at hk
      rw [List.getElem?_append_right (by rw [hI.len]; omega), hI.len, hJ.repr _ i hk]
  · simp [GTensor.chanCat2, hI.chans, hJ.chans]
  · intro k i r hk hr b o p ho
    simp only [GTensor.chanCat2]
    by_cases h : k < I.length
    · rw [List.getElem?_append_left h] at hk
      have e := hI.repr k i hk
      rw [hr] at e
      rw [chanOffset_append_left _ _ (by rw [hI.len]; omega), if_pos (by rw [hI.chans]; exact chanOffset_lt e ho)]
      exact hI.data k i r hk hr b o p ho
    · rw [List.getElem?_append_right (by omega)] at hk
      obtain ⟨m, rfl⟩ : ∃ m, k = I.length + m := ⟨k - I.length, by omega⟩
      rw [Nat.add_sub_cancel_left] at hk
      have hoff := chanOffset_append_right (sz := sz) y.type.reprs z.type.reprs m
      rw [hI.len] at hoff
      rw [hoff, ← hI.chans, if_neg (by omega), Nat.add_assoc, Nat.add_sub_cancel_left]
      exact hJ.data m i r hk hr b o p ho

/-- The selection of all the fields is the tensor itself. -/
theorem all (hx : x.tensor.chans = (x.type.reprs.map sz).sum) (h : IsSelection sz x (List.range x.type.reprs.length) y) :
    y.tensor ≈ x.tensor ∧ y.type = x.type ∧ y.coords = x.coords := by
  have hr : y.type.reprs = x.type.reprs := by
    refine List.ext_getElem? fun k => ?_
    by_cases hk : k < x.type.reprs.length
    · exact h.repr k k (by simp [hk])
    · have := h.len
      rw [List.length_range] at this
      rw [List.getElem?_eq_none (by omega), List.getElem?_eq_none (by omega)]
  refine ⟨⟨by rw [h.chans, hr, hx], fun b c p hc => ?_⟩, ?_, h.coords⟩
  · rw [h.chans, hr] at hc
    obtain ⟨k, r, o, h1, h2, rfl⟩ := exists_field hc
    have := h.data k k r (by rw [List.getElem?_range (List.getElem?_eq_some_iff.1 h1).1]) h1 b o p h2
    rw [hr] at this
    exact this
  · have := h.gspace
    cases hx' : x.type; cases hy' : y.type
    rw [hx', hy'] at this hr
    simp_all

/-- Fields gathered one by one. -/
theorem gather (x : GTensor B P S R C) (I : List ℕ) (rs : List R) (d : B → ℕ → P → ℝ)
    (h : List.Forall₂ (fun (i : ℕ) r => x.type.reprs[i]? = some r) I rs)
    (hd : ∀ b p c, d b c p = x.tensor.get b ((List.flatten (List.zipWith (fun (i : ℕ) r => List.range' (chanOffset sz x.type.reprs i) (sz r)) I rs)).getD c 0) p) :
    IsSelection sz x I ⟨⟨(rs.map sz).sum, d⟩, ⟨x.type.gspace, rs⟩, x.coords⟩ := by
  refine ⟨rfl, rfl, h.length_eq.symm, ?_, ?_, rfl, ?_⟩
  · intro i hi
    obtain ⟨k, hk, rfl⟩ := List.getElem_of_mem hi
    have := (List.forall₂_iff_get.1 h).2 k hk (by rw [← h.length_eq]; exact hk)
    exact (List.getElem?_eq_some_iff.1 this).1
  · intro k i hk
    obtain ⟨hk', rfl⟩ := List.getElem?_eq_some_iff.1 hk
    have := (List.forall₂_iff_get.1 h).2 k hk' (by rw [← h.length_eq]; exact hk')
    simp only [List.get_eq_getElem] at this
    rw [this]
    simp only
    rw [List.getElem?_eq_getElem]
  · intro k i r hk hr b o p ho
    simp only
    rw [hd]
    congr 1
    clear hd d
    induction h generalizing k with
    | nil => simp at hk
    | cons h1 h2 ih =>
      rename_i a r' I rs
      cases k with
      | zero =>
        simp only [List.getElem?_cons_zero, Option.some.injEq] at hk
        subst hk
        rw [h1] at hr
        cases hr
        simp only [chanOffset_zero, Nat.zero_add, List.zipWith_cons_cons, List.flatten_cons]
        rw [List.getD_append _ _ _ _ (by simpa using ho), List.getD_eq_getElem _ _ (by simpa using ho), List.getElem_range']
        simp
      | succ k =>
        simp only [chanOffset_cons_succ, List.zipWith_cons_cons, List.flatten_cons]
        rw [List.getD_append_right _ _ _ _ (by simp; omega), List.length_range']
        rw [show sz r' + chanOffset sz rs k + o - sz r' = chanOffset sz rs k + o by omega]
        exact ih k (by simpa using hk)

end IsSelection

/-! ## slices with unit step -/

theorem sliceIdx_one (n : ℕ) (start stop step : Option ℤ) (hs : step = none ∨ step = some 1) :
    sliceIdx n start stop step = .ok (List.range' ((start.map (clampUp n)).getD 0).toNat
      (((stop.map (clampUp n)).getD n).toNat - ((start.map (clampUp n)).getD 0).toNat)) := by
  have hk : step.getD 1 = 1 := by rcases hs with rfl | rfl <;> rfl
  have hc : ∀ i, 0 ≤ clampUp n i := by intro i; unfold clampUp; split_ifs <;> omega
  have ha : 0 ≤ (start.map (clampUp n)).getD 0 := by
    cases start with
    | none => simp
    | some i => simpa using hc i
  have hb : 0 ≤ (stop.map (clampUp n)).getD n := by
    cases stop with
    | none => simp
    | some i => simpa using hc i
  unfold sliceIdx
  simp only [hk]
  rw [if_neg (by norm_num), if_pos (by norm_num)]
  generalize (start.map (clampUp n)).getD 0 = a at *
  generalize (stop.map (clampUp n)).getD n = b at *
  simp only [mul_one, Int.ediv_one, Except.ok.injEq, add_sub_cancel_right]
  refine List.ext_getElem ?_ fun k h1 h2 => ?_
  · simp; omega
  · simp only [List.getElem_map, List.getElem_range, List.getElem_range']
    simp at h1
    omega

theorem filterMap_range' {α : Type} (L : List α) (a m : ℕ) : (List.range' a m).filterMap (fun i => L[i]?) = (L.drop a).take m := by
  induction m generalizing a with
  | zero => simp
  | succ m ih =>
    rw [List.range'_succ]
    by_cases h : a < L.length
    · rw [List.filterMap_cons_some (f := fun i : ℕ => L[i]?) (List.getElem?_eq_getElem h), ih, List.drop_eq_getElem_cons h, List.take_succ_cons]
    · rw [List.filterMap_cons_none (f := fun i : ℕ => L[i]?) (List.getElem?_eq_none (by omega)), ih,
        List.drop_of_length_le (by omega), List.drop_of_length_le (by omega)]
      simp

end Escnn
