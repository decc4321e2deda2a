import Verif.Model.FieldType
import Mathlib.Data.List.GetD

/-!
# C23: bookkeeping of field types
-/

namespace Escnn

namespace FType

variable {S R : Type} {sz : R → ℕ}

theorem size_eq (t : FType S R) : t.size sz = (t.reprs.map sz).sum := by
  rw [size, List.sum_eq_foldl]

theorem startLoop_get (p : ℕ) (L : List R) (i : ℕ) :
    (startLoop sz p L)[i]? = if i < L.length then some (p + ((L.take i).map sz).sum) else none := by
  induction L generalizing p i with
  | nil => simp [startLoop]
  | cons r L ih =>
    cases i with
    | zero => simp [startLoop]
    | succ i => simp [startLoop, ih, Nat.add_assoc]

theorem endLoop_get (p : ℕ) (L : List R) (i : ℕ) :
    (endLoop sz p L)[i]? = if i < L.length then some (p + ((L.take (i + 1)).map sz).sum) else none := by
  induction L generalizing p i with
  | nil => simp [endLoop]
  | cons r L ih =>
    cases i with
    | zero => simp [endLoop]
    | succ i => simp [endLoop, ih, Nat.add_assoc]

/-- **C23** `size` is the sum of the sizes; the `i`-th field occupies the channels from `fields_start[i]`, the sum of the sizes of
the fields before it, to `fields_end[i]`, exactly `size` of its representation; and nothing else is in the two arrays. -/
theorem C23_fields (t : FType S R) :
    t.size sz = (t.reprs.map sz).sum ∧ (t.fieldsStart sz).length = t.len ∧ (t.fieldsEnd sz).length = t.len ∧
    ∀ i r, t.reprs[i]? = some r →
      (t.fieldsStart sz)[i]? = some ((t.reprs.take i).map sz).sum ∧
      (t.fieldsEnd sz)[i]? = some (((t.reprs.take i).map sz).sum + sz r) := by
  refine ⟨size_eq t, ?_, ?_, fun i r hr => ?_⟩
  · rw [fieldsStart, len]
    generalize 0 = p
    induction t.reprs generalizing p with
    | nil => rfl
    | cons r L ih => simp [startLoop, ih]
  · rw [fieldsEnd, len]
    generalize 0 = p
    induction t.reprs generalizing p with
    | nil => rfl
    | cons r L ih => simp [endLoop, ih]
  · have hi : i < t.reprs.length := (List.getElem?_eq_some_iff.1 hr).1
    rw [fieldsStart, fieldsEnd, startLoop_get, endLoop_get, if_pos hi, if_pos hi, List.take_succ, hr]
    simp

/-- **C23** The fields partition the channels: every channel below `size` lies in exactly one of the intervals
`[fields_start[i], fields_end[i])`, and the intervals stay below `size`. -/
theorem C23_partition (t : FType S R) :
    (∀ c, c < t.size sz ↔ ∃ (i s e : ℕ), (t.fieldsStart sz)[i]? = some s ∧ (t.fieldsEnd sz)[i]? = some e ∧ s ≤ c ∧ c < e) ∧
    ∀ (c i j s e s' e' : ℕ), (t.fieldsStart sz)[i]? = some s → (t.fieldsEnd sz)[i]? = some e →
      (t.fieldsStart sz)[j]? = some s' → (t.fieldsEnd sz)[j]? = some e' → s ≤ c → c < e → s' ≤ c → c < e' → i = j := by
  have mono : ∀ (L : List R) (i j : ℕ), i ≤ j → ((L.take i).map sz).sum ≤ ((L.take j).map sz).sum := by
    intro L i j hij
    have : L.take j = L.take i ++ (L.take j).drop i := by
      conv_lhs => rw [← List.take_append_drop i (L.take j), List.take_take, Nat.min_eq_left hij]
    rw [this]
    simp
  have get : ∀ {i s e : ℕ}, (t.fieldsStart sz)[i]? = some s → (t.fieldsEnd sz)[i]? = some e →
      i < t.reprs.length ∧ s = ((t.reprs.take i).map sz).sum ∧ e = ((t.reprs.take (i + 1)).map sz).sum := by
    intro i s e h1 h2
    rw [fieldsStart, startLoop_get] at h1
    rw [fieldsEnd, endLoop_get] at h2
    split_ifs at h1 h2 with hi
    · simp only [Nat.zero_add, Option.some.injEq] at h1 h2
      exact ⟨hi, h1.symm, h2.symm⟩
  refine ⟨fun c => ⟨fun hc => ?_, ?_⟩, ?_⟩
  · rw [size_eq] at hc
    have key : ∀ (L : List R) (p : ℕ), p ≤ c → c < p + (L.map sz).sum →
        ∃ i < L.length, p + ((L.take i).map sz).sum ≤ c ∧ c < p + ((L.take (i + 1)).map sz).sum := by
      intro L
      induction L with
      | nil => intro p h1 h2; simp at h2; omega
      | cons r L ih =>
        intro p h1 h2
        by_cases h : c < p + sz r
        · exact ⟨0, by simp, by simpa using h1, by simpa using h⟩
        · obtain ⟨i, hi, a, b⟩ := ih (p + sz r) (by omega) (by simp at h2; omega)
          exact ⟨i + 1, by simpa using hi, by rw [List.take_succ_cons, List.map_cons, List.sum_cons]; omega, by rw [List.take_succ_cons, List.map_cons, List.sum_cons]; omega⟩
    obtain ⟨i, hi, h1, h2⟩ := key t.reprs 0 (by omega) (by omega)
    refine ⟨i, _, _, ?_, ?_, by simpa using h1, by simpa using h2⟩
    · rw [fieldsStart, startLoop_get, if_pos hi]; simp
    · rw [fieldsEnd, endLoop_get, if_pos hi]; simp
  · rintro ⟨i, s, e, h1, h2, h3, h4⟩
    obtain ⟨hi, rfl, rfl⟩ := get h1 h2
    rw [size_eq]
    have := mono t.reprs (i + 1) t.reprs.length (by omega)
    rw [List.take_length] at this
    omega
  · intro c i j s e s' e' h1 h2 h3 h4 a b a' b'
    obtain ⟨-, rfl, rfl⟩ := get h1 h2
    obtain ⟨-, rfl, rfl⟩ := get h3 h4
    rcases Nat.lt_trichotomy i j with h | h | h
    · have := mono t.reprs (i + 1) j h; omega
    · exact h
    · have := mono t.reprs (j + 1) i h; omega

/-- **C23** `irreps` is the concatenation of the irreps of the fields. -/
theorem C23_irreps {Id : Type} (irr : R → List Id) (t : FType S R) : t.irreps irr = (t.reprs.map irr).flatten := by
  have key : ∀ (L : List R) (a : List Id), L.foldl (fun L r => L ++ irr r) a = a ++ (L.map irr).flatten := by
    intro L
    induction L with
    | nil => simp
    | cons r L ih => intro a; simp [ih]
  rw [irreps, key, List.nil_append]

/-- **C23** `t + t'`: the fields of `t` followed by those of `t'`, only over the same base space. -/
theorem C23_add [DecidableEq S] (t t' : FType S R) (hne : t.reprs ≠ []) :
    (t.gspace = t'.gspace → ∃ u, t.add t' = .ok u ∧ u.gspace = t.gspace ∧ u.reprs = t.reprs ++ t'.reprs ∧
      u.size sz = t.size sz + t'.size sz ∧
      ∀ i, (u.fieldsStart sz)[t.len + i]? = ((t'.fieldsStart sz)[i]?).map (t.size sz + ·)) ∧
    (t.gspace ≠ t'.gspace → t.add t' = .error .assertion) := by
  refine ⟨fun h => ⟨⟨t.gspace, t.reprs ++ t'.reprs⟩, ?_, rfl, rfl, ?_, fun i => ?_⟩, fun h => by rw [add, if_neg h]⟩
  · rw [add, if_pos h, mk', if_pos (by have := List.length_pos_of_ne_nil hne; simp; omega)]
  · rw [size_eq, size_eq, size_eq]; simp
  · rw [fieldsStart, fieldsStart, startLoop_get, startLoop_get, size_eq]
    by_cases hi : i < t'.reprs.length
    · rw [if_pos (by simp [len]; omega), if_pos hi]
      have e1 : t.reprs.take (t.reprs.length + i) = t.reprs := List.take_of_length_le (by omega)
      simp only [len, List.take_append, Nat.zero_add, Option.map_some, e1, Nat.add_sub_cancel_left, List.map_append, List.sum_append]
    · rw [if_neg (by simp [len]; omega), if_neg hi]
      rfl

/-- **C23** `index_select` accepts exactly the non-empty lists of indices of fields, and the `i`-th field of the result is the
field number `index[i]`. -/
theorem C23_index_select (t : FType S R) (index : List ℤ) :
    ((∃ u, t.indexSelect index = .ok u) ↔ index ≠ [] ∧ ∀ i ∈ index, 0 ≤ i ∧ i < t.len) ∧
    ∀ u, t.indexSelect index = .ok u → u.gspace = t.gspace ∧ u.len = index.length ∧
      ∀ k i : ℕ, index[k]? = some (i : ℤ) → u.reprs[k]? = t.reprs[i]? := by
  have len_fm : ∀ L : List ℤ, (∀ i ∈ L, 0 ≤ i ∧ i < t.len) →
      (L.filterMap fun i => t.reprs[i.toNat]?).length = L.length ∧
      ∀ k i : ℕ, L[k]? = some (i : ℤ) → (L.filterMap fun i => t.reprs[i.toNat]?)[k]? = t.reprs[i]? := by
    intro L hL
    induction L with
    | nil => simp
    | cons a L ih =>
      obtain ⟨h0, h1⟩ := hL a (by simp)
      obtain ⟨ih1, ih2⟩ := ih fun i hi => hL i (List.mem_cons_of_mem _ hi)
      have ha : a.toNat < t.reprs.length := by rw [len] at h1; omega
      have e : t.reprs[a.toNat]? = some t.reprs[a.toNat] := List.getElem?_eq_getElem ha
      rw [List.filterMap_cons_some (f := fun i : ℤ => t.reprs[i.toNat]?) e]
      refine ⟨by simp [ih1], fun k i hk => ?_⟩
      cases k with
      | zero =>
        simp only [List.getElem?_cons_zero, Option.some.injEq] at hk
        subst hk
        simp
      | succ k => simpa using ih2 k i (by simpa using hk)
  have iff1 : ∀ L : List ℤ, (L.all fun i => decide (i < t.reprs.length)) = true ↔ ∀ i ∈ L, i < t.len := by
    intro L; simp [len]
  have iff2 : ∀ L : List ℤ, (L.all fun i => decide (0 ≤ i)) = true ↔ ∀ i ∈ L, 0 ≤ i := by intro L; simp
  constructor
  · constructor
    · rintro ⟨u, hu⟩
      unfold indexSelect at hu
      split_ifs at hu with h1 h2 h3
      exact ⟨h1, fun i hi => ⟨(iff2 _).1 h3 i hi, (iff1 _).1 h2 i hi⟩⟩
    · rintro ⟨h1, h2⟩
      unfold indexSelect
      rw [if_neg h1, if_neg (not_not.2 ((iff1 _).2 fun i hi => (h2 i hi).2)),
        if_neg (not_not.2 ((iff2 _).2 fun i hi => (h2 i hi).1)), mk', if_pos]
      · exact ⟨_, rfl⟩
      · rw [(len_fm index h2).1]; exact List.length_pos_of_ne_nil h1
  · intro u hu
    unfold indexSelect at hu
    split_ifs at hu with h1 h2 h3
    have hall : ∀ i ∈ index, 0 ≤ i ∧ i < t.len := fun i hi => ⟨(iff2 _).1 h3 i hi, (iff1 _).1 h2 i hi⟩
    obtain ⟨e1, e2⟩ := len_fm index hall
    rw [mk'] at hu
    split_ifs at hu
    cases hu
    exact ⟨rfl, e1, e2⟩

example : (⟨(), [2, 0, 3]⟩ : FType Unit ℕ).size id = 5 ∧ (⟨(), [2, 0, 3]⟩ : FType Unit ℕ).fieldsStart id = [0, 2, 2] ∧
    (⟨(), [2, 0, 3]⟩ : FType Unit ℕ).fieldsEnd id = [2, 2, 5] := by decide

example : ∃ u, (⟨(), [2, 5, 3]⟩ : FType Unit ℕ).indexSelect [2, 0, 2] = .ok u ∧ u.reprs = [3, 2, 3] := ⟨⟨(), [3, 2, 3]⟩, rfl, rfl⟩

end FType

end Escnn
