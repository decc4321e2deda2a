import Verif.Lemmas.Fields

/-!
# C26: `split`, `tensor_directsum` and indexing
-/

namespace Escnn

variable {B P S R C : Type} {sz : R → ℕ}

namespace GTensor

/-- The piece of `x` with the fields `a, …, b - 1`. -/
def piece (sz : R → ℕ) (x : GTensor B P S R C) (a b : ℕ) : GTensor B P S R C :=
  ⟨chanSlice x.tensor (chanOffset sz x.type.reprs a) (chanOffset sz x.type.reprs b),
    ⟨x.type.gspace, (x.type.reprs.take b).drop a⟩, x.coords⟩

/-- The pieces between consecutive breaks. -/
def pieces (sz : R → ℕ) (x : GTensor B P S R C) : ℕ → List ℤ → List (GTensor B P S R C)
  | _, [] => []
  | a, b :: bs => piece sz x a b.toNat :: pieces sz x b.toNat bs

theorem clampUp_nat {n k : ℕ} (h : k ≤ n) : clampUp n k = k := by unfold clampUp; split_ifs <;> omega

theorem pySlice_one {α : Type} (L : List α) (start stop step : Option ℤ) (hs : step = none ∨ step = some 1) :
    pySlice L start stop step = .ok ((L.take ((stop.map (clampUp L.length)).getD L.length).toNat).drop
      ((start.map (clampUp L.length)).getD 0).toNat) := by
  rw [pySlice, sliceIdx_one _ _ _ _ hs]
  simp only
  rw [filterMap_range', List.drop_take]

theorem pySlice_nat {α : Type} (L : List α) {a b : ℕ} (ha : a ≤ L.length) (hb : b ≤ L.length) :
    pySlice L (some (a : ℤ)) (some (b : ℤ)) none = .ok ((L.take b).drop a) := by
  rw [pySlice_one _ _ _ _ (.inl rfl)]
  simp [clampUp_nat ha, clampUp_nat hb]

theorem splitLoop_step (x : GTensor B P S R C) (a : ℕ) (ha : a ≤ x.type.reprs.length) (b : ℤ) (bs : List ℤ) (ys : List (GTensor B P S R C)) :
    splitLoop sz x a (b :: bs) = .ok ys ↔ (a < b ∧ b ≤ x.type.reprs.length) ∧
      ∃ ys', splitLoop sz x b bs = .ok ys' ∧ ys = piece sz x a b.toNat :: ys' := by
  rw [splitLoop]
  by_cases hab : (a : ℤ) < b
  swap
  · rw [if_pos hab]; simp [hab]
  rw [if_neg (not_not.2 hab)]
  obtain ⟨k, rfl⟩ : ∃ k : ℕ, b = k := ⟨b.toNat, by omega⟩
  have hpos : pyGet (positions sz 0 x.type.reprs) a = .ok (chanOffset sz x.type.reprs a) := by
    rw [pyGet_nat, positions_get, if_pos ha, Nat.zero_add]
  by_cases hk : k ≤ x.type.reprs.length
  · rw [pySlice_nat _ ha hk]
    have hne : (x.type.reprs.take k).drop a ≠ [] := by
      rw [← List.length_pos_iff]; simp; omega
    have hm := FType.mk'_ok_iff.2 ⟨hne, (rfl : (⟨x.type.gspace, _⟩ : FType S R) = _)⟩
    have hp2 : pyGet (positions sz 0 x.type.reprs) k = .ok (chanOffset sz x.type.reprs k) := by
      rw [pyGet_nat, positions_get, if_pos hk, Nat.zero_add]
    have hmk := GTensor.mk'_ok_iff (sz := sz) (c := x.coords) (y := piece sz x a k)
      |>.2 ⟨(IsSelection.interval (sz := sz) x (show a ≤ k by omega) hk).chans, rfl⟩
    simp only [bind, Except.bind]
    rw [hm]
    simp only
    rw [hpos, hp2]
    simp only
    rw [show (chanSlice x.tensor (chanOffset sz x.type.reprs a) (chanOffset sz x.type.reprs k)) = (piece sz x a k).tensor from rfl] at *
    rw [hmk]
    simp only [Int.toNat_natCast]
    cases splitLoop sz x k bs with
    | error e => simp
    | ok ys' => simp [hab, hk, eq_comm]
  · constructor
    · intro h
      exfalso
      simp only [bind, Except.bind] at h
      rw [pySlice_one _ _ _ _ (.inl rfl)] at h
      simp only at h
      split at h
      · cases h
      split at h
      · cases h
      split at h
      · cases h
      rename_i hi hhi
      rw [pyGet_nat, positions_get, if_neg hk] at hhi
      cases hhi
    · rintro ⟨⟨-, h⟩, -⟩
      omega

theorem splitLoop_iff (x : GTensor B P S R C) (bs : List ℤ) (a : ℕ) (ha : a ≤ x.type.reprs.length) (ys : List (GTensor B P S R C)) :
    splitLoop sz x a bs = .ok ys ↔ (((a : ℤ) :: bs).Pairwise (· < ·) ∧ ∀ b ∈ bs, b ≤ x.type.reprs.length) ∧ ys = pieces sz x a bs := by
  induction bs generalizing a ys with
  | nil => simp [splitLoop, pieces, eq_comm]
  | cons b bs ih =>
    rw [splitLoop_step x a ha, List.pairwise_cons_cons_iff_of_trans]
    by_cases hab : (a : ℤ) < b ∧ b ≤ x.type.reprs.length
    · obtain ⟨k, rfl⟩ : ∃ k : ℕ, b = k := ⟨b.toNat, by omega⟩
      simp only [ih k (by omega), pieces, Int.toNat_natCast]
      constructor
      · rintro ⟨-, ys', ⟨⟨h1, h2⟩, rfl⟩, rfl⟩
        exact ⟨⟨⟨hab.1, h1⟩, by simpa using ⟨by omega, h2⟩⟩, rfl⟩
      · rintro ⟨⟨⟨h1, h2⟩, h3⟩, rfl⟩
        exact ⟨hab, _, ⟨⟨h2, fun b hb => h3 b (List.mem_cons_of_mem _ hb)⟩, rfl⟩, rfl⟩
    · constructor
      · rintro ⟨h, -⟩; exact absurd h hab
      · rintro ⟨⟨⟨h1, -⟩, h3⟩, -⟩; exact absurd ⟨h1, h3 b (by simp)⟩ hab

theorem pieces_get (x : GTensor B P S R C) (bs : List ℤ) (a : ℕ) (hp : ((a : ℤ) :: bs).Pairwise (· < ·)) (hle : ∀ b ∈ bs, b ≤ x.type.reprs.length) :
    (pieces sz x a bs).length = bs.length ∧
    ∀ k lo hi : ℕ, ((a : ℤ) :: bs)[k]? = some (lo : ℤ) → ((a : ℤ) :: bs)[k + 1]? = some (hi : ℤ) →
      lo < hi ∧ hi ≤ x.type.reprs.length ∧ (pieces sz x a bs)[k]? = some (piece sz x lo hi) := by
  induction bs generalizing a with
  | nil => simp [pieces]
  | cons b bs ih =>
    have hab := List.rel_of_pairwise_cons hp (List.mem_cons_self (a := b))
    obtain ⟨m, rfl⟩ : ∃ m : ℕ, b = m := ⟨b.toNat, by omega⟩
    obtain ⟨i1, i2⟩ := ih m (List.Pairwise.of_cons hp) fun b hb => hle b (List.mem_cons_of_mem _ hb)
    simp only [pieces, Int.toNat_natCast, List.length_cons, i1, true_and]
    intro k lo hi h1 h2
    cases k with
    | zero =>
      simp only [List.getElem?_cons_zero, Nat.zero_add, List.getElem?_cons_succ, Option.some.injEq, Int.natCast_inj] at h1 h2
      subst h1 h2
      have := hle (m : ℤ) (by simp)
      refine ⟨by omega, by omega, by simp⟩
    | succ k =>
      simpa using i2 k lo hi (by simpa using h1) (by simpa using h2)

theorem pieces_cat (x : GTensor B P S R C) (bs : List ℤ) (a n : ℕ) (hn : ((a : ℤ) :: bs).getLast? = some (n : ℤ))
    (hp : ((a : ℤ) :: bs).Pairwise (· < ·)) (hle : ∀ b ∈ bs, b ≤ x.type.reprs.length) :
    a ≤ n ∧ (∀ y ∈ pieces sz x a bs, y.type.gspace = x.type.gspace ∧ y.coords = x.coords) ∧
    IsSelection sz x (List.range' a (n - a)) ⟨chanCat ((pieces sz x a bs).map fun y => y.tensor),
      ⟨x.type.gspace, (pieces sz x a bs).flatMap fun y => y.type.reprs⟩, x.coords⟩ := by
  induction bs generalizing a with
  | nil =>
    simp only [List.getLast?_singleton, Option.some.injEq, Int.natCast_inj] at hn
    subst hn
    refine ⟨le_refl _, by simp [pieces], ?_⟩
    rw [Nat.sub_self]
    exact ⟨rfl, rfl, rfl, by simp, by simp, rfl, by simp⟩
  | cons b bs ih =>
    have hab := List.rel_of_pairwise_cons hp (List.mem_cons_self (a := b))
    obtain ⟨m, rfl⟩ : ∃ m : ℕ, b = m := ⟨b.toNat, by omega⟩
    have hm := hle (m : ℤ) (by simp)
    obtain ⟨i1, i2, i3⟩ := ih m (by simpa [List.getLast?_cons_cons] using hn) (List.Pairwise.of_cons hp) fun b hb => hle b (List.mem_cons_of_mem _ hb)
    have h1 := IsSelection.interval (sz := sz) x (show a ≤ m by omega) (by omega)
    refine ⟨by omega, ?_, ?_⟩
    · simp only [pieces, Int.toNat_natCast, List.mem_cons, forall_eq_or_imp]
      exact ⟨⟨rfl, rfl⟩, i2⟩
    · have h2 := h1.append i3
      rw [show a = a from rfl, show List.range' a (n - a) = List.range' a (m - a) ++ List.range' m (n - m) from ?_]
      · exact h2
      · rw [show n - a = (m - a) + (n - m) by omega, ← List.range'_append_1, show a + (m - a) = m by omega]

/-- **C26** `split` accepts exactly the strictly increasing lists of breaks inside of `(0, len)`.  It returns one piece more than
there are breaks, the `k`-th consisting of exactly the fields from one break to the next; and `tensor_directsum` restores the
tensor. -/
theorem C26_split [DecidableEq S] [DecidableEq C] (x : GTensor B P S R C) (hne : x.type.reprs ≠ []) (hx : x.tensor.chans = x.type.size sz) (breaks : List ℤ) :
    ((∃ ys, x.split sz (some breaks) = .ok ys) ↔ breaks.Pairwise (· < ·) ∧ ∀ b ∈ breaks, 0 < b ∧ b < x.type.len) ∧
    ∀ ys, x.split sz (some breaks) = .ok ys →
      ys.length = breaks.length + 1 ∧
      (∀ k lo hi : ℕ, ((0 : ℤ) :: breaks ++ [(x.type.len : ℤ)])[k]? = some (lo : ℤ) → ((0 : ℤ) :: breaks ++ [(x.type.len : ℤ)])[k + 1]? = some (hi : ℤ) →
        ∃ y, ys[k]? = some y ∧ IsSelection sz x (List.range' lo (hi - lo)) y) ∧
      ∃ z, GTensor.directsum sz ys = .ok z ∧ z.tensor ≈ x.tensor ∧ z.type = x.type ∧ z.coords = x.coords := by
  have hl := List.length_pos_of_ne_nil hne
  have hpw : (((0 : ℕ) : ℤ) :: (breaks ++ [(x.type.len : ℤ)])).Pairwise (· < ·) ∧ (∀ b ∈ breaks ++ [(x.type.len : ℤ)], b ≤ x.type.reprs.length) ↔
      breaks.Pairwise (· < ·) ∧ ∀ b ∈ breaks, 0 < b ∧ b < x.type.len := by
    rw [List.pairwise_cons, List.pairwise_append]
    simp only [List.mem_append, List.mem_singleton, FType.len]
    constructor
    · rintro ⟨⟨h1, h2, -, h3⟩, -⟩
      exact ⟨h2, fun b hb => ⟨h1 b (.inl hb), h3 b hb _ rfl⟩⟩
    · rintro ⟨h1, h2⟩
      refine ⟨⟨?_, h1, by simp, ?_⟩, ?_⟩
      · rintro b (hb | rfl)
        · exact (h2 b hb).1
        · exact_mod_cast hl
      · rintro b hb _ rfl; exact (h2 b hb).2
      · rintro b (hb | rfl)
        · exact (h2 b hb).2.le
        · exact le_refl _
  have hiff : ∀ ys, x.split sz (some breaks) = .ok ys ↔ _ := fun ys => splitLoop_iff x (breaks ++ [(x.type.len : ℤ)]) 0 (by omega) ys
  refine ⟨⟨?_, ?_⟩, ?_⟩
  · rintro ⟨ys, h⟩
    exact hpw.1 ((hiff ys).1 h).1
  · intro h
    exact ⟨_, (hiff _).2 ⟨hpw.2 h, rfl⟩⟩
  · intro ys h
    obtain ⟨⟨h1, h2⟩, rfl⟩ := (hiff ys).1 h
    obtain ⟨g1, g2⟩ := pieces_get (sz := sz) x _ 0 h1 h2
    refine ⟨by rw [g1]; simp, fun k lo hi hlo hhi => ?_, ?_⟩
    · obtain ⟨q1, q2, q3⟩ := g2 k lo hi hlo hhi
      exact ⟨_, q3, IsSelection.interval x q1.le q2⟩
    · have hlast : (((0 : ℕ) : ℤ) :: (breaks ++ [(x.type.len : ℤ)])).getLast? = some (x.type.len : ℤ) := by
        rw [← List.cons_append, List.getLast?_concat]
      obtain ⟨-, c1, c2⟩ := pieces_cat (sz := sz) x _ 0 x.type.len hlast h1 h2
      obtain ⟨y0, rest, hys⟩ : ∃ y0 rest, pieces sz x 0 (breaks ++ [(x.type.len : ℤ)]) = y0 :: rest := by
        refine List.exists_cons_of_ne_nil ?_
        rw [← List.length_pos_iff, g1]; simp
      rw [hys] at c1 c2 ⊢
      rw [Nat.sub_zero, ← List.range_eq_range'] at c2
      obtain ⟨e1, e2, e3⟩ := IsSelection.all (by rw [hx, FType.size_eq]) c2
      refine ⟨_, ?_, e1, e2, e3⟩
      rw [GTensor.directsum, if_pos]
      · rw [(c1 y0 (by simp)).1, (c1 y0 (by simp)).2]
        simp only [bind, Except.bind]
        rw [FType.mk'_ok_iff.2 ⟨?_, rfl⟩]
        · exact GTensor.mk'_ok_iff.2 ⟨c2.chans, rfl⟩
        · intro h0
          have := congrArg FType.reprs e2
          rw [h0] at this
          exact hne this.symm
      · rw [List.all_eq_true]
        intro y hy
        simp [(c1 y0 (by simp)).1, (c1 y0 (by simp)).2, (c1 y (by simp [hy])).1, (c1 y (by simp [hy])).2]

/-- `tensor_directsum` asserts that all tensors have the same gspace and the same coordinates. -/
theorem C26_directsum_rejects [DecidableEq S] [DecidableEq C] (x0 : GTensor B P S R C) (rest : List (GTensor B P S R C)) (h : ∃ x ∈ rest, x.type.gspace ≠ x0.type.gspace ∨ x.coords ≠ x0.coords) :
    GTensor.directsum sz (x0 :: rest) = .error .assertion := by
  rw [GTensor.directsum, if_neg]
  rw [List.all_eq_true]
  intro hall
  obtain ⟨x, hx, hne⟩ := h
  have := hall x hx
  rw [Bool.and_eq_true, decide_eq_true_eq, decide_eq_true_eq] at this
  rcases hne with hne | hne
  · exact hne this.1.symm
  · exact hne this.2.symm

example : ∃ x ∈ [(⟨⟨1, fun _ _ _ => 2⟩, ⟨(), [1]⟩, 5⟩ : GTensor Unit Unit Unit ℕ ℕ)], x.type.gspace ≠ () ∨ x.coords ≠ 4 := ⟨_, List.mem_singleton.2 rfl, .inr (by decide)⟩

/-- The default `breaks=None`, documented to split into single fields, always raises. -/
theorem C26_split_default_violated (x : GTensor B P S R C) (hne : x.type.reprs ≠ []) : ∃ e, x.split sz none = .error e := by
  obtain ⟨n, hn⟩ : ∃ n, x.type.len = n + 1 := ⟨x.type.reprs.length - 1, by have := List.length_pos_of_ne_nil hne; rw [FType.len]; omega⟩
  refine ⟨.assertion, ?_⟩
  rw [split, splitBreaks, hn, List.range_succ_eq_map]
  simp only [List.map_cons, List.cons_append, Nat.cast_zero]
  rw [splitLoop, if_pos (by norm_num)]

/-- `split` appends to the list of the caller: passing the same list a second time always raises. -/
theorem C26_split_mutates_violated (x : GTensor B P S R C) (hne : x.type.reprs ≠ []) (breaks : List ℤ) :
    ∃ e, x.split sz (some (x.splitBreaks (some breaks))) = .error e := by
  cases h : x.split sz (some (x.splitBreaks (some breaks))) with
  | error e => exact ⟨e, rfl⟩
  | ok ys =>
    exfalso
    have := (splitLoop_iff (sz := sz) x _ 0 (by omega) ys).1 h
    have h2 := (List.pairwise_cons.1 this.1.1).2
    rw [splitBreaks, splitBreaks, List.pairwise_append] at h2
    have := h2.2.2 (x.type.len : ℤ) (by simp) (x.type.len : ℤ) (by simp)
    omega

/-! ## indexing -/

/-- The meaning of an index over a sequence of `n` fields, as in Python (or torch for index tensors): the positions addressed. -/
def Index.Denotes (n : ℕ) : Index → List ℕ → Prop
  | .int i, I => ∃ k : ℕ, k < n ∧ (i = k ∨ i = (k : ℤ) - n) ∧ I = [k]
  | .slice start stop step, I => sliceIdx n start stop step = .ok I
  | .mask L, I => n ≤ L.length ∧ I = (List.range n).filter fun i => L.getD i false
  | .long L, I => List.Forall₂ (fun (i : ℤ) (k : ℕ) => k < n ∧ (i = k ∨ i = (k : ℤ) - n)) L I

theorem sliceIdx_lt {n : ℕ} {start stop step : Option ℤ} {I : List ℕ} (h : sliceIdx n start stop step = .ok I) : ∀ i ∈ I, i < n := by
  unfold sliceIdx at h
  simp only at h
  have hc : ∀ i, 0 ≤ clampUp n i ∧ clampUp n i ≤ n := by intro i; unfold clampUp; split_ifs <;> omega
  have hd : ∀ i, -1 ≤ clampDown n i ∧ clampDown n i ≤ n - 1 := by intro i; unfold clampDown; split_ifs <;> omega
  have hcG : ∀ (o : Option ℤ) (d : ℤ), 0 ≤ d → d ≤ n → 0 ≤ (o.map (clampUp n)).getD d ∧ (o.map (clampUp n)).getD d ≤ n := by
    rintro (_ | i) d h1 h2
    · exact ⟨h1, h2⟩
    · exact hc i
  have hdG : ∀ (o : Option ℤ) (d : ℤ), -1 ≤ d → d ≤ n - 1 → -1 ≤ (o.map (clampDown n)).getD d ∧ (o.map (clampDown n)).getD d ≤ n - 1 := by
    rintro (_ | i) d h1 h2
    · exact ⟨h1, h2⟩
    · exact hd i
  generalize step.getD 1 = k at h
  split_ifs at h with h0 h1
  · cases h
    intro i hi
    obtain ⟨j, hj, rfl⟩ := List.mem_map.1 hi
    rw [List.mem_range] at hj
    obtain ⟨ha, -⟩ := hcG start 0 (by omega) (by omega)
    obtain ⟨-, hb⟩ := hcG stop n (by omega) (by omega)
    generalize (start.map (clampUp n)).getD 0 = a at *
    generalize (stop.map (clampUp n)).getD n = b at *
    have h2 : (j : ℤ) + 1 ≤ (b - a + k - 1) / k := by omega
    rw [Int.le_ediv_iff_mul_le h1] at h2
    have h3 : (0 : ℤ) ≤ j * k := by positivity
    have : a + j * k < n := by nlinarith
    omega
  · cases h
    intro i hi
    obtain ⟨j, hj, rfl⟩ := List.mem_map.1 hi
    rw [List.mem_range] at hj
    obtain ⟨-, ha⟩ := hdG start (n - 1) (by omega) (by omega)
    obtain ⟨hb, -⟩ := hdG stop (-1) (by omega) (by omega)
    generalize (start.map (clampDown n)).getD (n - 1) = a at *
    generalize (stop.map (clampDown n)).getD (-1) = b at *
    have hk : 0 < -k := by omega
    have h2 : (j : ℤ) + 1 ≤ (a - b + -k - 1) / -k := by omega
    rw [Int.le_ediv_iff_mul_le hk] at h2
    have h3 : (0 : ℤ) ≤ j * (-k) := by positivity
    have h4 : (j : ℤ) * (-k) + -k ≤ a - b + -k - 1 := by linarith
    have e : a + j * k = a - j * (-k) := by ring
    have h5 : a + j * k < n := by rw [e]; omega
    have h6 : 0 < (n : ℤ) := by
      by_contra hn
      have : a - b ≤ 0 := by omega
      omega
    omega

theorem fieldChans_iff (t : FType S R) (f : ℤ) (c : List ℕ) :
    fieldChans sz t f = .ok c ↔ ∃ k r, t.reprs[k]? = some r ∧ (f = (k : ℕ) ∨ f = (k : ℤ) - t.reprs.length) ∧
      c = List.range' (chanOffset sz t.reprs k) (sz r) := by
  unfold fieldChans
  simp only [bind, Except.bind]
  constructor
  · intro h
    split at h
    · cases h
    rename_i a ha
    split at h
    · cases h
    rename_i b hb
    cases h
    rw [pyGet_ok_iff] at ha hb
    obtain ⟨k, hk, e⟩ := ha
    obtain ⟨k', hk', e'⟩ := hb
    rw [FType.fieldsStart_get] at hk
    rw [FType.fieldsEnd_get] at hk'
    rw [FType.fieldsStart_length] at e
    rw [FType.fieldsEnd_length] at e'
    split_ifs at hk hk' with h1 h2
    obtain rfl : k = k' := by omega
    cases hk; cases hk'
    have hr : t.reprs[k]? = some t.reprs[k] := List.getElem?_eq_getElem h1
    refine ⟨k, _, hr, e, ?_⟩
    rw [chanOffset_succ hr, Nat.add_sub_cancel_left]
  · rintro ⟨k, r, hr, e, rfl⟩
    have h1 : k < t.reprs.length := (List.getElem?_eq_some_iff.1 hr).1
    rw [(pyGet_ok_iff _ f (chanOffset sz t.reprs k)).2 ⟨k, by rw [FType.fieldsStart_get, if_pos h1], by rw [FType.fieldsStart_length]; exact e⟩,
      (pyGet_ok_iff _ f (chanOffset sz t.reprs (k + 1))).2 ⟨k, by rw [FType.fieldsEnd_get, if_pos h1], by rw [FType.fieldsEnd_length]; exact e⟩]
    simp only
    rw [chanOffset_succ hr, Nat.add_sub_cancel_left]

/-- Gathering fields one by one succeeds on non-empty lists of valid positions, and selects them. -/
theorem getFields_iff (x : GTensor B P S R C) (hx : x.tensor.chans = x.type.size sz) (fields : List ℤ) (I : List ℕ) (rs : List R)
    (hI : List.Forall₂ (fun (i : ℤ) (k : ℕ) => k < x.type.reprs.length ∧ (i = k ∨ i = (k : ℤ) - x.type.reprs.length)) fields I)
    (hr : List.Forall₂ (fun (k : ℕ) r => x.type.reprs[k]? = some r) I rs) :
    ((∃ y, getFields sz x fields rs = .ok y) ↔ I ≠ []) ∧ ∀ y, getFields sz x fields rs = .ok y → IsSelection sz x I y := by
  set cs := List.zipWith (fun (k : ℕ) r => List.range' (chanOffset sz x.type.reprs k) (sz r)) I rs with hcs
  have h1 : mapE (fieldChans sz x.type) fields = .ok cs := by
    rw [mapE_ok_iff]
    induction hI generalizing rs with
    | nil => simp [hcs]
    | cons h1 h2 ih =>
      rename_i f k fs I'
      rw [List.forall₂_cons_left_iff] at hr
      obtain ⟨r, rs', hr1, hr2, rfl⟩ := hr
      exact List.Forall₂.cons ((fieldChans_iff x.type f _).2 ⟨k, r, hr1, h1.2, rfl⟩) (ih rs' hr2 rfl)
  have h2 : cs.flatten.length = (rs.map sz).sum := by
    clear h1 hI
    rw [hcs]
    clear hcs cs
    induction hr with
    | nil => rfl
    | cons _ _ ih => simp [ih]
  have h3 : ∀ c ∈ cs.flatten, c < x.tensor.chans := by
    rw [hx, FType.size_eq]
    clear h1 h2 hI
    rw [hcs]
    clear hcs cs
    induction hr with
    | nil => simp
    | cons h1 _ ih =>
      rename_i k _ _ _ _
      intro c hc
      rw [List.zipWith_cons_cons, List.flatten_cons, List.mem_append] at hc
      rcases hc with hc | hc
      · rw [List.mem_range'_1] at hc
        have := chanOffset_lt (sz := sz) h1 (o := c - chanOffset sz x.type.reprs k) (by omega)
        omega
      · exact ih c hc
  have h4 : chanGather x.tensor cs.flatten = .ok ⟨cs.flatten.length, fun i c p => x.tensor.get i (cs.flatten.getD c 0) p⟩ := by
    unfold chanGather
    rw [if_pos]
    rw [List.all_eq_true]
    intro c hc
    exact decide_eq_true (h3 c hc)
  have hne : rs ≠ [] ↔ I ≠ [] := by rw [← List.length_pos_iff, ← List.length_pos_iff, hr.length_eq]
  have key : ∀ y, getFields sz x fields rs = .ok y ↔ rs ≠ [] ∧
      y = ⟨⟨cs.flatten.length, fun i c p => x.tensor.get i (cs.flatten.getD c 0) p⟩, ⟨x.type.gspace, rs⟩, x.coords⟩ := by
    intro y
    unfold getFields
    rw [h1]
    simp only [bind, Except.bind]
    by_cases h : rs = []
    · subst h; simp [FType.mk']
    · rw [FType.mk'_ok_iff.2 ⟨h, rfl⟩]
      simp only
      rw [h4]
      simp only
      rw [GTensor.mk'_ok_iff]
      simp [h, h2]
  refine ⟨⟨?_, ?_⟩, ?_⟩
  · rintro ⟨y, hy⟩; exact hne.1 ((key y).1 hy).1
  · intro h; exact ⟨_, (key _).2 ⟨hne.2 h, rfl⟩⟩
  · intro y hy
    obtain ⟨-, rfl⟩ := (key y).1 hy
    rw [h2]
    exact IsSelection.gather x I rs _ hr fun b p c => rfl

theorem getContiguous_iff [DecidableEq R] (x : GTensor B P S R C) (hne : x.type.reprs ≠ []) (start stop step : Option ℤ)
    (hs : step = none ∨ step = some 1) (I : List ℕ) (hI : sliceIdx x.type.len start stop step = .ok I) :
    ((∃ y, getContiguous sz x start stop step = .ok y) ↔ I ≠ [] ∧ (∀ a ∈ start, -(x.type.len : ℤ) ≤ a) ∧ (∀ b ∈ stop, b ≤ x.type.len)) ∧
    ∀ y, getContiguous sz x start stop step = .ok y → IsSelection sz x I y := by
  have hl := List.length_pos_of_ne_nil hne
  set n := x.type.reprs.length with hn
  have hlen : x.type.len = n := rfl
  rw [hlen] at hI ⊢
  rw [sliceIdx_one _ _ _ _ hs] at hI
  simp only [Except.ok.injEq] at hI
  -- the resolved bounds
  set a' := ((start.map (clampUp n)).getD 0).toNat with ha'
  set b' := ((stop.map (clampUp n)).getD n).toNat with hb'
  have hIne : I ≠ [] ↔ a' < b' := by rw [← hI]; simp; omega
  have hbn : b' ≤ n := by
    rw [hb']
    cases stop with
    | none => simp
    | some i => simp only [Option.map_some, Option.getD_some]; unfold clampUp; split_ifs <;> omega
  have key : ∀ y, getContiguous sz x start stop step = .ok y ↔
      (a' < b' ∧ (∀ a ∈ start, -(n : ℤ) ≤ a) ∧ (∀ b ∈ stop, b ≤ n)) ∧ y = piece sz x a' b' := by
    intro y
    unfold getContiguous
    simp only [bind, Except.bind]
    rw [hlen]
    have hA : ∀ v, pyGet (x.type.fieldsStart sz) (start.getD 0) = .ok v →
        (∀ a ∈ start, -(n : ℤ) ≤ a) ∧ a' < n ∧ v = chanOffset sz x.type.reprs a' := by
      intro v hv
      rw [pyGet_ok_iff] at hv
      obtain ⟨k, hk, e⟩ := hv
      rw [FType.fieldsStart_get] at hk
      split_ifs at hk with hkn
      rw [FType.fieldsStart_length] at e
      have : a' = k ∧ (∀ a ∈ start, -(n : ℤ) ≤ a) := by
        rw [ha']
        cases start with
        | none => simp at e ⊢; omega
        | some i =>
          simp only [Option.getD_some] at e
          simp only [Option.map_some, Option.getD_some, Option.mem_def, Option.some.injEq, forall_eq']
          unfold clampUp
          split_ifs <;> omega
      obtain ⟨rfl, h⟩ := this
      exact ⟨h, hkn, (Option.some.inj hk).symm⟩
    have hB : ∀ v, pyGet (x.type.fieldsEnd sz) (stop.getD n - 1) = .ok v → a' < b' →
        (∀ b ∈ stop, b ≤ n) ∧ v = chanOffset sz x.type.reprs b' := by
      intro v hv hab
      rw [pyGet_ok_iff] at hv
      obtain ⟨k, hk, e⟩ := hv
      rw [FType.fieldsEnd_get] at hk
      split_ifs at hk with hkn
      rw [FType.fieldsEnd_length] at e
      have : b' = k + 1 ∧ (∀ b ∈ stop, b ≤ n) := by
        rw [hb'] at hab ⊢
        cases stop with
        | none => simp at e ⊢; omega
        | some i =>
          simp only [Option.getD_some] at e
          simp only [Option.map_some, Option.getD_some, Option.mem_def, Option.some.injEq, forall_eq'] at hab ⊢
          unfold clampUp at hab ⊢
          split_ifs at hab ⊢ <;> omega
      obtain ⟨e1, h⟩ := this
      exact ⟨h, by rw [e1]; exact (Option.some.inj hk).symm⟩
    have hAc : a' < b' → (∀ a ∈ start, -(n : ℤ) ≤ a) → pyGet (x.type.fieldsStart sz) (start.getD 0) = .ok (chanOffset sz x.type.reprs a') := by
      intro hab h
      rw [pyGet_ok_iff]
      refine ⟨a', by rw [FType.fieldsStart_get, if_pos (by omega)], ?_⟩
      rw [FType.fieldsStart_length]
      rw [ha'] at hab ⊢
      cases start with
      | none => simp
      | some i =>
        have := h i rfl
        simp only [Option.map_some, Option.getD_some] at hab ⊢
        unfold clampUp at hab ⊢
        split_ifs at hab ⊢ <;> omega
    have hBc : a' < b' → (∀ b ∈ stop, b ≤ n) → pyGet (x.type.fieldsEnd sz) (stop.getD n - 1) = .ok (chanOffset sz x.type.reprs b') := by
      intro hab h
      rw [pyGet_ok_iff]
      refine ⟨b' - 1, by rw [FType.fieldsEnd_get, if_pos (by omega), show b' - 1 + 1 = b' by omega], ?_⟩
      rw [FType.fieldsEnd_length]
      rw [hb'] at hab ⊢
      cases stop with
      | none => simp; omega
      | some i =>
        have := h i rfl
        simp only [Option.map_some, Option.getD_some] at hab ⊢
        unfold clampUp at hab ⊢
        split_ifs at hab ⊢ <;> omega
    have hsl : pySlice x.type.reprs start stop step = .ok ((x.type.reprs.take b').drop a') := pySlice_one _ _ _ _ hs
    have hslne : (x.type.reprs.take b').drop a' ≠ [] ↔ a' < b' := by
      rw [← List.length_pos_iff]; simp; omega
    have hfull : start.getD 0 = 0 ∧ stop.getD n = n → a' = 0 ∧ b' = n := by
      rintro ⟨e1, e2⟩
      rw [ha', hb']
      constructor
      · cases start with
        | none => rfl
        | some i => simp only [Option.getD_some] at e1; subst e1; simp [clampUp]; omega
      · cases stop with
        | none => simp
        | some i => simp only [Option.getD_some] at e2; subst e2; simp only [Option.map_some, Option.getD_some]; rw [clampUp_nat (le_refl n)]; omega
    have hpiece : a' < b' → GTensor.mk' sz (chanSlice x.tensor (chanOffset sz x.type.reprs a') (chanOffset sz x.type.reprs b'))
        ⟨x.type.gspace, (x.type.reprs.take b').drop a'⟩ x.coords = .ok (piece sz x a' b') := fun hab =>
      GTensor.mk'_ok_iff.2 ⟨(IsSelection.interval (sz := sz) x hab.le hbn).chans, rfl⟩
    have htype : a' = 0 → b' = n → x.type = ⟨x.type.gspace, (x.type.reprs.take b').drop a'⟩ := by
      intro h1 h2
      rw [h1, h2, hn, List.take_length, List.drop_zero]
    constructor
    · intro h
      split at h
      · cases h
      rename_i va hva
      obtain ⟨s1, s2, rfl⟩ := hA va hva
      split at h
      · cases h
      rename_i vb hvb
      by_cases hab : a' < b'
      · obtain ⟨s3, rfl⟩ := hB vb hvb hab
        refine ⟨⟨hab, s1, s3⟩, ?_⟩
        split_ifs at h with hf
        · obtain ⟨f1, f2⟩ := hfull hf
          rw [htype f1 f2] at h
          rw [show (⟨x.type.gspace, (x.type.reprs.take b').drop a'⟩ : FType S R).reprs = (x.type.reprs.take b').drop a' from rfl] at h
          have := hpiece hab
          rw [show chanOffset sz ((x.type.reprs.take b').drop a') a' = chanOffset sz x.type.reprs a' by rw [f1]; rfl,
            show chanOffset sz ((x.type.reprs.take b').drop a') b' = chanOffset sz x.type.reprs b' by
              rw [f1, List.drop_zero, chanOffset_take _ _ _ (le_refl _)], this] at h
          cases h
          rfl
        · rw [hsl] at h
          simp only at h
          rw [FType.mk'_ok_iff.2 ⟨hslne.2 hab, rfl⟩] at h
          simp only at h
          rw [hpiece hab] at h
          cases h
          rfl
      · exfalso
        split_ifs at h with hf
        · obtain ⟨f1, f2⟩ := hfull hf
          omega
        · rw [hsl] at h
          simp only at h
          rw [not_ne_iff.1 (mt hslne.1 hab)] at h
          simp [FType.mk'] at h
    · rintro ⟨⟨hab, s1, s3⟩, rfl⟩
      rw [hAc hab s1]
      simp only
      rw [hBc hab s3]
      simp only
      split_ifs with hf
      · obtain ⟨f1, f2⟩ := hfull hf
        have := hpiece hab
        rw [← htype f1 f2] at this
        exact this
      · rw [hsl]
        simp only
        rw [FType.mk'_ok_iff.2 ⟨hslne.2 hab, rfl⟩]
        exact hpiece hab
  refine ⟨⟨?_, ?_⟩, ?_⟩
  · rintro ⟨y, hy⟩
    obtain ⟨⟨h1, h2, h3⟩, -⟩ := (key y).1 hy
    exact ⟨hIne.2 h1, h2, h3⟩
  · rintro ⟨h1, h2, h3⟩
    exact ⟨_, (key _).2 ⟨⟨hIne.1 h1, h2, h3⟩, rfl⟩⟩
  · intro y hy
    obtain ⟨⟨h1, -⟩, rfl⟩ := (key y).1 hy
    rw [← hI]
    exact IsSelection.interval x h1.le hbn

theorem forall₂_get (L : List R) (I : List ℕ) (h : ∀ i ∈ I, i < L.length) :
    List.Forall₂ (fun (k : ℕ) r => L[k]? = some r) I (I.filterMap fun i => L[i]?) := by
  induction I with
  | nil => exact .nil
  | cons i I ih =>
    have e : L[i]? = some (L[i]'(h i (by simp))) := List.getElem?_eq_getElem _
    rw [List.filterMap_cons_some (f := fun i : ℕ => L[i]?) e]
    exact .cons e (ih fun j hj => h j (List.mem_cons_of_mem _ hj))

theorem forall₂_nat (n : ℕ) (I : List ℕ) (h : ∀ i ∈ I, i < n) :
    List.Forall₂ (fun (i : ℤ) (k : ℕ) => k < n ∧ (i = k ∨ i = (k : ℤ) - n)) (I.map fun i : ℕ => (i : ℤ)) I := by
  induction I with
  | nil => exact .nil
  | cons i I ih => exact .cons ⟨h i (by simp), .inl rfl⟩ (ih fun j hj => h j (List.mem_cons_of_mem _ hj))

/-- The reads of `self.type.representations[f] for f in fields`. -/
theorem mapE_pyGet_iff (L : List R) (fields : List ℤ) (rs : List R) :
    mapE (pyGet L) fields = .ok rs ↔ ∃ I : List ℕ,
      List.Forall₂ (fun (i : ℤ) (k : ℕ) => k < L.length ∧ (i = k ∨ i = (k : ℤ) - L.length)) fields I ∧
      List.Forall₂ (fun (k : ℕ) r => L[k]? = some r) I rs := by
  rw [mapE_ok_iff]
  induction fields generalizing rs with
  | nil =>
    constructor
    · intro h; cases h; exact ⟨[], .nil, .nil⟩
    · rintro ⟨I, h1, h2⟩; cases h1; cases h2; exact .nil
  | cons f fields ih =>
    constructor
    · intro h
      cases h with
      | cons h1 h2 =>
        obtain ⟨I, i1, i2⟩ := (ih _).1 h2
        obtain ⟨k, hk, e⟩ := (pyGet_ok_iff _ _ _).1 h1
        exact ⟨k :: I, .cons ⟨(List.getElem?_eq_some_iff.1 hk).1, e⟩ i1, .cons hk i2⟩
    · rintro ⟨I, h1, h2⟩
      cases h1 with
      | cons a b =>
        cases h2 with
        | cons c d => exact .cons ((pyGet_ok_iff _ _ _).2 ⟨_, c, a.2⟩) ((ih _).2 ⟨_, b, d⟩)

theorem mask_fields (L : List Bool) (n : ℕ) (M : List (ℕ × Bool)) :
    mapE (fun i : ℕ => (pyGet L i).map fun b => (i, b)) (List.range n) = .ok M ↔
      n ≤ L.length ∧ M = (List.range n).map fun i => (i, L.getD i false) := by
  have step : ∀ i : ℕ, i < L.length → ((pyGet L i).map fun b => (i, b)) = .ok (i, L.getD i false) := by
    intro i hi
    rw [(pyGet_nat L i L[i]).2 (List.getElem?_eq_getElem hi), List.getD_eq_getElem _ _ hi]
    rfl
  constructor
  · intro h
    have hn : n ≤ L.length := by
      by_contra hc
      rw [mapE_ok_iff] at h
      have hlen := h.length_eq
      have := (List.forall₂_iff_get.1 h).2 L.length (by simp; omega) (by rw [← hlen]; simp; omega)
      simp only [List.get_eq_getElem, List.getElem_range] at this
      have h2 : pyGet L (L.length : ℤ) = .error .index := by
        unfold pyGet
        rw [if_pos (Int.natCast_nonneg _), Int.toNat_natCast, List.getElem?_eq_none (le_refl _)]
      rw [h2] at this
      simp [Except.map] at this
    refine ⟨hn, ?_⟩
    rw [mapE_map (g := fun i => (i, L.getD i false)) fun i hi => step i (by rw [List.mem_range] at hi; omega)] at h
    exact (Except.ok.inj h).symm
  · rintro ⟨hn, rfl⟩
    exact mapE_map fun i hi => step i (by rw [List.mem_range] at hi; omega)

/-- **C26 (partial)** `x[:, idx, ...]`: if it returns, the result consists of exactly the fields addressed by the index, in order.  It
returns whenever the index addresses at least one field, and, for a unit step, the bounds are not out of range (where Python would
clamp them).
Missing: integer indices below `-len`, for which the code does not raise but returns another field
(`C26_getitem_violated`), and the clamping of the bounds (`C26_slice_clamp_violated`). -/
theorem C26_getitem_partial [DecidableEq R] (x : GTensor B P S R C) (hne : x.type.reprs ≠ []) (hx : x.tensor.chans = x.type.size sz)
    (idx : Index) (hidx : ∀ i, idx = .int i → -(x.type.len : ℤ) ≤ i) :
    (∀ y, x.getFieldsAt sz idx = .ok y → ∃ I, I ≠ [] ∧ idx.Denotes x.type.len I ∧ IsSelection sz x I y) ∧
    ((∃ I, I ≠ [] ∧ idx.Denotes x.type.len I) →
      (∀ a b c, idx = .slice (some a) b c → (c = none ∨ c = some 1) → -(x.type.len : ℤ) ≤ a) →
      (∀ a b c, idx = .slice a (some b) c → (c = none ∨ c = some 1) → b ≤ x.type.len) →
      ∃ y, x.getFieldsAt sz idx = .ok y) := by
  have hl := List.length_pos_of_ne_nil hne
  have hlen : x.type.len = x.type.reprs.length := rfl
  cases idx with
  | int i =>
    have hi := hidx i rfl
    set j := if i < 0 then (x.type.len : ℤ) + i else i with hj
    have hj0 : 0 ≤ j := by rw [hj]; split_ifs <;> omega
    have hgo : x.getFieldsAt sz (.int i) = x.getContiguous sz (some j) (some (j + 1)) (some 1) := by
      unfold getFieldsAt
      simp only [intToSlice]
      rw [if_pos (.inr trivial)]
    rw [hgo]
    have hsl := sliceIdx_one x.type.len (some j) (some (j + 1)) (some 1) (.inr rfl)
    obtain ⟨c1, c2⟩ := getContiguous_iff (sz := sz) x hne _ _ _ (.inr rfl) _ hsl
    by_cases hjn : j < x.type.len
    · have hI : List.range' ((Option.map (clampUp x.type.len) (some j)).getD 0).toNat
          (((Option.map (clampUp x.type.len) (some (j + 1))).getD x.type.len).toNat - ((Option.map (clampUp x.type.len) (some j)).getD 0).toNat) = [j.toNat] := by
        obtain ⟨k, hk⟩ : ∃ k : ℕ, j = k := ⟨j.toNat, by omega⟩
        rw [hk] at hjn ⊢
        simp only [Option.map_some, Option.getD_some]
        rw [clampUp_nat (by omega), show ((k : ℤ) + 1) = ((k + 1 : ℕ) : ℤ) by push_cast; ring, clampUp_nat (by omega)]
        simp
      rw [hI] at c1 c2
      refine ⟨fun y hy => ⟨_, by simp, ⟨j.toNat, by omega, ?_, rfl⟩, c2 y hy⟩, fun _ _ _ => c1.2 ⟨by simp, ?_, ?_⟩⟩
      · rw [hj] at *; split_ifs at * <;> omega
      · rintro a ⟨⟩; omega
      · rintro a ⟨⟩; omega
    · constructor
      · intro y hy
        have := (c1.1 ⟨y, hy⟩).2.2 (j + 1) rfl
        omega
      · rintro ⟨I, -, k, hk, e, -⟩
        rw [hj] at hjn
        split_ifs at hjn <;> omega
  | slice start stop step =>
    have hidx' : ∀ y, x.getFieldsAt sz (.slice start stop step) = .ok y → ∃ I, sliceIdx x.type.len start stop step = .ok I := by
      intro y hy
      unfold getFieldsAt at hy
      simp only [intToSlice] at hy
      by_cases hs : step = none ∨ step = some 1
      · exact ⟨_, sliceIdx_one _ _ _ _ hs⟩
      · rw [if_neg hs] at hy
        simp only [bind, Except.bind] at hy
        split at hy
        · cases hy
        · rename_i I hI; exact ⟨I, hI⟩
    by_cases hs : step = none ∨ step = some 1
    · have hgo : x.getFieldsAt sz (.slice start stop step) = x.getContiguous sz start stop step := by
        unfold getFieldsAt
        simp only [intToSlice]
        rw [if_pos hs]
      rw [hgo] at hidx' ⊢
      constructor
      · intro y hy
        obtain ⟨I, hI⟩ := hidx' y hy
        obtain ⟨c1, c2⟩ := getContiguous_iff (sz := sz) x hne _ _ _ hs I hI
        exact ⟨I, (c1.1 ⟨y, hy⟩).1, hI, c2 y hy⟩
      · rintro ⟨I, hI, hd⟩ h1 h2
        exact (getContiguous_iff (sz := sz) x hne _ _ _ hs I hd).1.2
          ⟨hI, by rintro a rfl; exact h1 a _ _ rfl hs, by rintro b rfl; exact h2 _ b _ rfl hs⟩
    · have hgo : ∀ I, sliceIdx x.type.len start stop step = .ok I →
          x.getFieldsAt sz (.slice start stop step) = getFields sz x (I.map fun i : ℕ => (i : ℤ)) (I.filterMap fun i => x.type.reprs[i]?) := by
        intro I hI
        unfold getFieldsAt
        simp only [intToSlice]
        rw [if_neg hs, hI]
        simp only [bind, Except.bind]
        unfold pySlice
        rw [show x.type.reprs.length = x.type.len from rfl, hI]
      have hgf := fun I (hI : sliceIdx x.type.len start stop step = .ok I) =>
        getFields_iff (sz := sz) x hx _ I _ (forall₂_nat _ I (sliceIdx_lt hI)) (forall₂_get x.type.reprs I (sliceIdx_lt hI))
      constructor
      · intro y hy
        obtain ⟨I, hI⟩ := hidx' y hy
        rw [hgo I hI] at hy
        exact ⟨I, (hgf I hI).1.1 ⟨y, hy⟩, hI, (hgf I hI).2 y hy⟩
      · rintro ⟨I, hI, hd⟩ - -
        rw [hgo I hd]
        exact (hgf I hd).1.2 hI
  | mask L =>
    set I := (List.range x.type.len).filter fun i => L.getD i false with hI
    have hlt : ∀ i ∈ I, i < x.type.reprs.length := by
      intro i hi; rw [hI, List.mem_filter, List.mem_range] at hi; exact hi.1
    obtain ⟨c1, c2⟩ := getFields_iff (sz := sz) x hx _ I _ (forall₂_nat _ I hlt) (forall₂_get x.type.reprs I hlt)
    have hfl : (((List.range x.type.len).map fun i => (i, L.getD i false)).filter fun p => p.2).map (fun p => (p.1 : ℤ)) = I.map fun i : ℕ => (i : ℤ) := by
      rw [List.filter_map, List.map_map]; rfl
    have hgo : ∀ y, x.getFieldsAt sz (.mask L) = .ok y ↔ x.type.len ≤ L.length ∧
        getFields sz x (I.map fun i : ℕ => (i : ℤ)) (I.filterMap fun i => x.type.reprs[i]?) = .ok y := by
      intro y
      unfold getFieldsAt
      simp only [intToSlice, bind, Except.bind]
      by_cases hn : x.type.len ≤ L.length
      · rw [(mask_fields L x.type.len _).2 ⟨hn, rfl⟩]
        simp only
        rw [hfl, (mapE_pyGet_iff x.type.reprs _ _).2 ⟨I, forall₂_nat _ I hlt, forall₂_get x.type.reprs I hlt⟩]
        simp [hn]
      · constructor
        · intro h
          split at h
          · cases h
          · rename_i M hM
            exact absurd ((mask_fields L _ _).1 hM).1 hn
        · rintro ⟨h, -⟩; exact absurd h hn
    constructor
    · intro y hy
      obtain ⟨h1, h2⟩ := (hgo y).1 hy
      exact ⟨I, c1.1 ⟨y, h2⟩, ⟨h1, rfl⟩, c2 y h2⟩
    · rintro ⟨_, h1, h2, rfl⟩ - -
      obtain ⟨y, hy⟩ := c1.2 h1
      exact ⟨y, (hgo y).2 ⟨h2, hy⟩⟩
  | long L =>
    constructor
    · intro y hy
      unfold getFieldsAt at hy
      simp only [intToSlice, bind, Except.bind] at hy
      split at hy
      · cases hy
      rename_i rs hrs
      obtain ⟨I, h1, h2⟩ := (mapE_pyGet_iff _ _ _).1 hrs
      obtain ⟨c1, c2⟩ := getFields_iff (sz := sz) x hx L I rs h1 h2
      exact ⟨I, c1.1 ⟨y, hy⟩, h1, c2 y hy⟩
    · rintro ⟨I, h1, h2⟩ - -
      have h3 := forall₂_get x.type.reprs I (by
        intro i hi
        obtain ⟨k, hk, rfl⟩ := List.getElem_of_mem hi
        exact ((List.forall₂_iff_get.1 h2).2 k (by rw [h2.length_eq]; exact hk) hk).1)
      obtain ⟨y, hy⟩ := (getFields_iff (sz := sz) x hx L I _ h2 h3).1.2 h1
      refine ⟨y, ?_⟩
      unfold getFieldsAt
      simp only [intToSlice, bind, Except.bind]
      rw [(mapE_pyGet_iff _ _ _).2 ⟨I, h2, h3⟩]
      exact hy

/-- Three fields of size one; `x[:, -5]` does not raise but returns the field number `1`. -/
theorem C26_getitem_violated :
    ∃ (x y : GTensor Unit Unit Unit ℕ Unit), x.type.reprs = [1, 1, 1] ∧ x.tensor.chans = x.type.size id ∧
      x.getFieldsAt id (.int (-5)) = .ok y ∧ IsSelection id x [1] y ∧ ¬ ∃ I, (Index.int (-5)).Denotes x.type.len I := by
  let x : GTensor Unit Unit Unit ℕ Unit := ⟨⟨3, fun _ c _ => c⟩, ⟨(), [1, 1, 1]⟩, ()⟩
  have hs : sliceIdx x.type.len (some (-2)) (some (-1)) (some 1) = .ok [1] := by decide
  obtain ⟨h1, h2⟩ := getContiguous_iff (sz := id) x (by simp [x]) _ _ _ (.inr rfl) _ hs
  obtain ⟨y, hy⟩ := h1.2 ⟨by simp, by simp [x, FType.len], by simp [x, FType.len]⟩
  refine ⟨x, y, rfl, rfl, hy, h2 y hy, ?_⟩
  rintro ⟨I, k, hk, e, -⟩
  simp [x, FType.len] at hk e
  omega

/-- Three fields; `x[:, 0:5]` raises, while the slice `0:5` of a sequence of three elements is the whole sequence. -/
theorem C26_slice_clamp_violated :
    ∃ x : GTensor Unit Unit Unit ℕ Unit, x.type.reprs = [1, 1, 1] ∧ x.tensor.chans = x.type.size id ∧
      x.getFieldsAt id (.slice (some 0) (some 5) none) = .error .index ∧
      (Index.slice (some 0) (some 5) none).Denotes x.type.len [0, 1, 2] :=
  ⟨⟨⟨3, fun _ c _ => c⟩, ⟨(), [1, 1, 1]⟩, ()⟩, rfl, rfl, rfl, rfl⟩

theorem indexedAxes_eq (L : List (Option Index)) : indexedAxes L = (L.filterMap id).length := by
  induction L with
  | nil => rfl
  | cons a L ih => cases a <;> simp [indexedAxes, ih]

theorem expandLoop_some (m : ℤ) (e : Bool) (L : List Index) (M : List (Option Index)) :
    expandLoop m e (L.map some ++ M) = L ++ expandLoop m e M := by
  induction L with
  | nil => rfl
  | cons a L ih => simp [expandLoop, ih]

/-- **C26** An ellipsis stands for as many full slices as there are axes left: the indices after it address the last axes.  Without
ellipsis the indices are unchanged. -/
theorem C26_ellipsis (naxes : ℕ) (pre post : List Index) (h : pre.length + post.length < naxes) :
    expand naxes (pre.map some ++ none :: post.map some) =
      .ok (pre ++ List.replicate (naxes - pre.length - post.length) (.slice none none none) ++ post) ∧
    expand naxes (pre.map some) = .ok pre := by
  have e1 : (List.filterMap id (pre.map some ++ none :: post.map some)) = pre ++ post := by
    simp [List.filterMap_append, List.filterMap_map]
  constructor
  · unfold expand
    rw [if_neg (by simp; omega), indexedAxes_eq, e1, expandLoop_some]
    rw [expandLoop]
    simp only [Bool.false_eq_true, if_false]
    have := expandLoop_some ((naxes : ℤ) - (pre ++ post).length) true post []
    rw [List.append_nil] at this
    rw [this, expandLoop, List.append_nil, List.append_assoc]
    congr 4
    simp; omega
  · unfold expand
    rw [if_neg (by simp; omega)]
    have := expandLoop_some ((naxes : ℤ) - indexedAxes (pre.map some)) false pre []
    rw [List.append_nil] at this
    rw [this, expandLoop, List.append_nil]

/-! ## the hypotheses can be met -/

example : ∃ x : GTensor Unit Unit Unit ℕ Unit, x.type.reprs ≠ [] ∧ x.tensor.chans = x.type.size id ∧
    ([1, 2] : List ℤ).Pairwise (· < ·) ∧ (∀ b ∈ ([1, 2] : List ℤ), 0 < b ∧ b < x.type.len) ∧
    (Index.slice none none (some (-2))).Denotes x.type.len [2, 0] ∧ (Index.int (-1)).Denotes x.type.len [2] ∧
    (Index.mask [true, false, true]).Denotes x.type.len [0, 2] := by
  refine ⟨⟨⟨6, fun _ c _ => c⟩, ⟨(), [1, 2, 3]⟩, ()⟩, by simp, rfl, by simp, by simp [FType.len], rfl, ⟨2, by simp [FType.len], by simp [FType.len], rfl⟩, by simp [FType.len], rfl⟩

end GTensor

end Escnn
