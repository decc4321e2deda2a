import Verif.Model.Polar
import Verif.Lemmas.Locate
import Verif.Lemmas.Expansion

/-!
# The layout of the shells bases
-/

namespace Escnn

/-- What both kinds of shells satisfy. -/
structure ShellKind.Ok (k : ShellKind) (size : ℕ × ℕ → ℕ) : Prop where
  zero : k.first 0 = 0
  succ : ∀ j, k.first (j + 1) = k.first j + k.dim j
  pos : ∀ j, 0 < k.dim j
  snd : ∀ j, (k.id j).2 = j
  size : ∀ j, size (k.id j) = k.dim j

theorem ShellKind.circ_ok : ShellKind.circ.Ok fun j => O2.irrepSize j.1 j.2 := by
  refine ⟨rfl, fun j => ?_, fun j => ?_, fun j => rfl, fun j => ?_⟩
  · simp only [ShellKind.circ]
    rw [if_pos (Nat.succ_pos j)]
    split_ifs <;> omega
  · simp only [ShellKind.circ]
    split_ifs <;> omega
  · simp only [ShellKind.circ, O2.irrepSize]
    by_cases h : 0 < j
    · simp [h, h.ne']
    · simp [h]

/-- Sizes of the irreps of O(3): `2 l + 1`, for the id `(f, l)`. -/
theorem ShellKind.sph_ok : ShellKind.sph.Ok fun j => 2 * j.2 + 1 := by
  refine ⟨rfl, fun j => ?_, fun j => ?_, fun j => rfl, fun j => rfl⟩
  · simp only [ShellKind.sph]; ring
  · simp only [ShellKind.sph]; omega

namespace Shells

/-- The filters in the order of the basis: for every frequency, for every kept radius, for every component. -/
def items (k : ShellKind) (R : ℕ → List ℕ) (js : List ℕ) : List (ℕ × ℕ × ℕ) := js.flatMap fun j => (R j).flatMap fun r => (List.range (k.dim j)).map fun c => (j, r, c)

/-- The steerable subspaces in order. -/
def sItems (R : ℕ → List ℕ) (js : List ℕ) : List (ℕ × ℕ) := js.flatMap fun j => (R j).map fun r => (j, r)

/-- The kept radii of a frequency. -/
def kept (k : ShellKind) (n : ℕ) (filter : Option (ℕ × ℕ → ℕ → Bool)) (j : ℕ) : List ℕ :=
  match filter with
  | none => List.range n
  | some f => (List.range n).filter (f (k.id j))

/-- Whether a filter is kept. -/
def keep (k : ShellKind) (filter : Option (ℕ × ℕ → ℕ → Bool)) (j r : ℕ) : Bool :=
  match filter with
  | none => true
  | some f => f (k.id j) r

/-- Position without filter. -/
def pos (k : ShellKind) (n : ℕ) (e : ℕ × ℕ × ℕ) : ℕ := k.first e.1 * n + (e.2.1 * k.dim e.1 + e.2.2)

variable {k : ShellKind} {size : ℕ × ℕ → ℕ} {n : ℕ}

theorem kept_eq (filter : Option (ℕ × ℕ → ℕ → Bool)) (j : ℕ) : kept k n filter j = (List.range n).filter (keep k filter j) := by
  cases filter with
  | none => rw [kept]; exact (List.filter_eq_self.2 fun _ _ => rfl).symm
  | some f => rfl

theorem flatMap_range_map (w : ℕ) : ∀ n, ((List.range n).flatMap fun r => (List.range w).map fun c => r * w + c) = List.range (n * w)
  | 0 => by simp
  | n + 1 => by
    rw [List.range_succ, List.flatMap_append, flatMap_range_map w n, List.flatMap_singleton, Nat.succ_mul, List.range_add]

theorem map_pos_full (hk : k.Ok size) : ∀ L, (items k (fun _ => List.range n) (List.range L)).map (pos k n) = List.range (k.first L * n)
  | 0 => by simp [items, hk.zero]
  | L + 1 => by
    rw [items, List.range_succ, List.flatMap_append, List.map_append]
    rw [show (List.map (pos k n) ((List.range L).flatMap fun j => (List.range n).flatMap fun r => (List.range (k.dim j)).map fun c => (j, r, c))) = _ from map_pos_full hk L]
    rw [List.flatMap_singleton, List.map_flatMap, hk.succ, Nat.add_mul, List.range_add, mul_comm (k.dim L), ← flatMap_range_map (k.dim L) n, List.map_flatMap]
    congr 1
    refine List.flatMap_congr fun r _ => ?_
    rw [List.map_map, List.map_map]
    rfl

theorem filter_flatMap_const {α β : Type} (p : β → Bool) (q : α → Bool) (f : α → List β) (h : ∀ a, ∀ b ∈ f a, p b = q a) : ∀ L : List α, (L.flatMap f).filter p = (L.filter q).flatMap f
  | [] => rfl
  | a :: L => by
    rw [List.flatMap_cons, List.filter_append, filter_flatMap_const p q f h L, List.filter_cons]
    by_cases ha : q a = true
    · rw [if_pos ha, List.flatMap_cons, List.filter_eq_self.2 fun b hb => (h a b hb).trans ha]
    · rw [if_neg ha, List.filter_eq_nil_iff.2 fun b hb => by rw [h a b hb]; exact ha]
      rfl

theorem filter_items (filter : Option (ℕ × ℕ → ℕ → Bool)) (js : List ℕ) :
    (items k (fun _ => List.range n) js).filter (fun e => keep k filter e.1 e.2.1) = items k (kept k n filter) js := by
  rw [items, List.filter_flatMap, items]
  refine List.flatMap_congr fun j _ => ?_
  rw [kept_eq]
  refine filter_flatMap_const _ (keep k filter j) _ (fun r b hb => ?_) _
  obtain ⟨c, -, rfl⟩ := List.mem_map.1 hb
  rfl

theorem filter_sItems (filter : Option (ℕ × ℕ → ℕ → Bool)) (js : List ℕ) :
    (sItems (fun _ => List.range n) js).filter (fun e => keep k filter e.1 e.2) = sItems (kept k n filter) js := by
  rw [sItems, List.filter_flatMap, sItems]
  refine List.flatMap_congr fun j _ => ?_
  rw [kept_eq, List.filter_map]
  rfl

theorem sum_items (hk : k.Ok size) (R : ℕ → List ℕ) (js : List ℕ) : (items k R js).length = (js.map fun j => size (k.id j) * (R j).length).sum := by
  rw [items, List.length_flatMap]
  congr 1
  refine List.map_congr_left fun j _ => ?_
  rw [List.length_flatMap, hk.size]
  simp [mul_comm]

/-! ### Masks -/

theorem maskPos_map {α : Type} (p : α → ℕ) (q : α → Bool) (L : List α) (h : L.map p = List.range L.length) : maskPos (L.map q) = (L.filter q).map p := by
  have h1 : maskPos (L.map q) = (L.map p).filter fun e => (L.map q).getD e false := by rw [maskPos, h, List.length_map]
  rw [h1, List.filter_map]
  congr 1
  refine List.filter_congr fun a ha => ?_
  obtain ⟨i, hi, rfl⟩ := List.getElem_of_mem ha
  have : p L[i] = i := by
    have h2 : (L.map p)[i]'(by simpa using hi) = i := by simp only [h, List.getElem_range]
    simpa using h2
  simp only [Function.comp, this, List.getD_eq_getElem?_getD, List.getElem?_map, List.getElem?_eq_getElem hi, Option.map_some, Option.getD_some]

/-! ### The constructor with a filter -/

theorem foldl_step (k : ShellKind) (n j : ℕ) (q : ℕ → Bool) : ∀ (m : ℕ) (s : CState), s.i = k.first j * n → s.si = j * n →
    (List.range m).foldl (fun s r => ctorStep (k.dim j) (q r) s) s =
      ⟨s.filter ++ (List.range m).flatMap (fun r => (List.range (k.dim j)).map fun _ => q r),
        s.idxMap ++ ((List.range m).filter q).flatMap (fun r => (List.range (k.dim j)).map fun c => pos k n (j, r, c)),
        s.sMap ++ ((List.range m).filter q).map (fun r => j * n + r), s.i + m * k.dim j, s.si + m, s.mult + ((List.range m).filter q).length⟩
  | 0, s, _, _ => by simp
  | m + 1, s, h1, h2 => by
    rw [List.range_succ, List.foldl_append, foldl_step k n j q m s h1 h2, List.foldl_cons, List.foldl_nil, ctorStep, List.flatMap_append, List.filter_append]
    have hr : ∀ b : Bool, (List.range (k.dim j)).map (fun _ => b) = List.replicate (k.dim j) b := fun b => by simp
    by_cases h : q m = true
    · simp only [h, if_true, List.filter_cons_of_pos, List.filter_nil, List.flatMap_singleton, List.flatMap_append, List.map_append, List.length_append, List.append_assoc, hr,
        CState.mk.injEq]
      refine ⟨trivial, ?_, ?_, ?_, ?_, ?_⟩
      · congr 2
        refine List.map_congr_left fun c _ => ?_
        rw [h1, pos]; ring
      · simp [h2]
      · ring
      · ring
      · simp; ring
    · have h' : q m = false := by simpa using h
      simp only [h', Bool.false_eq_true, if_false, List.filter_cons_of_neg, not_false_eq_true, List.filter_nil, List.flatMap_singleton, List.append_nil, List.append_assoc, hr,
        CState.mk.injEq]
      exact ⟨trivial, trivial, trivial, by ring, by ring, trivial⟩

theorem ctorLoop_eq (hk : k.Ok size) (n : ℕ) (f : ℕ × ℕ → ℕ → Bool) : ∀ (m j₀ : ℕ) (s : CState) (js : List ((ℕ × ℕ) × ℕ)) (inv : ℕ), s.i = k.first j₀ * n → s.si = j₀ * n →
    ∃ M, ctorLoop k n f ((List.range m).map (j₀ + ·)) s js inv =
      (⟨s.filter ++ (items k (fun _ => List.range n) ((List.range m).map (j₀ + ·))).map (fun e => f (k.id e.1) e.2.1),
        s.idxMap ++ (items k (kept k n (some f)) ((List.range m).map (j₀ + ·))).map (pos k n),
        s.sMap ++ (sItems (kept k n (some f)) ((List.range m).map (j₀ + ·))).map (fun e => e.1 * n + e.2), k.first (j₀ + m) * n, (j₀ + m) * n, M⟩,
        js ++ ((List.range m).map (j₀ + ·)).map (fun j => (k.id j, (kept k n (some f) j).length)), inv + (((List.range m).map (j₀ + ·)).map fun j => (kept k n (some f) j).length).sum)
  | 0, j₀, s, js, inv, h1, h2 => ⟨s.mult, by
    obtain ⟨_, _, _, _, _, _⟩ := s
    simp only at h1 h2
    simp [ctorLoop, items, sItems, h1, h2]⟩
  | m + 1, j₀, s, js, inv, h1, h2 => by
    have hr : (List.range (m + 1)).map (j₀ + ·) = j₀ :: (List.range m).map (j₀ + 1 + ·) := by
      rw [List.range_succ_eq_map, List.map_cons, List.map_map]
      congr 1
      refine List.map_congr_left fun i _ => ?_
      simp only [Function.comp]; omega
    rw [hr]
    simp only [ctorLoop]
    rw [foldl_step k n j₀ (f (k.id j₀)) n { s with mult := 0 } h1 h2]
    obtain ⟨M, hM⟩ := ctorLoop_eq hk n f m (j₀ + 1)
      ⟨s.filter ++ (List.range n).flatMap (fun r => (List.range (k.dim j₀)).map fun _ => f (k.id j₀) r),
        s.idxMap ++ ((List.range n).filter (f (k.id j₀))).flatMap (fun r => (List.range (k.dim j₀)).map fun c => pos k n (j₀, r, c)),
        s.sMap ++ ((List.range n).filter (f (k.id j₀))).map (fun r => j₀ * n + r), s.i + n * k.dim j₀, s.si + n, 0 + ((List.range n).filter (f (k.id j₀))).length⟩
      (js ++ [(k.id j₀, 0 + ((List.range n).filter (f (k.id j₀))).length)]) (inv + (0 + ((List.range n).filter (f (k.id j₀))).length))
      (by simp only; rw [h1, hk.succ]; ring) (by simp only; rw [h2]; ring)
    refine ⟨M, ?_⟩
    rw [hM]
    have e1 : j₀ + 1 + m = j₀ + (m + 1) := by omega
    simp only [items, sItems, List.flatMap_cons, List.map_append, List.append_assoc, List.map_cons, List.sum_cons, zero_add, kept, e1, Prod.mk.injEq, CState.mk.injEq,
      List.map_flatMap, List.map_map, List.cons_append, List.nil_append, Function.comp_def, and_true, true_and]
    rw [Nat.add_assoc]

/-- What the constructor computes. -/
theorem init_spec (hk : k.Ok size) {L n : ℕ} {filter : Option (ℕ × ℕ → ℕ → Bool)} {b : Shells} (h : init k size L n filter = .ok b) :
    b.kind = k ∧ b.L = L ∧ b.n = n ∧ b.js = (List.range (L + 1)).map (fun j => (k.id j, (kept k n filter j).length)) ∧
    b.dim size = (items k (kept k n filter) (List.range (L + 1))).length ∧ 0 < b.dim size ∧
    b.filter = filter.map (fun _ => (items k (fun _ => List.range n) (List.range (L + 1))).map fun e => keep k filter e.1 e.2.1) ∧
    b.idxMap = filter.map (fun _ => (items k (kept k n filter) (List.range (L + 1))).map (pos k n)) ∧
    b.sMap = filter.map (fun _ => (sItems (kept k n filter) (List.range (L + 1))).map fun e => e.1 * n + e.2) ∧
    b.numInv = (if filter.isNone then 0 else (sItems (kept k n filter) (List.range (L + 1))).length) := by
  unfold init at h
  have hdim : ∀ b : Shells, b.js = (List.range (L + 1)).map (fun j => (k.id j, (kept k n filter j).length)) →
      b.dim size = (items k (kept k n filter) (List.range (L + 1))).length := fun b hb => by
    rw [dim, hb, sum_items hk, List.map_map]
    rfl
  cases filter with
  | none =>
    simp only at h
    split_ifs at h with h0
    obtain rfl := Except.ok.inj h
    have hj : (List.range (L + 1)).map (fun j => (k.id j, n)) = (List.range (L + 1)).map (fun j => (k.id j, (kept k n none j).length)) := by
      simp [kept]
    exact ⟨rfl, rfl, rfl, hj, hdim _ hj, Nat.pos_of_ne_zero h0, rfl, rfl, rfl, rfl⟩
  | some f =>
    obtain ⟨M, hM⟩ := ctorLoop_eq hk n f (L + 1) 0 ⟨[], [], [], 0, 0, 0⟩ [] 0 (by simp [hk.zero]) (by simp)
    have hz : (List.range (L + 1)).map (0 + ·) = List.range (L + 1) := by simp
    rw [hz] at hM
    simp only at h
    rw [hM] at h
    simp only at h
    split_ifs at h with h0
    obtain rfl := Except.ok.inj h
    refine ⟨rfl, rfl, rfl, by simp, hdim _ (by simp), Nat.pos_of_ne_zero h0, ?_, ?_, ?_, ?_⟩
    · simp [keep]
    · simp
    · simp
    · simp [sItems, List.length_flatMap]

/-! ### Sampling -/

theorem first_mono (hk : k.Ok size) {i j : ℕ} (h : i < j) : k.first i + k.dim i ≤ k.first j := by
  induction j, h using Nat.le_induction with
  | base => exact (hk.succ i).ge
  | succ j _ ih =>
    rw [hk.succ]
    omega

theorem tmpLoop_other (T : ℕ → ℕ → ℝ) (e : ℕ) : ∀ (js : List ℕ) (out : ℕ → ℝ), (∀ j ∈ js, ¬ (k.first j * n ≤ e ∧ e < (k.first j + k.dim j) * n)) → tmpLoop k n T js out e = out e
  | [], out, _ => rfl
  | j :: js, out, h => by
    rw [tmpLoop, tmpLoop_other T e js _ fun j' hj' => h j' (by simp [hj']), if_neg (h j (by simp))]

theorem tmpLoop_eq (hk : k.Ok size) (T : ℕ → ℕ → ℝ) (j r c : ℕ) (hr : r < n) (hc : c < k.dim j) : ∀ (js : List ℕ) (out : ℕ → ℝ), js.Nodup → j ∈ js →
    tmpLoop k n T js out (pos k n (j, r, c)) = T r (k.first j + c)
  | [], out, _, h => by simp at h
  | i :: js, out, hn, h => by
    rw [tmpLoop]
    have hlt : r * k.dim j + c < k.dim j * n := by
      have : (r + 1) * k.dim j ≤ n * k.dim j := Nat.mul_le_mul_right _ hr
      have h2 : (r + 1) * k.dim j = r * k.dim j + k.dim j := by ring
      rw [mul_comm (k.dim j) n]
      omega
    have hin : k.first j * n ≤ pos k n (j, r, c) ∧ pos k n (j, r, c) < (k.first j + k.dim j) * n := by
      rw [pos, Nat.add_mul]
      simp only
      omega
    have hother : ∀ i, i ≠ j → ¬ (k.first i * n ≤ pos k n (j, r, c) ∧ pos k n (j, r, c) < (k.first i + k.dim i) * n) := by
      rintro i hij ⟨a, b⟩
      rcases Nat.lt_or_gt_of_ne hij with g | g
      · have := Nat.mul_le_mul_right n (first_mono hk g)
        omega
      · have := Nat.mul_le_mul_right n (first_mono hk g)
        omega
    by_cases hij : i = j
    · subst hij
      rw [tmpLoop_other T _ js _ fun j' hj' => hother j' fun e => (List.nodup_cons.1 hn).1 (e ▸ hj'), if_pos hin]
      have h1 : pos k n (i, r, c) - k.first i * n = c + k.dim i * r := by
        rw [pos]; simp only; rw [mul_comm r]; omega
      rw [h1, Nat.add_mul_div_left _ _ (hk.pos i), Nat.div_eq_of_lt hc, Nat.add_mul_mod_self_left, Nat.mod_eq_of_lt hc, zero_add]
    · exact tmpLoop_eq hk T j r c hr hc js _ (List.nodup_cons.1 hn).2 (by
        rcases List.mem_cons.1 h with rfl | h
        · exact absurd rfl hij
        · exact h)

theorem mem_items {R : ℕ → List ℕ} {js : List ℕ} {e : ℕ × ℕ × ℕ} : e ∈ items k R js ↔ e.1 ∈ js ∧ e.2.1 ∈ R e.1 ∧ e.2.2 < k.dim e.1 := by
  obtain ⟨j, r, c⟩ := e
  simp only [items, List.mem_flatMap, List.mem_map, List.mem_range, Prod.mk.injEq]
  constructor
  · rintro ⟨j', h1, r', h2, c', h3, rfl, rfl, rfl⟩
    exact ⟨h1, h2, h3⟩
  · rintro ⟨h1, h2, h3⟩
    exact ⟨j, h1, r, h2, c, h3, rfl, rfl, rfl⟩

theorem mem_kept {filter : Option (ℕ × ℕ → ℕ → Bool)} {j r : ℕ} (h : r ∈ kept k n filter j) : r < n := by
  rw [kept_eq] at h
  exact List.mem_range.1 (List.mem_filter.1 h).1

theorem map_pos_full' (hk : k.Ok size) (L : ℕ) : (items k (fun _ => List.range n) (List.range L)).map (pos k n) = List.range (items k (fun _ => List.range n) (List.range L)).length := by
  have h := map_pos_full (n := n) hk L
  have h2 := congrArg List.length h
  rw [List.length_map, List.length_range] at h2
  rw [h, h2]

/-- The value of filter `e` at a point. -/
theorem sample_spec (hk : k.Ok size) {L n : ℕ} {filter : Option (ℕ × ℕ → ℕ → Bool)} {b : Shells} (h : init k size L n filter = .ok b) (junk radial angular : ℕ → ℝ)
    (e : ℕ) (it : ℕ × ℕ × ℕ) (he : (items k (kept k n filter) (List.range (L + 1)))[e]? = some it) :
    b.sample junk radial angular e = radial it.2.1 * angular (k.first it.1 + it.2.2) := by
  obtain ⟨h1, h2, h3, -, -, -, h4, -, -, -⟩ := init_spec hk h
  obtain ⟨m1, m2, m3⟩ := mem_items.1 (List.mem_of_getElem? he)
  have ht := tmpLoop_eq hk (fun r a => radial r * angular a) it.1 it.2.1 it.2.2 (mem_kept m2) m3 (List.range (L + 1)) junk List.nodup_range m1
  rw [sample]
  simp only [h1, h2, h3, h4]
  cases filter with
  | none =>
    simp only [Option.map_none]
    have : pos k n it = e := by
      have hf : items k (kept k n none) (List.range (L + 1)) = items k (fun _ => List.range n) (List.range (L + 1)) := rfl
      have h5 := congrArg (fun l => l[e]?) (map_pos_full' (n := n) hk (L + 1))
      rw [hf] at he
      simp only [List.getElem?_map, he, Option.map_some, List.getElem?_range (List.getElem?_eq_some_iff.1 he).1] at h5
      exact Option.some.inj h5
    rw [← this]
    exact ht
  | some f =>
    simp only [Option.map_some]
    rw [maskPos_map (pos k n) _ _ (map_pos_full' hk (L + 1)), filter_items, List.getD_eq_getElem?_getD, List.getElem?_map, he]
    exact ht

/-! ### Iterators -/

/-- The three loops of `__iter__` as one loop. -/
def flatIter (b : Shells) : List (ℕ × ℕ × ℕ) → ℕ → ℕ → List ShAttr × ℕ × ℕ
  | [], idx, i => ([], idx, i)
  | (j, r, m) :: L, idx, i =>
    if b.test i then
      (⟨idx, r, b.kind.id j, m, some r⟩ :: (flatIter b L (idx + 1) (i + 1)).1, (flatIter b L (idx + 1) (i + 1)).2)
    else flatIter b L idx (i + 1)

theorem flatIter_append (b : Shells) : ∀ (A B : List (ℕ × ℕ × ℕ)) (idx i : ℕ), flatIter b (A ++ B) idx i =
    ((flatIter b A idx i).1 ++ (flatIter b B (flatIter b A idx i).2.1 (flatIter b A idx i).2.2).1, (flatIter b B (flatIter b A idx i).2.1 (flatIter b A idx i).2.2).2)
  | [], B, idx, i => by simp [flatIter]
  | (j, r, m) :: A, B, idx, i => by
    simp only [List.cons_append, flatIter, flatIter_append b A B]
    split_ifs <;> rfl

theorem iterM_eq (b : Shells) (j r : ℕ) : ∀ (L : List ℕ) (idx i : ℕ), iterM b j r L idx i = flatIter b (L.map fun c => (j, r, c)) idx i
  | [], _, _ => rfl
  | m :: L, idx, i => by
    simp only [iterM, List.map_cons, flatIter, iterM_eq b j r L]

theorem iterR_eq (b : Shells) (j : ℕ) : ∀ (L : List ℕ) (idx i : ℕ), iterR b j L idx i = flatIter b (L.flatMap fun r => (List.range (b.kind.dim j)).map fun c => (j, r, c)) idx i
  | [], _, _ => rfl
  | r :: L, idx, i => by
    simp only [iterR, List.flatMap_cons, flatIter_append, iterM_eq, iterR_eq b j L]

theorem iterJ_eq (b : Shells) : ∀ (L : List ℕ) (idx i : ℕ), iterJ b L idx i = (flatIter b (items b.kind (fun _ => List.range b.n) L) idx i).1
  | [], _, _ => rfl
  | j :: L, idx, i => by
    simp only [iterJ, items, List.flatMap_cons, flatIter_append, iterR_eq]
    rw [iterJ_eq b L]
    rfl

theorem flatIter_eq (b : Shells) (q : ℕ × ℕ × ℕ → Bool) : ∀ (A : List (ℕ × ℕ × ℕ)) (idx i : ℕ),
    (∀ t (ht : t < A.length), b.test (i + t) = q A[t]) →
    (flatIter b A idx i).1 = ((A.filter q).zipIdx idx).map fun e => ⟨e.2, e.1.2.1, b.kind.id e.1.1, e.1.2.2, some e.1.2.1⟩
  | [], _, _, _ => rfl
  | (j, r, m) :: A, idx, i, h => by
    have h0 := h 0 (by simp)
    have ht : ∀ t (ht : t < A.length), b.test (i + 1 + t) = q A[t] := fun t ht => by
      have := h (t + 1) (by simp; omega)
      rwa [show i + (t + 1) = i + 1 + t by omega] at this
    simp only [add_zero, List.getElem_cons_zero] at h0
    rw [flatIter, List.filter_cons]
    simp only [h0]
    split_ifs with hq
    · rw [flatIter_eq b q A (idx + 1) (i + 1) ht, List.zipIdx_cons, List.map_cons]
    · exact flatIter_eq b q A idx (i + 1) ht

theorem iter_spec (hk : k.Ok size) {L n : ℕ} {filter : Option (ℕ × ℕ → ℕ → Bool)} {b : Shells} (h : init k size L n filter = .ok b) :
    b.iter = ((items k (kept k n filter) (List.range (L + 1))).zipIdx).map fun e => ⟨e.2, e.1.2.1, k.id e.1.1, e.1.2.2, some e.1.2.1⟩ := by
  obtain ⟨h1, h2, h3, -, -, -, h4, -, -, -⟩ := init_spec hk h
  rw [iter, iterJ_eq, h1, h2, h3, ← filter_items, ← h1, h1]
  have := flatIter_eq b (fun e => keep k filter e.1 e.2.1) (items k (fun _ => List.range n) (List.range (L + 1))) 0 0 (fun t ht => by
    rw [test, h4]
    cases filter with
    | none => rfl
    | some f => simp only [Option.map_some, zero_add, List.getD_eq_getElem?_getD, List.getElem?_map, List.getElem?_eq_getElem ht, Option.getD_some])
  rw [this, h1]

theorem stR_append (b : Shells) (j : ℕ) : ∀ (A B : List ℕ) (idx i : ℕ), stR b j (A ++ B) idx i =
    ((stR b j A idx i).1 ++ (stR b j B (stR b j A idx i).2.1 (stR b j A idx i).2.2).1, (stR b j B (stR b j A idx i).2.1 (stR b j A idx i).2.2).2)
  | [], B, idx, i => by simp [stR]
  | r :: A, B, idx, i => by
    simp only [List.cons_append, stR, stR_append b j A B]
    split_ifs <;> rfl

theorem stR_eq (b : Shells) (j i : ℕ) (q : ℕ → Bool) (idx : ℕ) : ∀ (m : ℕ), (∀ r < m, b.sliceAll (i + r * b.kind.dim j) (b.kind.dim j) = q r) →
    stR b j (List.range m) idx i = ((((List.range m).filter q).zipIdx idx).map fun e => ⟨e.2, e.1, b.kind.id j, some e.1⟩, idx + ((List.range m).filter q).length, i + m * b.kind.dim j)
  | 0, _ => by simp [stR]
  | m + 1, h => by
    rw [List.range_succ, stR_append, stR_eq b j i q idx m (fun r hr => h r (by omega))]
    simp only [stR, h m (by omega), List.filter_append, List.filter_cons, List.filter_nil]
    split_ifs
    · simp [Nat.add_mul, Nat.add_assoc, List.zipIdx_append]
    · simp [Nat.add_mul, Nat.add_assoc]

theorem items_length_full (hk : k.Ok size) (L : ℕ) : (items k (fun _ => List.range n) (List.range L)).length = k.first L * n := by
  have h := congrArg List.length (map_pos_full (n := n) hk L)
  rwa [List.length_map, List.length_range] at h

theorem full_slice (hk : k.Ok size) {L j r c : ℕ} (hj : j < L) (hr : r < n) (hc : c < k.dim j) :
    (items k (fun _ => List.range n) (List.range L))[pos k n (j, r, c)]? = some (j, r, c) := by
  have hm : (j, r, c) ∈ items k (fun _ => List.range n) (List.range L) := mem_items.2 ⟨List.mem_range.2 hj, List.mem_range.2 hr, hc⟩
  obtain ⟨t, ht, he⟩ := List.getElem_of_mem hm
  have h5 := congrArg (fun l => l[t]?) (map_pos_full' (n := n) hk L)
  simp only [List.getElem?_map, List.getElem?_eq_getElem ht, he, Option.map_some, List.getElem?_range ht] at h5
  rw [Option.some.inj h5, List.getElem?_eq_getElem ht, he]

/-- The slice of the mask at the place of subspace `(j, r)`. -/
theorem sliceAll_eq (hk : k.Ok size) {L n : ℕ} {filter : Option (ℕ × ℕ → ℕ → Bool)} {b : Shells} (h : init k size L n filter = .ok b) {j r : ℕ} (hj : j < L + 1) (hr : r < n) :
    b.sliceAll (k.first j * n + r * k.dim j) (k.dim j) = keep k filter j r := by
  obtain ⟨-, -, -, -, -, -, h4, -, -, -⟩ := init_spec hk h
  rw [sliceAll, h4]
  cases filter with
  | none => rfl
  | some f =>
    simp only [Option.map_some]
    have hsl : ((items k (fun _ => List.range n) (List.range (L + 1))).drop (k.first j * n + r * k.dim j)).take (k.dim j) = (List.range (k.dim j)).map fun c => (j, r, c) := by
      refine List.ext_getElem? fun c => ?_
      rw [List.getElem?_take, List.getElem?_drop, List.getElem?_map]
      by_cases hc : c < k.dim j
      · rw [if_pos hc, List.getElem?_range hc]
        have := full_slice (n := n) hk hj hr hc
        rw [pos, ← Nat.add_assoc] at this
        exact this
      · rw [if_neg hc, List.getElem?_eq_none (by simpa using hc)]
        rfl
    rw [← List.map_drop, ← List.map_take, hsl, List.map_map]
    have hd := hk.pos j
    cases hb : f (k.id j) r
    · simp only [keep, hb]
      rw [List.all_eq_false]
      exact ⟨false, List.mem_map.2 ⟨0, List.mem_range.2 hd, by simp [Function.comp, hb]⟩, by simp⟩
    · simp [keep, hb, Function.comp_def]

theorem stJ_eq (b : Shells) (R : ℕ → List ℕ) (hfirst : ∀ j, b.kind.first (j + 1) = b.kind.first j + b.kind.dim j) : ∀ (m j₀ idx : ℕ),
    (∀ j, j₀ ≤ j → j < j₀ + m → ∃ q, R j = (List.range b.n).filter q ∧ ∀ r < b.n, b.sliceAll (b.kind.first j * b.n + r * b.kind.dim j) (b.kind.dim j) = q r) →
    stJ b ((List.range m).map (j₀ + ·)) idx (b.kind.first j₀ * b.n) = ((sItems R ((List.range m).map (j₀ + ·))).zipIdx idx).map fun e => ⟨e.2, e.1.2, b.kind.id e.1.1, some e.1.2⟩
  | 0, _, _, _ => by simp [stJ, sItems]
  | m + 1, j₀, idx, h => by
    have hr : (List.range (m + 1)).map (j₀ + ·) = j₀ :: (List.range m).map (j₀ + 1 + ·) := by
      rw [List.range_succ_eq_map, List.map_cons, List.map_map]
      congr 1
      refine List.map_congr_left fun i _ => ?_
      simp only [Function.comp]; omega
    obtain ⟨q, hR, hq⟩ := h j₀ le_rfl (by omega)
    rw [hr, stJ]
    simp only [stR_eq b j₀ (b.kind.first j₀ * b.n) q idx b.n hq]
    have e1 : b.kind.first j₀ * b.n + b.n * b.kind.dim j₀ = b.kind.first (j₀ + 1) * b.n := by rw [hfirst]; ring
    rw [e1, stJ_eq b R hfirst m (j₀ + 1) _ fun j a c => h j (by omega) (by omega)]
    have e2 : sItems R (j₀ :: (List.range m).map (j₀ + 1 + ·)) = ((List.range b.n).filter q).map (fun r => (j₀, r)) ++ sItems R ((List.range m).map (j₀ + 1 + ·)) := by
      simp only [sItems, List.flatMap_cons, hR]
    rw [e2, List.zipIdx_append, List.map_append, List.length_map, List.zipIdx_map, List.map_map]
    rfl

theorem steerableAttrsIter_spec (hk : k.Ok size) {L n : ℕ} {filter : Option (ℕ × ℕ → ℕ → Bool)} {b : Shells} (h : init k size L n filter = .ok b) :
    b.steerableAttrsIter = ((sItems (kept k n filter) (List.range (L + 1))).zipIdx).map fun e => ⟨e.2, e.1.2, k.id e.1.1, some e.1.2⟩ := by
  obtain ⟨h1, h2, h3, -⟩ := init_spec hk h
  have := stJ_eq b (kept k n filter) (by rw [h1]; exact hk.succ) (L + 1) 0 0 (fun j _ hj => ⟨keep k filter j, by rw [kept_eq, h3], fun r hr => by
    rw [h1, h3]; rw [h3] at hr; exact sliceAll_eq hk h (by omega) hr⟩)
  rw [steerableAttrsIter, h2]
  have hz : (List.range (L + 1)).map (0 + ·) = List.range (L + 1) := by simp
  rw [hz, h1, hk.zero, zero_mul] at this
  exact this

end Shells

end Escnn
