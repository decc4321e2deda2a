import Verif.Model.Sequential
import Verif.Lemmas.Fields
import Verif.Props.C26_SplitSlice
import Std.Data.String.ToNat

/-!
# C30: sequential modules
-/

namespace Escnn.Seq

variable {X T Sh : Type} {eqT : T → T → Prop} {attr : String → Bool} {typeOf : X → T}

/-- Consecutive modules have matching types. -/
def Matching (eqT : T → T → Prop) (ms : List (SMod X T Sh)) : Prop := ∀ (i : ℕ) (a b : SMod X T Sh), ms[i]? = some a → ms[i + 1]? = some b → eqT b.inType a.outType

/-- Names which `torch.nn.Module.add_module` accepts. -/
def GoodName (attr : String → Bool) (n : String) : Prop := attr n = false ∧ '.' ∉ n.toList ∧ n ≠ ""

theorem matching_cons {a b : SMod X T Sh} {ms : List (SMod X T Sh)} : Matching eqT (a :: b :: ms) ↔ eqT b.inType a.outType ∧ Matching eqT (b :: ms) := by
  constructor
  · intro h
    exact ⟨h 0 a b rfl rfl, fun i x y h1 h2 => h (i + 1) x y h1 h2⟩
  · rintro ⟨h1, h2⟩ i x y hx hy
    cases i with
    | zero =>
      simp only [List.getElem?_cons_zero, Option.some.injEq] at hx
      simp only [Nat.zero_add, List.getElem?_cons_succ, List.getElem?_cons_zero, Option.some.injEq] at hy
      subst hx; subst hy
      exact h1
    | succ i => exact h2 i x y (by simpa using hx) (by simpa using hy)

theorem dictSet_new {V : Type} {k : String} {v : V} {d : List (String × V)} (h : k ∉ d.map Prod.fst) : dictSet k v d = d ++ [(k, v)] := by
  induction d with
  | nil => rfl
  | cons a d ih =>
    simp only [List.map_cons, List.mem_cons, not_or] at h
    rw [dictSet, if_neg (Ne.symm h.1), ih h.2]
    rfl

/-- The invariant of the objects: the types are those of the first and of the last module, and `None` if there is none. -/
def Inv (s : Seq X T Sh) : Prop := s.inType = s.iter.head?.map SMod.inType ∧ s.outType = s.iter.getLast?.map SMod.outType

theorem addModule_spec {s : Seq X T Sh} (hs : Inv s) {n : String} (hn : GoodName attr n) (hnew : n ∉ s.mods.map Prod.fst) (m : SMod X T Sh) :
    (∀ a ∈ s.iter.getLast?, eqT m.inType a.outType) → ∃ s', addModule eqT attr s n m = .ok s' ∧ s'.mods = s.mods ++ [(n, m)] ∧ Inv s' := by
  intro h
  have ht : torchAdd attr s n m = .ok (s.mods ++ [(n, m)]) := by
    rw [torchAdd, if_neg, dictSet_new hnew]
    rintro (h | h | h)
    · rw [hn.1] at h; cases h
    · exact hn.2.1 (by simpa using h)
    · exact hn.2.2 h
  unfold addModule
  obtain ⟨h1, h2⟩ := hs
  by_cases h0 : s.mods = []
  · rw [if_pos (by simp [h0]), if_neg (by rw [h1, h2]; simp [iter, h0]), ht]
    exact ⟨_, rfl, rfl, by simp [iter, h0], by simp [iter, h0]⟩
  · rw [if_neg (by simpa using h0)]
    have hne : s.iter ≠ [] := by simpa [iter] using h0
    have hl := List.getLast?_eq_some_getLast hne
    rw [hl] at h2
    rw [h2]
    simp only [Option.map_some]
    rw [if_pos (h _ (by rw [hl]; simp)), ht]
    refine ⟨_, rfl, rfl, ?_, by simp [iter]⟩
    rw [h1]
    simp only [iter, List.map_append]
    rw [List.head?_append_of_ne_nil]
    simpa using h0

theorem addModule_rejects {s : Seq X T Sh} (hs : Inv s) (n : String) (m : SMod X T Sh) (a : SMod X T Sh) (ha : s.iter.getLast? = some a)
    (h : ¬ eqT m.inType a.outType) : addModule eqT attr s n m = .error .assertion := by
  unfold addModule
  have hne : s.mods ≠ [] := by
    intro h0
    simp [iter, h0] at ha
  rw [if_neg (by simpa using hne), hs.2, ha]
  simp only [Option.map_some]
  rw [if_neg h]

theorem addAll_spec (d : List (String × SMod X T Sh)) (s : Seq X T Sh) (hs : Inv s) (hn : ∀ p ∈ d, GoodName attr p.1)
    (hnd : ((s.mods ++ d).map Prod.fst).Nodup) :
    ((∃ s', addAll eqT attr s d = .ok s') ↔ Matching eqT ((s.iter.getLast?).toList ++ d.map Prod.snd)) ∧
    ∀ s', addAll eqT attr s d = .ok s' → s'.mods = s.mods ++ d ∧ Inv s' := by
  induction d generalizing s with
  | nil =>
    refine ⟨⟨fun _ i a b h1 h2 => ?_, fun _ => ⟨s, rfl⟩⟩, fun s' h => ?_⟩
    · have := (List.getElem?_eq_some_iff.1 h2).1
      cases hh : s.iter.getLast? <;> simp [hh] at this
    · simp only [addAll, Except.ok.injEq] at h
      subst h
      simp [hs]
  | cons p d ih =>
    obtain ⟨n, m⟩ := p
    have hnew : n ∉ s.mods.map Prod.fst := by
      intro hmem
      rw [List.map_append, List.map_cons] at hnd
      exact (List.nodup_append.1 hnd).2.2 n hmem n (by simp) rfl
    by_cases hm : ∀ a ∈ s.iter.getLast?, eqT m.inType a.outType
    · obtain ⟨s1, e1, e2, e3⟩ := addModule_spec (eqT := eqT) hs (hn (n, m) (by simp)) hnew m hm
      have hl : s1.iter.getLast? = some m := by simp [iter, e2]
      obtain ⟨g1, g2⟩ := ih s1 e3 (fun p hp => hn p (List.mem_cons_of_mem _ hp)) (by rw [e2]; simpa using hnd)
      rw [hl] at g1
      have hrun : addAll eqT attr s ((n, m) :: d) = addAll eqT attr s1 d := by
        rw [addAll, e1]; rfl
      rw [hrun]
      refine ⟨?_, fun s' h => ?_⟩
      · rw [g1]
        cases hh : s.iter.getLast? with
        | none => simp
        | some a =>
          simp only [Option.toList_some, List.map_cons, List.cons_append, List.nil_append]
          rw [matching_cons]
          have := hm a (by rw [hh]; simp)
          tauto
      · obtain ⟨h1, h2⟩ := g2 s' h
        refine ⟨by rw [h1, e2]; simp, h2⟩
    · push Not at hm
      obtain ⟨a, ha, hna⟩ := hm
      have ha : s.iter.getLast? = some a := ha
      have hrej := addModule_rejects (attr := attr) hs n m a ha hna
      have hrun : addAll eqT attr s ((n, m) :: d) = .error .assertion := by rw [addAll, hrej]; rfl
      rw [hrun]
      refine ⟨⟨fun ⟨s', h⟩ => by simp at h, fun h => ?_⟩, fun s' h => by simp at h⟩
      rw [ha] at h
      simp only [Option.toList_some, List.map_cons, List.cons_append, List.nil_append] at h
      exact absurd (matching_cons.1 h).1 hna

/-- What holds for every `SequentialModule` which the constructor returns: see `Inv`; moreover the names are distinct and valid. -/
structure Good (attr : String → Bool) (s : Seq X T Sh) : Prop where
  inv : Inv s
  names : ∀ p ∈ s.mods, GoodName attr p.1
  nodup : (s.mods.map Prod.fst).Nodup

theorem goodName_nat (hattr : ∀ n : ℕ, attr (toString n) = false) (n : ℕ) : GoodName attr (toString n) := by
  refine ⟨hattr n, fun h => ?_, fun h => ?_⟩
  · have h : '.' ∈ (Nat.repr n).toList := h
    rw [Nat.repr] at h
    have := Nat.isDigit_of_mem_toDigits (b := 10) (n := n) (by norm_num) (by norm_num) (by simpa using h)
    exact absurd this (by decide)
  · have h : Nat.repr n = "" := h
    have h2 := congrArg String.toList h
    rw [Nat.repr] at h2
    simp at h2

theorem positions_nodup (ms : List (SMod X T Sh)) : ((ms.zipIdx.map fun mi => (toString mi.2, mi.1)).map Prod.fst).Nodup := by
  have e : (ms.zipIdx.map fun mi => (toString mi.2, mi.1)).map Prod.fst = (List.range' 0 ms.length).map fun n : ℕ => toString n := by
    rw [List.map_map, ← List.zipIdx_map_snd 0 ms, List.map_map]
    rfl
  rw [e]
  exact List.Nodup.map (fun a b h => Nat.repr_injective h) (List.nodup_range' ..)

theorem ofDict_spec (d : List (String × SMod X T Sh)) (hn : ∀ p ∈ d, GoodName attr p.1) (hnd : (d.map Prod.fst).Nodup) :
    ((∃ s, ofDict eqT attr d = .ok s) ↔ Matching eqT (d.map Prod.snd)) ∧
    ∀ s, ofDict eqT attr d = .ok s → s.mods = d ∧ Good attr s := by
  have h := addAll_spec (eqT := eqT) (attr := attr) d ⟨[], none, none⟩ ⟨rfl, rfl⟩ hn (by simpa using hnd)
  refine ⟨by unfold ofDict; simpa [iter] using h.1, fun s hs => ?_⟩
  obtain ⟨h1, h2⟩ := h.2 s hs
  have h1 : s.mods = d := by simpa using h1
  exact ⟨h1, h2, by rw [h1]; exact hn, by rw [h1]; exact hnd⟩

/-- The constructor succeeds exactly when consecutive types match; the object then holds the given modules in the given order, and its
types are those of the first and of the last one. -/
theorem C30_init (hattr : ∀ n : ℕ, attr (toString n) = false) (ms : List (SMod X T Sh)) :
    ((∃ s, init eqT attr ms = .ok s) ↔ Matching eqT ms) ∧
    ∀ s, init eqT attr ms = .ok s → s.iter = ms ∧ s.len = ms.length ∧ s.inType = ms.head?.map SMod.inType ∧
      s.outType = ms.getLast?.map SMod.outType ∧ s.mods.map Prod.fst = (List.range ms.length).map (fun n : ℕ => toString n) ∧ Good attr s := by
  have hsnd : (ms.zipIdx.map fun mi => (toString mi.2, mi.1)).map Prod.snd = ms := by
    rw [List.map_map]
    exact List.zipIdx_map_fst 0 ms
  have h := ofDict_spec (eqT := eqT) (attr := attr) (ms.zipIdx.map fun mi => (toString mi.2, mi.1))
    (by
      intro p hp
      obtain ⟨mi, -, rfl⟩ := List.mem_map.1 hp
      exact goodName_nat hattr _) (positions_nodup ms)
  rw [hsnd] at h
  refine ⟨h.1, fun s hs => ?_⟩
  obtain ⟨h1, h2⟩ := h.2 s hs
  have hi : s.iter = ms := by rw [iter, h1, hsnd]
  refine ⟨hi, by simp [len, h1], by rw [h2.inv.1, hi], by rw [h2.inv.2, hi], ?_, h2⟩
  rw [h1, List.map_map, List.range_eq_range', ← List.zipIdx_map_snd 0 ms, List.map_map]
  rfl

/-- Applying a list of modules one after the other. -/
inductive Runs : List (SMod X T Sh) → X → X → Prop
  | nil (x : X) : Runs [] x x
  | cons {m : SMod X T Sh} {ms : List (SMod X T Sh)} {x y z : X} : m.forward x = .ok y → Runs ms y z → Runs (m :: ms) x z

theorem run_iff (ms : List (SMod X T Sh)) (x z : X) : run ms x = .ok z ↔ Runs ms x z := by
  induction ms generalizing x with
  | nil =>
    constructor
    · intro h
      cases h
      exact .nil _
    · rintro ⟨⟩
      rfl
  | cons m ms ih =>
    simp only [run, bind, Except.bind]
    constructor
    · intro h
      split at h
      · cases h
      · rename_i y hy
        exact .cons hy ((ih y).1 h)
    · intro h
      cases h with
      | cons h1 h2 =>
        rw [h1]
        exact (ih _).2 h2

/-- A module which accepts the tensors of its input type and returns tensors of its output type. -/
structure Typed (eqT : T → T → Prop) (typeOf : X → T) (m : SMod X T Sh) : Prop where
  accepts : ∀ x, eqT (typeOf x) m.inType → ∃ y, m.forward x = .ok y
  returns : ∀ x y, m.forward x = .ok y → typeOf y = m.outType

theorem Runs.typeOf_last {ms : List (SMod X T Sh)} {x z : X} (h : Runs ms x z) (ht : ∀ m ∈ ms, ∀ x y, m.forward x = .ok y → typeOf y = m.outType) :
    ∀ m ∈ ms.getLast?, typeOf z = m.outType := by
  induction h with
  | nil x => simp
  | @cons m ms x y z h1 h2 ih =>
    intro a ha
    cases ms with
    | nil =>
      cases h2
      have : a = m := by simpa [eq_comm] using ha
      subst this
      exact ht a (by simp) _ _ h1
    | cons b ms => exact ih (fun m hm => ht m (List.mem_cons_of_mem _ hm)) a (by simpa using ha)

theorem Runs.exists_of_matching (hsym : ∀ a b, eqT a b → eqT b a) {ms : List (SMod X T Sh)} (hm : Matching eqT ms) (ht : ∀ m ∈ ms, Typed eqT typeOf m) (x : X)
    (hx : ∀ m ∈ ms.head?, eqT (typeOf x) m.inType) : ∃ z, Runs ms x z := by
  induction ms generalizing x with
  | nil => exact ⟨x, .nil x⟩
  | cons m ms ih =>
    obtain ⟨y, hy⟩ := (ht m (by simp)).accepts x (hx m (by simp))
    have hy' := (ht m (by simp)).returns x y hy
    obtain ⟨z, hz⟩ := ih (fun i a b h1 h2 => hm (i + 1) a b (by simpa using h1) (by simpa using h2)) (fun m hm => ht m (List.mem_cons_of_mem _ hm)) y (by
      intro b hb
      rw [hy']
      exact hsym _ _ (hm 0 m b rfl (by simpa [List.head?_eq_getElem?] using hb)))
    exact ⟨z, .cons hy hz⟩

/-- The output of a `SequentialModule` is that of its modules applied in order; inputs of another type are rejected, and so are all
inputs when there is no module. -/
theorem C30_forward (hrefl : ∀ t, eqT t t) {s : Seq X T Sh} (hs : Inv s) (ht : ∀ m ∈ s.iter, ∀ x y, m.forward x = .ok y → typeOf y = m.outType) (x z : X) :
    s.forward eqT typeOf x = .ok z ↔ ∃ m, s.iter.head? = some m ∧ eqT (typeOf x) m.inType ∧ Runs s.iter x z := by
  unfold forward
  by_cases h : ∃ t, s.inType = some t ∧ eqT (typeOf x) t
  · rw [if_pos h]
    obtain ⟨t, h1, h2⟩ := h
    rw [hs.1] at h1
    obtain ⟨m, hm, rfl⟩ := Option.map_eq_some_iff.1 h1
    simp only [bind, Except.bind]
    constructor
    · intro hz
      split at hz
      · cases hz
      · rename_i y hy
        split at hz
        · cases hz
          exact ⟨m, hm, h2, (run_iff _ _ _).1 hy⟩
        · cases hz
    · rintro ⟨m', hm', -, hr⟩
      rw [(run_iff _ _ _).2 hr]
      simp only
      rw [if_pos]
      have hne : s.iter ≠ [] := by rintro h0; rw [h0] at hm; cases hm
      have hl := List.getLast?_eq_some_getLast hne
      refine ⟨(s.iter.getLast hne).outType, by rw [hs.2, hl]; rfl, ?_⟩
      rw [hr.typeOf_last ht _ hl]
      exact hrefl _
  · rw [if_neg h]
    constructor
    · intro h; cases h
    · rintro ⟨m, h1, h2, -⟩
      exact absurd ⟨m.inType, by rw [hs.1, h1]; rfl, h2⟩ h

/-- On an input of its type, a `SequentialModule` built from modules returns the composition, of its output type. -/
theorem C30_composition (hrefl : ∀ t, eqT t t) (hsym : ∀ a b, eqT a b → eqT b a) (hattr : ∀ n : ℕ, attr (toString n) = false) (m : SMod X T Sh) (ms : List (SMod X T Sh))
    (hm : Matching eqT (m :: ms)) (ht : ∀ a ∈ m :: ms, Typed eqT typeOf a) :
    ∃ s, init eqT attr (m :: ms) = .ok s ∧ ∀ x, eqT (typeOf x) m.inType → ∃ z, s.forward eqT typeOf x = .ok z ∧ Runs (m :: ms) x z ∧
      typeOf z = ((m :: ms).getLast (by simp)).outType := by
  obtain ⟨h1, h2⟩ := C30_init (eqT := eqT) hattr (m :: ms)
  obtain ⟨s, hs⟩ := h1.2 hm
  obtain ⟨e1, -, -, -, -, hg⟩ := h2 s hs
  refine ⟨s, hs, fun x hx => ?_⟩
  obtain ⟨z, hz⟩ := Runs.exists_of_matching hsym hm ht x (by intro a ha; have : a = m := by simpa [eq_comm] using ha
                                                             subst this; exact hx)
  refine ⟨z, ?_, hz, ?_⟩
  · rw [C30_forward hrefl hg.inv (by rw [e1]; exact fun a ha => (ht a ha).returns)]
    exact ⟨m, by rw [e1]; rfl, hx, by rw [e1]; exact hz⟩
  · exact hz.typeOf_last (fun a ha => (ht a ha).returns) _ (List.getLast?_eq_some_getLast (by simp))

/-- A module is equivariant for a relation "`x'` is the transform of `x`". -/
def Equivariant (act : X → X → Prop) (m : SMod X T Sh) : Prop := ∀ x x' y, act x x' → m.forward x = .ok y → ∃ y', m.forward x' = .ok y' ∧ act y y'

/-- The composition of equivariant modules is equivariant. -/
theorem C30_equivariant (hrefl : ∀ t, eqT t t) {s : Seq X T Sh} (hs : Inv s) (ht : ∀ m ∈ s.iter, ∀ x y, m.forward x = .ok y → typeOf y = m.outType)
    (act : X → X → Prop) (hact : ∀ x x', act x x' → typeOf x' = typeOf x) (he : ∀ m ∈ s.iter, Equivariant act m) (x x' z : X) (hx : act x x')
    (hz : s.forward eqT typeOf x = .ok z) : ∃ z', s.forward eqT typeOf x' = .ok z' ∧ act z z' := by
  rw [C30_forward hrefl hs ht] at hz
  obtain ⟨m, h1, h2, h3⟩ := hz
  have key : ∀ ms : List (SMod X T Sh), (∀ m ∈ ms, Equivariant act m) → ∀ x x' z, act x x' → Runs ms x z → ∃ z', Runs ms x' z' ∧ act z z' := by
    intro ms
    induction ms with
    | nil =>
      intro _ x x' z hx hr
      cases hr
      exact ⟨x', .nil x', hx⟩
    | cons m ms ih =>
      intro he x x' z hx hr
      cases hr with
      | cons a b =>
        obtain ⟨y', c, d⟩ := he m (by simp) _ _ _ hx a
        obtain ⟨z', e, f⟩ := ih (fun m hm => he m (List.mem_cons_of_mem _ hm)) _ _ _ d b
        exact ⟨z', .cons c e, f⟩
  obtain ⟨z', h4, h5⟩ := key s.iter he x x' z hx h3
  refine ⟨z', ?_, h5⟩
  rw [C30_forward hrefl hs ht]
  exact ⟨m, h1, by rw [hact x x' hx]; exact h2, h4⟩

/-- The predicted output shape is obtained by asking every module in order. -/
theorem C30_outShape (a b : List (SMod X T Sh)) (sh : Sh) : outShape (a ++ b) sh = outShape a sh >>= outShape b := by
  induction a generalizing sh with
  | nil => rfl
  | cons m a ih =>
    simp only [List.cons_append, outShape, bind, Except.bind] at ih ⊢
    cases m.outShape sh with
    | error e => rfl
    | ok v => exact ih v

theorem find_eq (ms : List (SMod X T Sh)) (i : ℕ) (idx : ℕ) (h1 : i ≤ idx) (h2 : idx < i + ms.length) : ∃ m, ms[idx - i]? = some m ∧ find (idx : ℤ) i ms = .ok m := by
  induction ms generalizing i with
  | nil => simp at h2; omega
  | cons m ms ih =>
    rw [find]
    by_cases h : i = idx
    · exact ⟨m, by simp [h], by rw [if_pos (by exact_mod_cast h)]⟩
    · obtain ⟨a, ha, hb⟩ := ih (i + 1) (by omega) (by simp at h2; omega)
      refine ⟨a, ?_, by rw [if_neg (by exact_mod_cast h)]; exact hb⟩
      have : idx - i = (idx - (i + 1)) + 1 := by omega
      rw [this]
      simpa using ha

/-- Indexing by an integer is Python's indexing of the list of modules, with an assertion error in place of the index error. -/
theorem C30_index (s : Seq X T Sh) (i : ℤ) :
    (∀ m, s.getInt i = .ok m ↔ pyGet s.iter i = .ok m) ∧ (s.getInt i = .error .assertion ↔ pyGet s.iter i = .error .index) := by
  have hl : s.iter.length = s.len := by simp [iter, len]
  unfold getInt pyGet
  rw [hl]
  by_cases h : -(s.len : ℤ) ≤ i ∧ i < s.len
  · rw [if_pos h]
    have hpos : 0 < (s.len : ℤ) := by omega
    have hmod : i % s.len = if 0 ≤ i then i else i + s.len := by
      split_ifs with h0
      · exact Int.emod_eq_of_lt h0 h.2
      · rw [← Int.add_emod_right]
        exact Int.emod_eq_of_lt (by omega) (by omega)
    obtain ⟨k, hk⟩ : ∃ k : ℕ, i % s.len = k := ⟨(i % s.len).toNat, by rw [Int.toNat_of_nonneg (Int.emod_nonneg _ (by omega))]⟩
    obtain ⟨m, hm1, hm2⟩ := find_eq s.iter 0 k (by omega) (by
      have := Int.emod_lt_of_pos i hpos
      omega)
    rw [hk, hm2]
    have e : (if 0 ≤ i then s.iter[i.toNat]? else if 0 ≤ i + s.len then s.iter[(i + s.len).toNat]? else none) = some m := by
      rw [hk] at hmod
      split_ifs at hmod ⊢ with h0 h1
      · rw [← hmod]; simpa using hm1
      · rw [← hmod]; simpa using hm1
      · omega
    rw [e]
    simp
  · rw [if_neg h]
    have e : (if 0 ≤ i then s.iter[i.toNat]? else if 0 ≤ i + s.len then s.iter[(i + s.len).toNat]? else none) = none := by
      split_ifs with h0 h1
      · rw [List.getElem?_eq_none]; omega
      · rw [List.getElem?_eq_none]; omega
      · rfl
    rw [e]
    simp

theorem sliceIdx_nodup {n : ℕ} {start stop step : Option ℤ} {I : List ℕ} (h : sliceIdx n start stop step = .ok I) : I.Nodup := by
  unfold sliceIdx at h
  simp only at h
  have hc : ∀ i, 0 ≤ clampUp n i := by intro i; unfold clampUp; split_ifs <;> omega
  have hd : ∀ i, -1 ≤ clampDown n i := by intro i; unfold clampDown; split_ifs <;> omega
  have ha : 0 ≤ (start.map (clampUp n)).getD 0 := by
    cases start with
    | none => simp
    | some i => simpa using hc i
  have hb : -1 ≤ (stop.map (clampDown n)).getD (-1) := by
    cases stop with
    | none => simp
    | some i => simpa using hd i
  generalize step.getD 1 = k at h
  split_ifs at h with h0 h1
  · cases h
    generalize (start.map (clampUp n)).getD 0 = a at *
    refine List.Nodup.map_on ?_ List.nodup_range
    intro i _ j _ hij
    have h2 : (0 : ℤ) ≤ i * k := by positivity
    have h3 : (0 : ℤ) ≤ j * k := by positivity
    have h4 : (i : ℤ) * k = j * k := by omega
    exact_mod_cast mul_right_cancel₀ h0 h4
  · cases h
    generalize (start.map (clampDown n)).getD (n - 1) = a at *
    generalize (stop.map (clampDown n)).getD (-1) = b at *
    refine List.Nodup.map_on ?_ List.nodup_range
    have hk : 0 < -k := by omega
    have key : ∀ j : ℕ, j ∈ List.range ((a - b + -k - 1) / -k).toNat → 0 ≤ a + j * k := by
      intro j hj
      rw [List.mem_range] at hj
      have h2 : (j : ℤ) + 1 ≤ (a - b + -k - 1) / -k := by omega
      rw [Int.le_ediv_iff_mul_le hk] at h2
      have h4 : (j : ℤ) * (-k) + -k ≤ a - b + -k - 1 := by linarith
      have e : a + j * k = a - j * (-k) := by ring
      rw [e]; omega
    intro i hi j hj hij
    have h2 := key i hi
    have h3 := key j hj
    have h4 : (i : ℤ) * k = j * k := by omega
    exact_mod_cast mul_right_cancel₀ h0 h4

theorem pySlice_map {α β : Type} (f : α → β) (L : List α) (start stop step : Option ℤ) :
    pySlice (L.map f) start stop step = (pySlice L start stop step).map (List.map f) := by
  unfold pySlice
  rw [List.length_map]
  cases sliceIdx L.length start stop step with
  | error e => rfl
  | ok I =>
    simp only [Except.map, List.map_filterMap, Except.ok.injEq]
    congr 1
    funext i
    simp

theorem pySlice_nodup {α : Type} {L D : List α} (hL : L.Nodup) {start stop step : Option ℤ} (h : pySlice L start stop step = .ok D) : D.Nodup := by
  unfold pySlice at h
  cases hI : sliceIdx L.length start stop step with
  | error e => rw [hI] at h; cases h
  | ok I =>
    rw [hI] at h
    cases h
    refine List.Nodup.filterMap ?_ (sliceIdx_nodup hI)
    intro i j b hi hj
    obtain ⟨h1, h2⟩ := List.getElem?_eq_some_iff.1 hi
    obtain ⟨h3, h4⟩ := List.getElem?_eq_some_iff.1 hj
    exact (List.Nodup.getElem_inj_iff hL).1 (h2.trans h4.symm)

/-- A slice of a `SequentialModule` is defined when consecutive modules of the sliced list match, and holds exactly Python's slice of
the list of modules.  It satisfies `Good` again, so it can be sliced, indexed and called further. -/
theorem C30_slice {s : Seq X T Sh} (hs : Good attr s) (start stop step : Option ℤ) :
    (∀ D, pySlice s.iter start stop step = .ok D → ((∃ s', s.getSlice eqT attr start stop step = .ok s') ↔ Matching eqT D) ∧
      ∀ s', s.getSlice eqT attr start stop step = .ok s' → s'.iter = D ∧ Good attr s') ∧
    (∀ e, pySlice s.iter start stop step = .error e → s.getSlice eqT attr start stop step = .error e) := by
  unfold getSlice
  rw [iter, pySlice_map]
  cases hd : pySlice s.mods start stop step with
  | error e => exact ⟨fun D h => by simp [Except.map] at h, fun e' h => by simpa [Except.map, bind, Except.bind] using h⟩
  | ok d =>
    refine ⟨fun D h => ?_, fun e h => by simp [Except.map] at h⟩
    simp only [Except.map, Except.ok.injEq] at h
    subst h
    have hn : ∀ p ∈ d, GoodName attr p.1 := by
      unfold pySlice at hd
      split at hd
      · cases hd
      · cases hd
        intro p hp
        obtain ⟨i, -, hi⟩ := List.mem_filterMap.1 hp
        exact hs.names p (List.mem_of_getElem? hi)
    have hnd : (d.map Prod.fst).Nodup := by
      refine pySlice_nodup hs.nodup (start := start) (stop := stop) (step := step) ?_
      rw [pySlice_map, hd]
      rfl
    obtain ⟨h1, h2⟩ := ofDict_spec (eqT := eqT) (attr := attr) d hn hnd
    refine ⟨h1, fun s' h' => ?_⟩
    obtain ⟨h3, h4⟩ := h2 s' h'
    exact ⟨by rw [iter, h3], h4⟩

/-- Appending to a `SequentialModule` built from modules is building it from the longer list. -/
theorem C30_append (hattr : ∀ n : ℕ, attr (toString n) = false) (ms : List (SMod X T Sh)) (s : Seq X T Sh) (hs : init eqT attr ms = .ok s) (m : SMod X T Sh) :
    s.append eqT attr m = init eqT attr (ms ++ [m]) := by
  have hlen : s.len = ms.length := ((C30_init (eqT := eqT) hattr ms).2 s hs).2.1
  have key : ∀ (d : List (String × SMod X T Sh)) (p : String × SMod X T Sh) (s0 s1 : Seq X T Sh), addAll eqT attr s0 d = .ok s1 →
      addAll eqT attr s0 (d ++ [p]) = addModule eqT attr s1 p.1 p.2 := by
    intro d p
    induction d with
    | nil =>
      intro s0 s1 h
      cases h
      simp only [List.nil_append, addAll, bind, Except.bind]
      split <;> simp_all
    | cons q d ih =>
      intro s0 s1 h
      simp only [List.cons_append, addAll, bind, Except.bind] at h ⊢
      split at h
      · cases h
      · exact ih _ _ h
  unfold append init
  rw [List.zipIdx_append, List.map_append]
  simp only [List.zipIdx_cons, List.zipIdx_nil, List.map_cons, List.map_nil, Nat.zero_add]
  rw [key _ _ _ _ hs, hlen]

/-- The part of "`append` extends the list of modules" which holds: the name `str(len)` must not be taken.  It is free for objects built
from modules (`C30_append`), but not for slices (`C30_append_violated`). -/
theorem C30_append_partial {s : Seq X T Sh} (hs : Good attr s) (hattr : ∀ n : ℕ, attr (toString n) = false) (hfree : toString s.len ∉ s.mods.map Prod.fst) (m : SMod X T Sh) :
    ((∃ s', s.append eqT attr m = .ok s') ↔ Matching eqT (s.iter.getLast?.toList ++ [m])) ∧
    ∀ s', s.append eqT attr m = .ok s' → s'.iter = s.iter ++ [m] ∧ Good attr s' := by
  have hg := goodName_nat hattr s.len
  have h := addAll_spec (eqT := eqT) (attr := attr) [(toString s.len, m)] s hs.inv (by simpa using hg) (by
    rw [List.map_append, List.nodup_append]
    refine ⟨hs.nodup, by simp, ?_⟩
    intro a ha b hb
    have : b = toString s.len := by simpa using hb
    rintro rfl
    exact hfree (this ▸ ha))
  have e : addAll eqT attr s [(toString s.len, m)] = s.append eqT attr m := by
    simp only [addAll, append, bind, Except.bind]
    split <;> simp_all
  rw [e] at h
  refine ⟨by simpa using h.1, fun s' h' => ?_⟩
  obtain ⟨h1, h2⟩ := h.2 s' h'
  refine ⟨by simp [iter, h1], h2, ?_, ?_⟩
  · rw [h1]
    intro p hp
    rcases List.mem_append.1 hp with hp | hp
    · exact hs.names p hp
    · have : p = (toString s.len, m) := by simpa using hp
      rw [this]; exact hg
  · rw [h1, List.map_append, List.nodup_append]
    refine ⟨hs.nodup, by simp, ?_⟩
    intro a ha b hb
    have : b = toString s.len := by simpa using hb
    rintro rfl
    exact hfree (this ▸ ha)

/-- A module on natural numbers adding `n`. -/
def addMod (n : ℕ) : SMod ℕ Unit Unit := ⟨(), (), fun x => .ok (x + n), fun s => .ok s⟩

/-- `append` after slicing replaces a module instead of adding one: with `s = SequentialModule(a, b, c)`, `t = s[1:]` holds `b, c` under
the names `1, 2`, and `t.append(d)` holds `b, d`. -/
theorem C30_append_violated : ∃ s t u : Seq ℕ Unit Unit, init (fun _ _ => True) (fun _ => false) [addMod 1, addMod 2, addMod 3] = .ok s ∧
    s.getSlice (fun _ _ => True) (fun _ => false) (some 1) none none = .ok t ∧ t.iter = [addMod 2, addMod 3] ∧
    t.append (fun _ _ => True) (fun _ => false) (addMod 4) = .ok u ∧ u.iter = [addMod 2, addMod 4] := by
  have h1 : Nat.repr 1 = "1" := by decide
  have h2 : Nat.repr 2 = "2" := by decide
  have h0 : Nat.repr 0 = "0" := by decide
  refine ⟨⟨[("0", addMod 1), ("1", addMod 2), ("2", addMod 3)], some (), some ()⟩, ⟨[("1", addMod 2), ("2", addMod 3)], some (), some ()⟩,
    ⟨[("1", addMod 2), ("2", addMod 4)], some (), some ()⟩, ?_, ?_, rfl, ?_, rfl⟩
  · have e : ([addMod 1, addMod 2, addMod 3].zipIdx.map fun mi => (toString mi.2, mi.1)) = [("0", addMod 1), ("1", addMod 2), ("2", addMod 3)] := by
      simp only [List.zipIdx, List.map_cons, List.map_nil, toString, h0, h1, h2]
    rw [init, e]
    simp [addAll, addModule, torchAdd, dictSet, bind, Except.bind, addMod]
  · have hs : sliceIdx 3 (some 1) none none = .ok [1, 2] := by decide
    simp [getSlice, pySlice, hs, ofDict, addAll, addModule, torchAdd, dictSet, bind, Except.bind, addMod]
  · simp [append, len, addModule, torchAdd, dictSet, bind, Except.bind, h2, addMod]

/-- The hypotheses of the theorems are met by three additions. -/
example : Matching (fun _ _ : Unit => True) [addMod 1, addMod 2, addMod 3] ∧ (∀ m ∈ [addMod 1, addMod 2, addMod 3], Typed (fun _ _ => True) (fun _ => ()) m) ∧
    Runs [addMod 1, addMod 2, addMod 3] 0 6 :=
  ⟨fun _ _ _ _ _ => trivial, fun m hm => ⟨fun x _ => by simp only [List.mem_cons, List.not_mem_nil, or_false] at hm; rcases hm with rfl | rfl | rfl <;> exact ⟨_, rfl⟩, fun _ _ _ => rfl⟩,
    .cons rfl (.cons rfl (.cons rfl (.nil _)))⟩

end Escnn.Seq
