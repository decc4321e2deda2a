import Verif.Model.Expansion
import Verif.Lemmas.Grouped

/-!
# Lemmas on the basis expansion
-/

namespace Escnn

/-! ### lists and dictionaries -/

theorem lookupLast_of_nodup {L V : Type} [DecidableEq L] {d : List (L × V)} (hd : (d.map Prod.fst).Nodup) {l : L} {v : V} :
    FType.lookupLast d l = some v ↔ (l, v) ∈ d := by
  have key : ∀ w, (l, w) ∈ d → d.filter (fun p => decide (p.1 = l)) = [(l, w)] := by
    intro w hw
    induction d with
    | nil => simp at hw
    | cons e d ih =>
      rw [List.map_cons, List.nodup_cons] at hd
      rcases List.mem_cons.1 hw with h | h
      · subst h
        rw [List.filter_cons_of_pos (by simp)]
        congr 1
        rw [List.filter_eq_nil_iff]
        intro p hp he
        simp only [decide_eq_true_eq] at he
        exact hd.1 (List.mem_map.2 ⟨p, hp, he⟩)
      · rw [List.filter_cons_of_neg, ih hd.2 h]
        simp only [decide_eq_true_eq]
        intro he
        exact hd.1 (List.mem_map.2 ⟨_, h, he.symm⟩)
  unfold FType.lookupLast
  constructor
  · intro h
    rw [Option.map_eq_some_iff] at h
    obtain ⟨e, h1, h2⟩ := h
    have h3 := List.mem_of_getLast? h1
    rw [List.mem_filter, decide_eq_true_eq] at h3
    obtain ⟨h4, h5⟩ := h3
    rw [← h2, ← h5]
    exact h4
  · intro h
    rw [key v h]
    rfl

theorem lookupLast_mem {L V : Type} [DecidableEq L] {d : List (L × V)} {l : L} (h : l ∈ d.map Prod.fst) : ∃ v, FType.lookupLast d l = some v ∧ (l, v) ∈ d := by
  unfold FType.lookupLast
  obtain ⟨e, he, rfl⟩ := List.mem_map.1 h
  have hne : d.filter (fun p => decide (p.1 = e.1)) ≠ [] := List.ne_nil_of_mem (List.mem_filter.2 ⟨he, by simp⟩)
  have h1 := List.mem_filter.1 (List.getLast_mem hne)
  refine ⟨((d.filter (fun p => decide (p.1 = e.1))).getLast hne).2, by rw [List.getLast?_eq_some_getLast hne]; rfl, ?_⟩
  have h2 : ((d.filter (fun p => decide (p.1 = e.1))).getLast hne).1 = e.1 := by simpa using h1.2
  have h3 := h1.1
  generalize (d.filter (fun p => decide (p.1 = e.1))).getLast hne = z at h2 h3
  rw [← h2]
  exact h3

theorem lookupLast_none {L V : Type} [DecidableEq L] {d : List (L × V)} {l : L} (h : l ∉ d.map Prod.fst) : FType.lookupLast d l = none := by
  unfold FType.lookupLast
  rw [List.filter_eq_nil_iff.2]
  · rfl
  · intro p hp he
    simp only [decide_eq_true_eq] at he
    exact h (List.mem_map.2 ⟨p, hp, he⟩)

theorem find?_unique {α : Type} {p : α → Bool} {L : List α} {e : α} (he : e ∈ L) (hp : p e = true) (h : ∀ x ∈ L, p x = true → x = e) : L.find? p = some e := by
  cases hf : L.find? p with
  | none => exact absurd hp (List.find?_eq_none.1 hf e he)
  | some x => rw [h x (List.mem_of_find?_eq_some hf) (List.find?_some hf)]

theorem flatMap_get {α β : Type} (L : List α) (f : α → List β) (k o : ℕ) (a : α) (ha : L[k]? = some a) (ho : o < (f a).length) :
    (L.flatMap f)[chanOffset (fun a => (f a).length) L k + o]? = (f a)[o]? := by
  induction L generalizing k with
  | nil => simp at ha
  | cons b L ih =>
    rw [List.flatMap_cons]
    cases k with
    | zero =>
      obtain rfl : b = a := by simpa using ha
      rw [show chanOffset (fun a => (f a).length) (b :: L) 0 = 0 from rfl, Nat.zero_add, List.getElem?_append_left ho]
    | succ k =>
      rw [chanOffset_cons_succ, Nat.add_assoc, List.getElem?_append_right (by omega), Nat.add_sub_cancel_left]
      exact ih k (by simpa using ha)

theorem flatMap_get_uniform {α β : Type} (M : List α) (f : α → List β) (s : ℕ) (h : ∀ k ∈ M, (f k).length = s) (n o : ℕ) (ho : o < s) :
    (M.flatMap f)[n * s + o]? = (M[n]?).bind fun k => (f k)[o]? := by
  induction M generalizing n with
  | nil => simp
  | cons a M ih =>
    have ha := h a (by simp)
    rw [List.flatMap_cons]
    cases n with
    | zero => rw [Nat.zero_mul, Nat.zero_add, List.getElem?_append_left (by omega)]; rfl
    | succ n =>
      rw [List.getElem?_append_right (by rw [ha, Nat.succ_mul]; omega), ha, Nat.succ_mul, show n * s + s + o - s = n * s + o by omega,
        ih (fun k hk => h k (by simp [hk]))]
      simp

theorem flatMap_length_uniform {α β : Type} (M : List α) (f : α → List β) (s : ℕ) (h : ∀ k ∈ M, (f k).length = s) : (M.flatMap f).length = M.length * s := by
  rw [List.length_flatMap, List.map_congr_left h]
  simp

/-! ### one block -/

namespace SBlock

variable {A : Type}

theorem infoLoop_eq (id idx : ℕ) (L : List (Attr A × Bool)) (h : idx ≤ id) : infoLoop id idx L = (basisLoop idx L)[id - idx]? := by
  induction L generalizing idx with
  | nil => rfl
  | cons e L ih =>
    obtain ⟨a, b⟩ := e
    cases b with
    | false => exact ih idx h
    | true =>
      rw [infoLoop, basisLoop]
      split_ifs with he
      · subst he; simp
      · rw [ih (idx + 1) (by omega), show id - idx = (id - (idx + 1)) + 1 by omega]
        rfl

theorem elementInfo_eq (b : SBlock A) (id : ℕ) : b.elementInfo id = b.basisInfo[id]? := infoLoop_eq id 0 _ (Nat.zero_le _)

theorem basisLoop_id (idx : ℕ) (L : List (Attr A × Bool)) (n : ℕ) (a : Attr A) (h : (basisLoop idx L)[n]? = some a) : a.id = idx + n := by
  induction L generalizing idx n with
  | nil => simp [basisLoop] at h
  | cons e L ih =>
    obtain ⟨c, b⟩ := e
    cases b with
    | false => exact ih idx n h
    | true =>
      rw [basisLoop] at h
      cases n with
      | zero => simp only [List.getElem?_cons_zero, Option.some.injEq] at h; subst h; rfl
      | succ n => rw [ih (idx + 1) n (by simpa using h)]; omega

theorem basisInfo_id {b : SBlock A} {n : ℕ} {a : Attr A} (h : b.basisInfo[n]? = some a) : a.id = n := by
  rw [basisLoop_id 0 _ n a h]; omega

theorem basisLoop_length (idx : ℕ) (L : List (Attr A × Bool)) : (basisLoop idx L).length = (L.filter Prod.snd).length := by
  induction L generalizing idx with
  | nil => rfl
  | cons e L ih =>
    obtain ⟨c, b⟩ := e
    cases b <;> simp [basisLoop, ih]

/-- A block whose attributes match its sampled elements. -/
def WF (b : SBlock A) : Prop := 0 < b.dim ∧ b.basisInfo.length = b.dim

theorem filter_zip_length {α β : Type} (L : List α) (M : List β) (m : List Bool) (h : L.length = m.length) (h' : M.length = m.length) :
    ((L.zip m).filter Prod.snd).length = ((M.zip m).filter Prod.snd).length := by
  induction m generalizing L M with
  | nil => simp
  | cons b m ih =>
    cases L with
    | nil => simp at h
    | cons a L =>
      cases M with
      | nil => simp at h'
      | cons c M =>
        have := ih L M (by simpa using h) (by simpa using h')
        cases b <;> simp [this]

theorem init_cases (S : ℕ) (basis : KBasis A) (mask : List Bool) (hm : mask.length = basis.attrs.length) (hs : basis.sampled.length = basis.attrs.length) :
    init S basis mask = .error .emptyBasis ∨ ∃ b, init S basis mask = .ok b ∧ b.WF ∧ b.outSize = basis.outSize ∧ b.inSize = basis.inSize ∧
      b.attrs = basis.attrs ∧ b.mask.length = basis.attrs.length ∧
      b.sampled = (((List.zipWith (fun a K => normalize basis.outSize basis.inSize S a.shape0 K) basis.attrs basis.sampled).zip b.mask).filter Prod.snd).map Prod.fst := by
  classical
  unfold init
  rw [if_neg (not_not.2 hm)]
  by_cases h1 : ¬ mask.any id = true
  · rw [if_pos h1]; exact .inl rfl
  · rw [if_neg h1, if_neg (not_not.2 hs)]
    simp only
    generalize hsd : List.zipWith (fun (a : Attr A) K => normalize basis.outSize basis.inSize S a.shape0 K) basis.attrs basis.sampled = sd
    have hsl : sd.length = basis.attrs.length := by rw [← hsd]; simp [hs]
    generalize hmk : List.zipWith (fun b K => b && decide (1e-2 < sq basis.outSize basis.inSize S K)) mask sd = mk
    have hml : mk.length = basis.attrs.length := by rw [← hmk]; simp [hm, hsl]
    by_cases h2 : ¬ mk.any id = true
    · rw [if_pos h2]; exact .inl rfl
    · rw [if_neg h2]
      refine .inr ⟨_, rfl, ⟨?_, ?_⟩, rfl, rfl, rfl, hml, rfl⟩
      · simp only [not_not, List.any_eq_true, id] at h2
        obtain ⟨b, hb, rfl⟩ := h2
        obtain ⟨n, hn⟩ := List.mem_iff_getElem?.1 hb
        have hn' := (List.getElem?_eq_some_iff.1 hn).1
        have : (sd[n]'(by omega), true) ∈ (sd.zip mk).filter Prod.snd := by
          rw [List.mem_filter]
          refine ⟨List.mem_iff_getElem?.2 ⟨n, ?_⟩, rfl⟩
          rw [List.getElem?_zip_eq_some]
          exact ⟨List.getElem?_eq_getElem _, hn⟩
        unfold dim
        rw [List.length_map]
        exact List.length_pos_of_mem this
      · unfold basisInfo dim
        rw [basisLoop_length, List.length_map]
        exact filter_zip_length _ _ _ hml.symm (by rw [hsl, hml])

theorem ofFilter_cases (S : ℕ) (basis : KBasis A) (f : Option (Attr A → Bool)) (hs : basis.sampled.length = basis.attrs.length) :
    ofFilter S basis f = .error .emptyBasis ∨ ∃ b, ofFilter S basis f = .ok b ∧ b.WF ∧ b.outSize = basis.outSize ∧ b.inSize = basis.inSize := by
  unfold ofFilter
  cases f with
  | none =>
    rcases init_cases S basis (basis.attrs.map fun _ => true) (by simp) hs with h | ⟨b, h1, h2, h3, h4, -⟩
    · exact .inl h
    · exact .inr ⟨b, h1, h2, h3, h4⟩
  | some f =>
    rcases init_cases S basis (basis.attrs.map f) (by simp) hs with h | ⟨b, h1, h2, h3, h4, -⟩
    · exact .inl h
    · exact .inr ⟨b, h1, h2, h3, h4⟩

/-- Each sampled element of the block is a non-zero multiple of a sampled element of the basis. -/
theorem ofFilter_sampled (S : ℕ) (basis : KBasis A) (f : Option (Attr A → Bool)) (hs : basis.sampled.length = basis.attrs.length) {b : SBlock A}
    (h : ofFilter S basis f = .ok b) {K : ℕ → ℕ → ℕ → ℝ} (hK : K ∈ b.sampled) :
    ∃ K' ∈ basis.sampled, ∃ c : ℝ, c ≠ 0 ∧ K = fun o i p => K' o i p / c := by
  have key : ∀ mask : List Bool, mask.length = basis.attrs.length → init S basis mask = .ok b → ∃ K' ∈ basis.sampled, ∃ c : ℝ, c ≠ 0 ∧ K = fun o i p => K' o i p / c := by
    intro mask hm hi
    rcases init_cases S basis mask hm hs with h' | ⟨b', h1, -, -, -, -, -, h6⟩
    · rw [h'] at hi; cases hi
    · rw [hi] at h1
      cases h1
      rw [h6, List.mem_map] at hK
      obtain ⟨⟨K0, c0⟩, h7, rfl⟩ := hK
      have h8 := List.of_mem_zip (List.mem_filter.1 h7).1
      obtain ⟨n, hn⟩ := List.mem_iff_getElem?.1 h8.1
      rw [List.getElem?_zipWith_eq_some] at hn
      obtain ⟨a, K', ha, hK', he⟩ := hn
      have hne : ∀ x : ℝ, (if x < 1e-6 then 1 else x) ≠ 0 := by
        intro x
        split_ifs with hx
        · exact one_ne_zero
        · rintro rfl; norm_num at hx
      exact ⟨K', List.mem_of_getElem? hK', _, hne _, he.symm⟩
  unfold ofFilter at h
  cases f with
  | none => exact key _ (by simp) h
  | some f => exact key _ (by simp) h

end SBlock

/-! ### many blocks -/

namespace Blocks

variable {R A : Type} {nm : R → String} {sz ni : R → ℕ} {gen : R → R → Except Err (SBlock A)} {uin uout inR outR : List R} {S : ℕ}

/-- What is needed of the arguments of the constructor: the sets have the right elements, names (also the escaped ones) determine the
representations, and the generator returns bases of the right shape or raises `EmptyBasisException`. -/
structure Args (nm : R → String) (sz : R → ℕ) (gen : R → R → Except Err (SBlock A)) (uin uout inR outR : List R) : Prop where
  uin_mem : ∀ r, r ∈ uin ↔ r ∈ inR
  uin_nodup : uin.Nodup
  uout_mem : ∀ r, r ∈ uout ↔ r ∈ outR
  uout_nodup : uout.Nodup
  in_name : ∀ r ∈ inR, ∀ r' ∈ inR, escName (nm r) = escName (nm r') → r = r'
  out_name : ∀ r ∈ outR, ∀ r' ∈ outR, escName (nm r) = escName (nm r') → r = r'
  in_pos : ∀ r ∈ inR, 0 < sz r
  out_pos : ∀ r ∈ outR, 0 < sz r
  gen_ok : ∀ i ∈ inR, ∀ o ∈ outR, gen i o = .error .emptyBasis ∨ ∃ b, gen i o = .ok b ∧ b.WF ∧ b.outSize = sz o ∧ b.inSize = sz i

/-- Pair `p` has the block `b`. -/
def HasBlock (nm : R → String) (gen : R → R → Except Err (SBlock A)) (inR outR : List R) (p : String × String) (b : SBlock A) : Prop :=
  ∃ i ∈ inR, ∃ o ∈ outR, p = (nm i, nm o) ∧ gen i o = .ok b

theorem Args.hasBlock_unique (h : Args nm sz gen uin uout inR outR) {p : String × String} {b b' : SBlock A} (hb : HasBlock nm gen inR outR p b)
    (hb' : HasBlock nm gen inR outR p b') : b = b' := by
  obtain ⟨i, hi, o, ho, rfl, e⟩ := hb
  obtain ⟨i', hi', o', ho', e', e''⟩ := hb'
  obtain rfl := h.in_name i hi i' hi' (by rw [(Prod.mk.inj e').1])
  obtain rfl := h.out_name o ho o' ho' (by rw [(Prod.mk.inj e').2])
  rw [e] at e''
  cases e''
  rfl

theorem Args.esc_inj (h : Args nm sz gen uin uout inR outR) {p p' : String × String} {b b' : SBlock A} (hb : HasBlock nm gen inR outR p b)
    (hb' : HasBlock nm gen inR outR p' b') (e : escPair p = escPair p') : p = p' := by
  obtain ⟨i, hi, o, ho, rfl, -⟩ := hb
  obtain ⟨i', hi', o', ho', rfl, -⟩ := hb'
  rw [h.in_name i hi i' hi' (Prod.mk.inj e).1, h.out_name o ho o' ho' (Prod.mk.inj e).2]

theorem collect_spec (L : List (R × R)) (hL : ∀ e ∈ L, gen e.1 e.2 = .error .emptyBasis ∨ ∃ b, gen e.1 e.2 = .ok b) :
    ∃ d, collect nm gen L = .ok d ∧ (∀ p b, (p, b) ∈ d ↔ ∃ e ∈ L, p = (nm e.1, nm e.2) ∧ gen e.1 e.2 = .ok b) ∧
      ((L.map fun e => (nm e.1, nm e.2)).Nodup → (d.map Prod.fst).Nodup) := by
  induction L with
  | nil => exact ⟨[], rfl, by simp, by simp⟩
  | cons e L ih =>
    obtain ⟨i, o⟩ := e
    obtain ⟨d, h1, h2, h3⟩ := ih fun e he => hL e (by simp [he])
    rcases hL (i, o) (by simp) with h | ⟨b, h⟩
    · refine ⟨d, by rw [collect]; simp only at h; rw [h]; exact h1, fun p b => ?_, fun hn => h3 (by rw [List.map_cons, List.nodup_cons] at hn; exact hn.2)⟩
      rw [h2]
      constructor
      · rintro ⟨e, he, hp⟩; exact ⟨e, by simp [he], hp⟩
      · rintro ⟨e, he, hp, hg⟩
        rcases List.mem_cons.1 he with rfl | he
        · rw [h] at hg; cases hg
        · exact ⟨e, he, hp, hg⟩
    · refine ⟨((nm i, nm o), b) :: d, by rw [collect]; simp only at h; rw [h]; simp only [bind, Except.bind]; rw [h1], fun p b' => ?_, fun hn => ?_⟩
      · rw [List.mem_cons, h2]
        constructor
        · rintro (he | ⟨e, he, hp⟩)
          · cases he; exact ⟨(i, o), by simp, rfl, h⟩
          · exact ⟨e, by simp [he], hp⟩
        · rintro ⟨e, he, hp, hg⟩
          rcases List.mem_cons.1 he with rfl | he
          · rw [h] at hg; cases hg; exact .inl (by rw [hp])
          · exact .inr ⟨e, he, hp, hg⟩
      · rw [List.map_cons, List.nodup_cons] at hn ⊢
        refine ⟨fun hm => hn.1 ?_, h3 hn.2⟩
        obtain ⟨⟨p, b'⟩, h4, h5⟩ := List.mem_map.1 hm
        obtain ⟨e, h6, h7, -⟩ := (h2 p b').1 h4
        simp only at h5
        exact List.mem_map.2 ⟨e, h6, by rw [← h7, h5]⟩

theorem Args.collect_ok (h : Args nm sz gen uin uout inR outR) :
    ∃ d, collect nm gen (uin.flatMap fun i => uout.map fun o => (i, o)) = .ok d ∧ (∀ p b, (p, b) ∈ d ↔ HasBlock nm gen inR outR p b) ∧ (d.map Prod.fst).Nodup ∧
      (d.map fun e => escPair e.1).Nodup := by
  have hmem : ∀ i o, (i, o) ∈ (uin.flatMap fun i => uout.map fun o => (i, o)) ↔ i ∈ inR ∧ o ∈ outR := by
    intro i o
    simp only [List.mem_flatMap, List.mem_map, Prod.mk.injEq]
    constructor
    · rintro ⟨i', h1, o', h2, rfl, rfl⟩; exact ⟨(h.uin_mem _).1 h1, (h.uout_mem _).1 h2⟩
    · rintro ⟨h1, h2⟩; exact ⟨i, (h.uin_mem _).2 h1, o, (h.uout_mem _).2 h2, rfl, rfl⟩
  obtain ⟨d, h1, h2, h3⟩ := collect_spec (nm := nm) (gen := gen) (uin.flatMap fun i => uout.map fun o => (i, o)) (by
    rintro ⟨i, o⟩ he
    obtain ⟨hi, ho⟩ := (hmem i o).1 he
    rcases h.gen_ok i hi o ho with h | ⟨b, h, -⟩
    · exact .inl h
    · exact .inr ⟨b, h⟩)
  have h2' : ∀ p b, (p, b) ∈ d ↔ HasBlock nm gen inR outR p b := by
    intro p b
    rw [h2]
    constructor
    · rintro ⟨⟨i, o⟩, he, hp, hg⟩
      obtain ⟨hi, ho⟩ := (hmem i o).1 he
      exact ⟨i, hi, o, ho, hp, hg⟩
    · rintro ⟨i, hi, o, ho, hp, hg⟩
      exact ⟨(i, o), (hmem i o).2 ⟨hi, ho⟩, hp, hg⟩
  have hnd : (d.map Prod.fst).Nodup := by
    refine h3 (List.Nodup.map_on ?_ ?_)
    · rintro ⟨i, o⟩ he ⟨i', o'⟩ he' e
      obtain ⟨hi, ho⟩ := (hmem i o).1 he
      obtain ⟨hi', ho'⟩ := (hmem i' o').1 he'
      rw [h.in_name i hi i' hi' (by rw [(Prod.mk.inj e).1]), h.out_name o ho o' ho' (by rw [(Prod.mk.inj e).2])]
    · exact h.uin_nodup.product h.uout_nodup
  refine ⟨d, h1, h2', hnd, ?_⟩
  have : (d.map fun e => escPair e.1) = (d.map Prod.fst).map escPair := by simp
  rw [this]
  refine List.Nodup.map_on ?_ hnd
  intro p hp p' hp' e
  obtain ⟨⟨q, b⟩, hq, rfl⟩ := List.mem_map.1 hp
  obtain ⟨⟨q', b'⟩, hq', rfl⟩ := List.mem_map.1 hp'
  exact h.esc_inj ((h2' _ _).1 hq) ((h2' _ _).1 hq') e

theorem rangesLoop_spec (mods : List ((String × String) × SBlock A)) (ic oc : String → ℕ) (T : String × String → ℕ) (last : ℕ) (L : List (String × String))
    (h : ∀ p ∈ L, ∃ b, dictGet mods p = .ok b ∧ T p = b.dim * (ic p.1 * oc p.2)) :
    ∃ r, rangesLoop mods ic oc last L = .ok r ∧ r.2 = last + (L.map T).sum ∧ r.1.map Prod.fst = L ∧
      ∀ (k : ℕ) p, L[k]? = some p → r.1[k]? = some (p, (last + chanOffset T L k, last + chanOffset T L k + T p)) := by
  induction L generalizing last with
  | nil => exact ⟨([], last), rfl, rfl, rfl, by simp⟩
  | cons q L ih =>
    obtain ⟨b, hb, hT⟩ := h q (by simp)
    obtain ⟨r, h1, h2, h3, h4⟩ := ih (last + T q) fun p hp => h p (by simp [hp])
    refine ⟨((q, (last, last + T q)) :: r.1, r.2), ?_, ?_, ?_, ?_⟩
    · rw [rangesLoop]
      simp only [bind, Except.bind]
      rw [hb]
      simp only
      rw [← hT, h1]
    · rw [h2]; simp; omega
    · simp [h3]
    · intro k p hk
      cases k with
      | zero =>
        obtain rfl : q = p := by simpa using hk
        simp [chanOffset]
      | succ k =>
        rw [List.getElem?_cons_succ, h4 k p (by simpa using hk), chanOffset_cons_succ, Nat.add_assoc]

theorem count_eq (rs : List R) (name : String) : count nm rs name = (labelled (rs.map nm) name).length := by
  have key : ∀ (rs : List R) (c k : ℕ), rs.foldl (fun c r => if nm r = name then c + 1 else c) c = c + (FType.labelLoop name k (rs.map nm)).length := by
    intro rs
    induction rs with
    | nil => simp [FType.labelLoop]
    | cons r rs ih =>
      intro c k
      rw [List.foldl_cons, List.map_cons, FType.labelLoop, ih _ (k + 1)]
      split_ifs
      · simp; omega
      · rfl
  rw [count, key rs 0 0, labelled_eq]; simp

theorem indices_eq (rs : List R) (name : String) : indices nm sz rs name = labelIdx sz rs (rs.map nm) name := by
  rw [indices, labelIdx, labelChans_eq name (rs.map nm) rs (by simp)]

theorem indices_ne_nil {rs : List R} (hpos : ∀ r ∈ rs, 0 < sz r) {r : R} (hr : r ∈ rs) : indices nm sz rs (nm r) ≠ [] :=
  labelChans_ne_nil (nm r) 0 (rs.map nm) rs hpos (by simp) (List.mem_map.2 ⟨r, hr, rfl⟩)

theorem indices_sorted (rs : List R) (name : String) : (indices nm sz rs name).Pairwise (· < ·) := (labelChans_sorted name 0 (rs.map nm) rs).1

theorem bounds_range (a m : ℕ) (hm : 0 < m) : bounds (List.range' a m) = .ok [a, a + m, m] := by
  have h1 : (List.range' a m).min? = some a := by
    rw [List.min?_eq_some_iff]
    simp only [List.mem_range'_1]
    exact ⟨by omega, fun b hb => hb.1⟩
  have h2 : (List.range' a m).max? = some (a + m - 1) := by
    rw [List.max?_eq_some_iff]
    simp only [List.mem_range'_1]
    exact ⟨by omega, fun b hb => by omega⟩
  unfold bounds
  rw [h1, h2]
  simp only [Except.ok.injEq, List.cons.injEq, true_and, and_true]
  omega

/-- The entries of the index tables for channels `I` and `O`. -/
def PairEntry (c : Bool) (ii oi I O : List ℕ) : Prop :=
  (c = true ∧ ∃ a m a' m', I = List.range' a m ∧ O = List.range' a' m' ∧ ii = [a, a + m, m] ∧ oi = [a', a' + m', m']) ∨
  (c = false ∧ ¬ ((∃ a m, I = List.range' a m) ∧ ∃ a m, O = List.range' a m) ∧ ii = (O.flatMap fun _ => I) ∧ oi = O.flatMap fun o => I.map fun _ => o)

theorem pairIndices_spec (hin : ∀ r ∈ inR, 0 < sz r) (hout : ∀ r ∈ outR, 0 < sz r) {i o : R} (hi : i ∈ inR) (ho : o ∈ outR) :
    ∃ c ii oi, pairIndices nm sz inR outR (nm i, nm o) = .ok (c, ii, oi) ∧
      PairEntry c ii oi (labelIdx sz inR (inR.map nm) (nm i)) (labelIdx sz outR (outR.map nm) (nm o)) := by
  have hI := indices_ne_nil (nm := nm) hin hi
  have hO := indices_ne_nil (nm := nm) hout ho
  rw [← indices_eq, ← indices_eq]
  obtain ⟨ci, h1, h2⟩ := checkConsecutive_iff _ hI (indices_sorted inR _)
  obtain ⟨co, h3, h4⟩ := checkConsecutive_iff _ hO (indices_sorted outR _)
  have hpi : ∀ {a m}, indices nm sz inR (nm i) = List.range' a m → ci = true := by
    intro a m e; rw [h2]; exact ⟨a, by rw [e]; simp⟩
  have hpo : ∀ {a m}, indices nm sz outR (nm o) = List.range' a m → co = true := by
    intro a m e; rw [h4]; exact ⟨a, by rw [e]; simp⟩
  have hc : pairIndices nm sz inR outR (nm i, nm o) = (if (ci && co) = true then do
      let i' ← bounds (indices nm sz inR (nm i))
      let o' ← bounds (indices nm sz outR (nm o))
      .ok (true, i', o')
    else .ok (false, (indices nm sz outR (nm o)).flatMap fun _ => indices nm sz inR (nm i),
      (indices nm sz outR (nm o)).flatMap fun o' => (indices nm sz inR (nm i)).map fun _ => o')) := by
    rw [pairIndices]
    simp only [bind, Except.bind]
    rw [h1, h3]
  rw [hc]
  cases hcc : ci && co with
  | true =>
    rw [Bool.and_eq_true] at hcc
    obtain ⟨a, ha⟩ := h2.1 hcc.1
    obtain ⟨a', ha'⟩ := h4.1 hcc.2
    have hm := List.length_pos_of_ne_nil hI
    have hm' := List.length_pos_of_ne_nil hO
    generalize (indices nm sz inR (nm i)).length = m at ha hm
    generalize (indices nm sz outR (nm o)).length = m' at ha' hm'
    refine ⟨true, [a, a + m, m], [a', a' + m', m'], ?_, .inl ⟨rfl, a, m, a', m', ha, ha', rfl, rfl⟩⟩
    rw [if_pos rfl, ha, ha', bounds_range a m hm, bounds_range a' m' hm']
    rfl
  | false =>
    refine ⟨false, _, _, rfl, .inr ⟨rfl, ?_, rfl, rfl⟩⟩
    rintro ⟨⟨a, m, e⟩, a', m', e'⟩
    rw [hpi e, hpo e'] at hcc
    cases hcc

/-- The number of fields with name `n`. -/
abbrev nFields (nm : R → String) (rs : List R) (n : String) : ℕ := (labelled (rs.map nm) n).length

/-- What the constructor has computed. -/
structure Facts (nm : R → String) (sz : R → ℕ) (gen : R → R → Except Err (SBlock A)) (uin uout inR outR : List R) (S : ℕ) (m : Blocks R A) (T : String × String → ℕ) : Prop where
  inReprs : m.inReprs = inR
  outReprs : m.outReprs = outR
  inSize : m.inSize = (inR.map sz).sum
  outSize : m.outSize = (outR.map sz).sum
  pts : m.S = S
  nPairs : m.nPairs = uin.length * uout.length
  nodup : m.pairs.Nodup
  mem : ∀ p, p ∈ m.pairs ↔ ∃ b, HasBlock nm gen inR outR p b
  block : ∀ p b, HasBlock nm gen inR outR p b → tabGet m.blocks (escPair p) = .ok b
  inCount : ∀ n, m.inCount n = nFields nm inR n
  outCount : ∀ n, m.outCount n = nFields nm outR n
  idx : ∀ p ∈ m.pairs, ∃ c ii oi, dictGet m.contiguous p = .ok c ∧ tabGet m.inIdx (escPair p) = .ok ii ∧ tabGet m.outIdx (escPair p) = .ok oi ∧
    PairEntry c ii oi (labelIdx sz inR (inR.map nm) p.1) (labelIdx sz outR (outR.map nm) p.2)
  total : ∀ p b, HasBlock nm gen inR outR p b → T p = b.dim * (nFields nm inR p.1 * nFields nm outR p.2)
  dim : m.dim = (m.pairs.map T).sum
  keys : m.ranges.map Prod.fst = m.pairs
  range : ∀ (k : ℕ) p, m.pairs[k]? = some p → m.ranges[k]? = some (p, (chanOffset T m.pairs k, chanOffset T m.pairs k + T p))

theorem init_spec (h : Args nm sz gen uin uout inR outR) (S : ℕ) : ∃ m T, init nm sz gen uin uout inR outR S = .ok m ∧ Facts nm sz gen uin uout inR outR S m T := by
  classical
  obtain ⟨mods, h1, h2, h3, h4⟩ := h.collect_ok
  have hperm : (((mods.map Prod.fst).dedup).mergeSort pairLe).Perm (mods.map Prod.fst) := by
    rw [List.Nodup.dedup h3]; exact List.mergeSort_perm _ _
  have hmem : ∀ p, p ∈ ((mods.map Prod.fst).dedup).mergeSort pairLe ↔ ∃ b, HasBlock nm gen inR outR p b := by
    intro p
    rw [hperm.mem_iff, List.mem_map]
    constructor
    · rintro ⟨⟨q, b⟩, hq, rfl⟩; exact ⟨b, (h2 _ _).1 hq⟩
    · rintro ⟨b, hb⟩; exact ⟨(p, b), (h2 _ _).2 hb, rfl⟩
  have hnd : (((mods.map Prod.fst).dedup).mergeSort pairLe).Nodup := hperm.nodup_iff.2 h3
  generalize hpairs : ((mods.map Prod.fst).dedup).mergeSort pairLe = pairs at *
  have hdict : ∀ p b, HasBlock nm gen inR outR p b → dictGet mods p = .ok b := fun p b hb => by
    rw [dictGet_ok, lookupLast_of_nodup h3, h2]; exact hb
  have hblk : ∀ p b, HasBlock nm gen inR outR p b → tabGet (mods.map fun e => (escPair e.1, e.2)) (escPair p) = .ok b := fun p b hb => by
    rw [tabGet_ok, lookupLast_of_nodup (by rw [List.map_map]; exact h4)]
    exact List.mem_map.2 ⟨(p, b), (h2 _ _).2 hb, rfl⟩
  let T : String × String → ℕ := fun p => if hb : ∃ b, HasBlock nm gen inR outR p b then (Classical.choose hb).dim * (nFields nm inR p.1 * nFields nm outR p.2) else 0
  have hT : ∀ p b, HasBlock nm gen inR outR p b → T p = b.dim * (nFields nm inR p.1 * nFields nm outR p.2) := by
    intro p b hb
    have hex : ∃ b, HasBlock nm gen inR outR p b := ⟨b, hb⟩
    simp only [T]
    rw [dif_pos hex, h.hasBlock_unique (Classical.choose_spec hex) hb]
  obtain ⟨r, hr1, hr2, hr3, hr4⟩ := rangesLoop_spec mods (count nm inR) (count nm outR) T 0 pairs (fun p hp => by
    obtain ⟨b, hb⟩ := (hmem p).1 hp
    exact ⟨b, hdict p b hb, by rw [hT p b hb, count_eq, count_eq]⟩)
  have hpi : ∀ p ∈ pairs, ∃ c : Bool × List ℕ × List ℕ, pairIndices nm sz inR outR p = .ok c ∧
      PairEntry c.1 c.2.1 c.2.2 (labelIdx sz inR (inR.map nm) p.1) (labelIdx sz outR (outR.map nm) p.2) := by
    intro p hp
    obtain ⟨b, i, hi, o, ho, rfl, -⟩ := (hmem p).1 hp
    obtain ⟨c, ii, oi, e1, e2⟩ := pairIndices_spec h.in_pos h.out_pos hi ho
    exact ⟨(c, ii, oi), e1, e2⟩
  choose! e he1 he2 using hpi
  have ht : mapE (fun p => do
      let e ← pairIndices nm sz inR outR p
      .ok (p, e)) pairs = .ok (pairs.map fun p => (p, e p)) := mapE_map fun p hp => by rw [he1 p hp]; rfl
  have hci : ∃ L, mapE (fun n => checkConsecutive (indices nm sz inR n)) (inR.map nm) = .ok L := by
    have : ∀ n ∈ inR.map nm, ∃ c, checkConsecutive (indices nm sz inR n) = .ok c := by
      intro n hn
      obtain ⟨r, hr, rfl⟩ := List.mem_map.1 hn
      obtain ⟨c, hc, -⟩ := checkConsecutive_iff _ (indices_ne_nil (nm := nm) h.in_pos hr) (indices_sorted inR _)
      exact ⟨c, hc⟩
    choose! c hc using this
    exact ⟨_, mapE_map hc⟩
  have hco : ∃ L, mapE (fun n => checkConsecutive (indices nm sz outR n)) (outR.map nm) = .ok L := by
    have : ∀ n ∈ outR.map nm, ∃ c, checkConsecutive (indices nm sz outR n) = .ok c := by
      intro n hn
      obtain ⟨r, hr, rfl⟩ := List.mem_map.1 hn
      obtain ⟨c, hc, -⟩ := checkConsecutive_iff _ (indices_ne_nil (nm := nm) h.out_pos hr) (indices_sorted outR _)
      exact ⟨c, hc⟩
    choose! c hc using this
    exact ⟨_, mapE_map hc⟩
  obtain ⟨Li, hLi⟩ := hci
  obtain ⟨Lo, hLo⟩ := hco
  have hescnd : (pairs.map escPair).Nodup := by
    refine List.Nodup.map_on ?_ hnd
    intro p hp p' hp' e
    obtain ⟨b, hb⟩ := (hmem p).1 hp
    obtain ⟨b', hb'⟩ := (hmem p').1 hp'
    exact h.esc_inj hb hb' e
  refine ⟨_, T, by
    rw [init]
    simp only [bind, Except.bind]
    rw [h1]
    simp only
    rw [hLi]
    simp only
    rw [hLo]
    simp only
    rw [hpairs]
    simp only [bind, Except.bind] at ht
    rw [ht]
    simp only
    rw [hr1], ?_⟩
  refine ⟨rfl, rfl, rfl, rfl, rfl, rfl, hnd, hmem, hblk, fun n => count_eq inR n, fun n => count_eq outR n, ?_, hT, by rw [hr2]; simp, hr3, fun k p hk => by rw [hr4 k p hk]; simp⟩
  intro p hp
  refine ⟨(e p).1, (e p).2.1, (e p).2.2, ?_, ?_, ?_, he2 p hp⟩
  · rw [dictGet_ok, lookupLast_of_nodup (by simpa [List.map_map, Function.comp_def] using hnd)]
    simp only [List.map_map, List.mem_map]
    exact ⟨p, hp, rfl⟩
  · rw [tabGet_ok, lookupLast_of_nodup (by simpa [List.map_map, Function.comp_def] using hescnd)]
    simp only [List.map_map, List.mem_map]
    exact ⟨p, hp, rfl⟩
  · rw [tabGet_ok, lookupLast_of_nodup (by simpa [List.map_map, Function.comp_def] using hescnd)]
    simp only [List.map_map, List.mem_map]
    exact ⟨p, hp, rfl⟩

/-! ### information on the weights -/

theorem searchIn_other (p : String × String) (on : String) (target i irr c : ℕ) (L : List R) (h : p.2 ≠ on) : searchIn nm ni p on target i irr c L = .inr c := by
  induction L generalizing i irr with
  | nil => rfl
  | cons r L ih =>
    rw [searchIn, if_neg (fun e => h (by rw [e])), ih]

theorem labelLoop_ge {L : Type} [DecidableEq L] (l : L) (c : ℕ) (xs : List L) : ∀ k ∈ FType.labelLoop l c xs, c ≤ k := by
  induction xs generalizing c with
  | nil => simp [FType.labelLoop]
  | cons x xs ih =>
    intro k hk
    rw [FType.labelLoop] at hk
    split_ifs at hk
    · rcases List.mem_cons.1 hk with rfl | hk
      · exact le_rfl
      · have := ih (c + 1) k hk; omega
    · have := ih (c + 1) k hk; omega

theorem searchIn_spec (p : String × String) (target i irr c : ℕ) (L : List R) (h : c ≤ target) :
    searchIn nm ni p p.2 target i irr c L =
      match (FType.labelLoop p.1 i (L.map nm))[target - c]? with
      | some k => .inl (irr + chanOffset ni L (k - i), k)
      | none => .inr (c + (FType.labelLoop p.1 i (L.map nm)).length) := by
  induction L generalizing i irr c with
  | nil => simp [searchIn, FType.labelLoop]
  | cons r L ih =>
    rw [searchIn, List.map_cons, FType.labelLoop]
    have hoff : ∀ k, i + 1 ≤ k → chanOffset ni (r :: L) (k - i) = ni r + chanOffset ni L (k - (i + 1)) := by
      intro k hk
      rw [show k - i = (k - (i + 1)) + 1 by omega, chanOffset_cons_succ]
    by_cases hp : nm r = p.1
    · rw [if_pos (by rw [hp]), if_pos hp]
      by_cases hc : c = target
      · rw [if_pos hc, hc]
        simp [chanOffset]
      · rw [if_neg hc, ih (i + 1) (irr + ni r) (c + 1) (by omega), show target - c = (target - (c + 1)) + 1 by omega, List.getElem?_cons_succ]
        cases hk : (FType.labelLoop p.1 (i + 1) (L.map nm))[target - (c + 1)]? with
        | some k =>
          have := labelLoop_ge p.1 (i + 1) (L.map nm) k (List.mem_of_getElem? hk)
          simp only
          rw [hoff k this, Nat.add_assoc]
        | none => simp only [List.length_cons, Sum.inr.injEq]; omega
    · rw [if_neg (fun e => hp (by rw [e])), if_neg hp, ih (i + 1) (irr + ni r) c h]
      cases hk : (FType.labelLoop p.1 (i + 1) (L.map nm))[target - c]? with
      | some k =>
        have := labelLoop_ge p.1 (i + 1) (L.map nm) k (List.mem_of_getElem? hk)
        simp only
        rw [hoff k this, Nat.add_assoc]
      | none => rfl

theorem searchOut_spec (p : String × String) (inR : List R) (target o irr c : ℕ) (L : List R) (h : c ≤ target) {n m k k' : ℕ}
    (ht : target - c = n * (FType.labelLoop p.1 0 (inR.map nm)).length + m) (hk' : (FType.labelLoop p.1 0 (inR.map nm))[m]? = some k')
    (hk : (FType.labelLoop p.2 o (L.map nm))[n]? = some k) :
    searchOut nm ni p inR target o irr c L = some ((irr + chanOffset ni L (k - o), k), (chanOffset ni inR k', k')) := by
  have hm : m < (FType.labelLoop p.1 0 (inR.map nm)).length := (List.getElem?_eq_some_iff.1 hk').1
  induction L generalizing o irr c n with
  | nil => simp [FType.labelLoop] at hk
  | cons r L ih =>
    rw [searchOut]
    rw [List.map_cons, FType.labelLoop] at hk
    have hoff : ∀ k, o + 1 ≤ k → chanOffset ni (r :: L) (k - o) = ni r + chanOffset ni L (k - (o + 1)) := by
      intro k hk
      rw [show k - o = (k - (o + 1)) + 1 by omega, chanOffset_cons_succ]
    by_cases hp : nm r = p.2
    · rw [if_pos hp] at hk
      rw [hp, searchIn_spec p target 0 0 c inR h]
      cases n with
      | zero =>
        rw [Nat.zero_mul, Nat.zero_add] at ht
        rw [ht, hk']
        obtain rfl : o = k := by simpa using hk
        simp [chanOffset]
      | succ n =>
        rw [List.getElem?_eq_none (by rw [ht, Nat.succ_mul]; omega)]
        simp only
        have hk2 : (FType.labelLoop p.2 (o + 1) (L.map nm))[n]? = some k := by simpa using hk
        have := labelLoop_ge p.2 (o + 1) (L.map nm) k (List.mem_of_getElem? hk2)
        rw [ih (o + 1) (irr + ni r) (c + (FType.labelLoop p.1 0 (inR.map nm)).length) (by rw [Nat.succ_mul] at ht; omega) (n := n)
          (by rw [Nat.succ_mul] at ht; omega) hk2, hoff k this, Nat.add_assoc]
    · rw [if_neg hp] at hk
      rw [searchIn_other p (nm r) target 0 0 c inR (fun e => hp e.symm)]
      simp only
      have := labelLoop_ge p.2 (o + 1) (L.map nm) k (List.mem_of_getElem? hk)
      rw [ih (o + 1) (irr + ni r) c h ht hk, hoff k this, Nat.add_assoc]

theorem irrepsCounts_get (c : ℕ) (L : List R) (k : ℕ) (hk : k ≤ L.length) : (irrepsCounts ni c L)[k]? = some (c + chanOffset ni L k) := by
  induction L generalizing c k with
  | nil => obtain rfl : k = 0 := by simpa using hk
           simp [irrepsCounts, chanOffset]
  | cons r L ih =>
    cases k with
    | zero => simp [irrepsCounts, chanOffset]
    | succ k =>
      rw [irrepsCounts, List.getElem?_cons_succ, ih (c + ni r) k (by simpa using hk), chanOffset_cons_succ, Nat.add_assoc]

variable {m : Blocks R A} {T : String × String → ℕ}

/-- The position of the weight of element `e` for the `n`-th output and `j`-th input field of the `k`-th pair. -/
def slot (nm : R → String) (inR : List R) (m : Blocks R A) (T : String × String → ℕ) (p : String × String) (b : SBlock A) (k n j e : ℕ) : ℕ :=
  chanOffset T m.pairs k + ((n * nFields nm inR p.1 + j) * b.dim + e)

/-- What the layout says about a weight. -/
structure At (nm : R → String) (gen : R → R → Except Err (SBlock A)) (inR outR : List R) (m : Blocks R A) (T : String × String → ℕ)
    (p : String × String) (b : SBlock A) (k n j e o i idx : ℕ) : Prop where
  pair : m.pairs[k]? = some p
  hasBlock : HasBlock nm gen inR outR p b
  out : (labelled (outR.map nm) p.2)[n]? = some o
  inn : (labelled (inR.map nm) p.1)[j]? = some i
  elem : e < b.dim
  pos : idx = slot nm inR m T p b k n j e

theorem Facts.exists_at (f : Facts nm sz gen uin uout inR outR S m T) (hb : ∀ p b, HasBlock nm gen inR outR p b → 0 < b.dim) {idx : ℕ} (h : idx < m.dim) :
    ∃ p b k n j e o i, At nm gen inR outR m T p b k n j e o i idx := by
  rw [f.dim] at h
  obtain ⟨k, p, off, h1, h2, h3⟩ := exists_field h
  obtain ⟨b, hbl⟩ := (f.mem p).1 (List.mem_of_getElem? h1)
  have hd := hb p b hbl
  rw [f.total p b hbl] at h2
  have hN : 0 < nFields nm inR p.1 := by
    rcases Nat.eq_zero_or_pos (nFields nm inR p.1) with h0 | h0
    · rw [h0] at h2; simp at h2
    · exact h0
  have hq : off / b.dim < nFields nm inR p.1 * nFields nm outR p.2 := Nat.div_lt_of_lt_mul h2
  have hn : off / b.dim / nFields nm inR p.1 < nFields nm outR p.2 := Nat.div_lt_of_lt_mul hq
  have hj : off / b.dim % nFields nm inR p.1 < nFields nm inR p.1 := Nat.mod_lt _ hN
  refine ⟨p, b, k, off / b.dim / nFields nm inR p.1, off / b.dim % nFields nm inR p.1, off % b.dim, _, _, h1, hbl, List.getElem?_eq_getElem hn,
    List.getElem?_eq_getElem hj, Nat.mod_lt _ hd, ?_⟩
  rw [h3, slot, Nat.div_add_mod', Nat.div_add_mod']

variable {p : String × String} {b : SBlock A} {k n j e o i idx : ℕ}

theorem At.off_lt (f : Facts nm sz gen uin uout inR outR S m T) (a : At nm gen inR outR m T p b k n j e o i idx) :
    (n * nFields nm inR p.1 + j) * b.dim + e < T p := by
  rw [f.total p b a.hasBlock]
  have hn : n < nFields nm outR p.2 := (List.getElem?_eq_some_iff.1 a.out).1
  have hj : j < nFields nm inR p.1 := (List.getElem?_eq_some_iff.1 a.inn).1
  have he := a.elem
  have h1 : n * nFields nm inR p.1 + j + 1 ≤ nFields nm outR p.2 * nFields nm inR p.1 := by
    calc n * nFields nm inR p.1 + j + 1 ≤ n * nFields nm inR p.1 + nFields nm inR p.1 := by omega
      _ = (n + 1) * nFields nm inR p.1 := by ring
      _ ≤ _ := Nat.mul_le_mul_right _ hn
  calc (n * nFields nm inR p.1 + j) * b.dim + e < (n * nFields nm inR p.1 + j) * b.dim + b.dim := by omega
    _ = (n * nFields nm inR p.1 + j + 1) * b.dim := by ring
    _ ≤ (nFields nm outR p.2 * nFields nm inR p.1) * b.dim := Nat.mul_le_mul_right _ h1
    _ = _ := by ring

theorem At.lt (f : Facts nm sz gen uin uout inR outR S m T) (a : At nm gen inR outR m T p b k n j e o i idx) : idx < m.dim := by
  rw [f.dim, a.pos]
  exact chanOffset_lt a.pair (a.off_lt f)

theorem At.decode (a : At nm gen inR outR m T p b k n j e o i idx) :
    ((n * nFields nm inR p.1 + j) * b.dim + e) / b.dim = n * nFields nm inR p.1 + j ∧ ((n * nFields nm inR p.1 + j) * b.dim + e) % b.dim = e := by
  have he := a.elem
  constructor
  · rw [Nat.mul_comm, Nat.mul_add_div (by omega), Nat.div_eq_of_lt he, Nat.add_zero]
  · rw [Nat.mul_comm, Nat.mul_add_mod, Nat.mod_eq_of_lt he]

/-- The dictionary for a weight. -/
def infoAt (ni : R → ℕ) (inR outR : List R) (p : String × String) (o i idx : ℕ) (a : Attr A) : BInfo A :=
  mkInfo p idx (chanOffset ni outR o, o) (chanOffset ni inR i, i) a

theorem At.elementInfo (f : Facts nm sz gen uin uout inR outR S m T) (a : At nm gen inR outR m T p b k n j e o i idx) {x : Attr A} (hx : b.basisInfo[e]? = some x) :
    Blocks.elementInfo nm ni m idx = .ok (infoAt ni inR outR p o i idx x) := by
  have hlt := a.lt f
  have hoff := a.off_lt f
  have hr := f.range k p a.pair
  unfold Blocks.elementInfo
  rw [if_neg (not_not.2 hlt)]
  rw [find?_unique (List.mem_of_getElem? hr) (by
    simp only [decide_eq_true_eq]
    rw [a.pos]
    unfold slot
    constructor <;> omega) (by
    intro y hy hy'
    obtain ⟨k', hk'⟩ := List.mem_iff_getElem?.1 hy
    have h1 : m.pairs[k']? = some y.1 := by rw [← f.keys, List.getElem?_map, hk']; rfl
    have h2 := f.range k' y.1 h1
    rw [hk'] at h2
    have h3 := Option.some.inj h2
    rw [h3] at hy'
    simp only [decide_eq_true_eq] at hy'
    rw [a.pos] at hy'
    unfold slot at hy'
    obtain ⟨q, hq⟩ : ∃ q, chanOffset T m.pairs k + ((n * nFields nm inR p.1 + j) * b.dim + e) = chanOffset T m.pairs k' + q := ⟨_, (Nat.add_sub_cancel' hy'.1).symm⟩
    obtain ⟨rfl, -⟩ := field_unique a.pair h1 hoff (by omega) hq
    rw [hk'] at hr
    exact Option.some.inj hr)]
  simp only [bind, Except.bind]
  rw [f.block p b a.hasBlock]
  simp only
  have h0 : idx - chanOffset T m.pairs k = (n * nFields nm inR p.1 + j) * b.dim + e := by rw [a.pos, slot]; omega
  rw [h0, a.decode.1, a.decode.2, SBlock.elementInfo_eq, hx, f.inReprs, f.outReprs]
  simp only
  have hl1 : FType.labelLoop p.1 0 (inR.map nm) = labelled (inR.map nm) p.1 := labelled_eq _ _
  have hl2 : FType.labelLoop p.2 0 (outR.map nm) = labelled (outR.map nm) p.2 := labelled_eq _ _
  rw [searchOut_spec (nm := nm) (ni := ni) p inR (n * nFields nm inR p.1 + j) 0 0 0 outR (Nat.zero_le _) (n := n) (m := j) (k := o) (k' := i)
    (by rw [hl1, Nat.sub_zero]) (by rw [hl1]; exact a.inn) (by rw [hl2]; exact a.out)]
  simp [infoAt]

theorem pairInfo_spec (f : Facts nm sz gen uin uout inR outR S m T) (hb : HasBlock nm gen inR outR p b) :
    pairInfo nm ni m p = .ok ((labelled (outR.map nm) p.2).flatMap fun o => (labelled (inR.map nm) p.1).flatMap fun i =>
      b.basisInfo.map fun a idx => infoAt ni inR outR p o i idx a) := by
  have hlt : ∀ {rs : List R} {l : String} {o : ℕ}, o ∈ labelled (rs.map nm) l → o ≤ rs.length := by
    intro rs l o ho
    have := (List.getElem?_eq_some_iff.1 (mem_labelled.1 ho)).1
    rw [List.length_map] at this
    omega
  have hin : ∀ o oc, mapE (fun i : ℕ => do
      let ic ← pyGet (irrepsCounts ni 0 inR) (i : ℕ)
      .ok (b.basisInfo.map fun a idx => mkInfo p idx (oc, o) (ic, i) a)) (labelled (inR.map nm) p.1) =
      .ok ((labelled (inR.map nm) p.1).map fun i => b.basisInfo.map fun a idx => mkInfo p idx (oc, o) (chanOffset ni inR i, i) a) := fun o oc =>
    mapE_map fun i hi => by
      rw [(pyGet_nat _ i _).2 (irrepsCounts_get 0 inR i (hlt hi))]
      simp [bind, Except.bind]
  have hout : mapE (fun o : ℕ => do
      let oc ← pyGet (irrepsCounts ni 0 outR) (o : ℕ)
      let L ← mapE (fun i : ℕ => do
        let ic ← pyGet (irrepsCounts ni 0 inR) (i : ℕ)
        .ok (b.basisInfo.map fun a idx => mkInfo p idx (oc, o) (ic, i) a)) (labelled (inR.map nm) p.1)
      .ok L.flatten) (labelled (outR.map nm) p.2) = .ok ((labelled (outR.map nm) p.2).map fun o => ((labelled (inR.map nm) p.1).map fun i =>
        b.basisInfo.map fun a idx => infoAt ni inR outR p o i idx a).flatten) := mapE_map fun o ho => by
      rw [(pyGet_nat _ o _).2 (irrepsCounts_get 0 outR o (hlt ho))]
      have := hin o (chanOffset ni outR o)
      simp only [bind, Except.bind] at this
      simp only [bind, Except.bind, Nat.zero_add]
      rw [this]
      rfl
  unfold pairInfo
  rw [f.block p b hb, f.inReprs, f.outReprs, labelled_eq, labelled_eq]
  simp only [bind, Except.bind] at hout ⊢
  rw [hout]
  simp [List.flatMap_def]

/-- The function listing the items of a pair. -/
noncomputable def itemsOf (nm : R → String) (ni : R → ℕ) (inR outR : List R) (bl : String × String → SBlock A) (p : String × String) : List (ℕ → BInfo A) :=
  (labelled (outR.map nm) p.2).flatMap fun o => (labelled (inR.map nm) p.1).flatMap fun i => (bl p).basisInfo.map fun a idx => infoAt ni inR outR p o i idx a

theorem basisInfo_spec (f : Facts nm sz gen uin uout inR outR S m T) (hwf : ∀ p b, HasBlock nm gen inR outR p b → b.WF)
    (huniq : ∀ p b b', HasBlock nm gen inR outR p b → HasBlock nm gen inR outR p b' → b = b') :
    ∃ L, Blocks.basisInfo nm ni m = .ok L ∧ L.length = m.dim ∧
      ∀ {p b k n j e o i idx x}, At nm gen inR outR m T p b k n j e o i idx → b.basisInfo[e]? = some x → L[idx]? = some (infoAt ni inR outR p o i idx x) := by
  have hex : ∀ p ∈ m.pairs, ∃ b, HasBlock nm gen inR outR p b := fun p hp => (f.mem p).1 hp
  haveI : Nonempty (SBlock A) := ⟨⟨0, 0, [], [], []⟩⟩
  choose! bl hbl using hex
  have hlen : ∀ p ∈ m.pairs, (itemsOf nm ni inR outR bl p).length = T p := by
    intro p hp
    have hb := hbl p hp
    rw [itemsOf, flatMap_length_uniform _ _ (nFields nm inR p.1 * (bl p).dim), f.total p _ hb]
    · unfold nFields; ring
    · intro o _
      rw [flatMap_length_uniform _ _ (bl p).dim]
      intro i _
      rw [List.length_map, (hwf p _ hb).2]
  have hmap : mapE (pairInfo nm ni m) m.pairs = .ok (m.pairs.map (itemsOf nm ni inR outR bl)) := mapE_map fun p hp => pairInfo_spec f (hbl p hp)
  have htot : (m.pairs.map (itemsOf nm ni inR outR bl)).flatten.length = m.dim := by
    rw [List.length_flatten, List.map_map, f.dim]
    congr 1
    exact List.map_congr_left hlen
  refine ⟨_, by rw [Blocks.basisInfo]; simp only [bind, Except.bind]; rw [hmap]; simp only; rw [if_pos htot.le], by simp [htot], ?_⟩
  intro p b k n j e o i idx x a hx
  have hp := List.mem_of_getElem? a.pair
  have hb := hbl p hp
  obtain rfl : bl p = b := huniq p _ _ hb a.hasBlock
  have hoff := a.off_lt f
  have hco : ∀ k, chanOffset (fun p => (itemsOf nm ni inR outR bl p).length) m.pairs k = chanOffset T m.pairs k := by
    intro k
    unfold chanOffset
    congr 1
    exact List.map_congr_left fun p hp => hlen p (List.mem_of_mem_take hp)
  have hj : j < nFields nm inR p.1 := (List.getElem?_eq_some_iff.1 a.inn).1
  have key : (m.pairs.map (itemsOf nm ni inR outR bl)).flatten[idx]? = some (fun idx => infoAt ni inR outR p o i idx x) := by
    have h1 := flatMap_get m.pairs (itemsOf nm ni inR outR bl) k ((n * nFields nm inR p.1 + j) * (bl p).dim + e) p a.pair (by rw [hlen p hp]; exact hoff)
    rw [hco] at h1
    rw [← List.flatMap_def, a.pos, slot, h1, itemsOf]
    rw [show (n * nFields nm inR p.1 + j) * (bl p).dim + e = n * (nFields nm inR p.1 * (bl p).dim) + (j * (bl p).dim + e) by ring]
    have hlin : ∀ o ∈ labelled (outR.map nm) p.2, ((labelled (inR.map nm) p.1).flatMap fun i => (bl p).basisInfo.map fun a idx => infoAt ni inR outR p o i idx a).length = nFields nm inR p.1 * (bl p).dim := by
      intro o _
      rw [flatMap_length_uniform _ _ (bl p).dim]
      intro i _
      rw [List.length_map, (hwf p _ hb).2]
    rw [flatMap_get_uniform _ _ (nFields nm inR p.1 * (bl p).dim) hlin n _ (by
      have he := a.elem
      calc j * (bl p).dim + e < (j + 1) * (bl p).dim := by rw [Nat.succ_mul]; omega
        _ ≤ _ := Nat.mul_le_mul_right _ hj), a.out]
    simp only [Option.bind_some]
    rw [flatMap_get_uniform _ _ (bl p).dim (by intro i _; rw [List.length_map, (hwf p _ hb).2]) j e a.elem, a.inn]
    simp only [Option.bind_some]
    rw [List.getElem?_map, hx]
    rfl
  rw [List.getElem?_map, List.getElem?_zipIdx, key]
  simp

/-! ### the filter -/

theorem Expanded.flat_get (e : Expanded) {C : ℕ} (hC : C = e.ic * e.i) {r c p : ℕ} (hc : c < C) (hp : p < e.S) :
    e.flat ((r * C + c) * e.S + p) = e.get (r / e.o) (r % e.o) (c / e.i) (c % e.i) p := by
  have hi : 0 < e.i := by
    rcases Nat.eq_zero_or_pos e.i with h | h
    · rw [hC, h] at hc; simp at hc
    · exact h
  have hci : c / e.i < e.ic := by
    rw [hC, Nat.mul_comm] at hc
    exact Nat.div_lt_of_lt_mul hc
  have hic : 0 < e.ic := Nat.lt_of_le_of_lt (Nat.zero_le _) hci
  have h1 : ((r * C + c) * e.S + p) / e.S = r * C + c := by
    rw [Nat.mul_comm, Nat.mul_add_div (by omega), Nat.div_eq_of_lt hp, Nat.add_zero]
  have h2 : ((r * C + c) * e.S + p) % e.S = p := by
    rw [Nat.mul_comm, Nat.mul_add_mod, Nat.mod_eq_of_lt hp]
  have h3 : (r * C + c) / e.i = r * e.ic + c / e.i := by
    rw [hC, show r * (e.ic * e.i) + c = e.i * (r * e.ic) + c by ring, Nat.mul_add_div hi]
  have h4 : (r * C + c) % e.i = c % e.i := by
    rw [hC, show r * (e.ic * e.i) + c = e.i * (r * e.ic) + c by ring, Nat.mul_add_mod]
  have h5 : (r * e.ic + c / e.i) / e.ic = r := by
    rw [Nat.mul_comm, Nat.mul_add_div hic, Nat.div_eq_of_lt hci, Nat.add_zero]
  have h6 : (r * e.ic + c / e.i) % e.ic = c / e.i := by
    rw [Nat.mul_comm, Nat.mul_add_mod, Nat.mod_eq_of_lt hci]
  unfold flat
  rw [h1, h2, h3, h4, h5, h6]

/-- The entries of the product of two lists. -/
theorem product_get (O I : List ℕ) (j l r c : ℕ) (hr : O[j]? = some r) (hc : I[l]? = some c) :
    ((O.flatMap fun o => I.map fun _ => o).zip (O.flatMap fun _ => I))[j * I.length + l]? = some (r, c) := by
  have hl := (List.getElem?_eq_some_iff.1 hc).1
  rw [List.getElem?_zip_eq_some]
  constructor
  · rw [flatMap_get_uniform O (fun o => I.map fun _ => o) I.length (fun _ _ => by simp) j l hl, hr]
    simp [List.getElem?_replicate, hl]
  · rw [flatMap_get_uniform O (fun _ => I) I.length (fun _ _ => rfl) j l hl, hr]
    simp [hc]

theorem product_mem (O I : List ℕ) (r c : ℕ) : (r, c) ∈ (O.flatMap fun o => I.map fun _ => o).zip (O.flatMap fun _ => I) ↔ r ∈ O ∧ c ∈ I := by
  constructor
  · intro h
    obtain ⟨h1, h2⟩ := List.of_mem_zip h
    simp only [List.mem_flatMap, List.mem_map] at h1 h2
    obtain ⟨o, ho, _, _, rfl⟩ := h1
    exact ⟨ho, h2.choose_spec.2⟩
  · rintro ⟨h1, h2⟩
    obtain ⟨j, hj⟩ := List.mem_iff_getElem?.1 h1
    obtain ⟨l, hl⟩ := List.mem_iff_getElem?.1 h2
    exact List.mem_of_getElem? (product_get O I j l r c hj hl)

theorem product_nodup (O I : List ℕ) (hO : O.Nodup) (hI : I.Nodup) : ((O.flatMap fun o => I.map fun _ => o).zip (O.flatMap fun _ => I)).Nodup := by
  have : (O.flatMap fun o => I.map fun _ => o).zip (O.flatMap fun _ => I) = O ×ˢ I := by
    have e : O ×ˢ I = O.flatMap fun o => I.map fun i => (o, i) := rfl
    rw [e]
    clear hO e
    induction O with
    | nil => rfl
    | cons o O ih =>
      simp only [List.flatMap_cons]
      rw [List.zip_append (by simp), ih]
      congr 1
      clear hI ih
      induction I with
      | nil => rfl
      | cons i I ih => simp only [List.map_cons, List.zip_cons_cons]; rw [ih]
  rw [this]
  exact hO.product hI

/-- Writing one block. -/
theorem write_spec {f : Kern} {e : Expanded} {c : Bool} {ii oi I O : List ℕ} {S : ℕ} (hS : 0 < S) (heS : e.S = S) (hent : PairEntry c ii oi I O)
    (hI : I.Nodup) (hO : O.Nodup) (hIl : I.length = e.ic * e.i) (hOl : O.length = e.oc * e.o) (hIc : ∀ c ∈ I, c < f.cols) (hOr : ∀ r ∈ O, r < f.rows)
    (hIne : I ≠ []) (hOne : O ≠ []) :
    ∃ f', writeBlock f S c oi ii e = .ok f' ∧ f'.rows = f.rows ∧ f'.cols = f.cols ∧
      (∀ (j l : ℕ) r c p, O[j]? = some r → I[l]? = some c → p < S → f'.get r c p = e.get (j / e.o) (j % e.o) (l / e.i) (l % e.i) p) ∧
      ∀ r c p, ¬ (r ∈ O ∧ c ∈ I) → f'.get r c p = f.get r c p := by
  have hnum : e.numel = O.length * I.length * S := by rw [hOl, hIl, Expanded.numel, heS]; ring
  rcases hent with ⟨rfl, a, m, a', m', rfl, rfl, rfl, rfl⟩ | ⟨rfl, -, rfl, rfl⟩
  · have hm : 0 < m := by rcases Nat.eq_zero_or_pos m with h | h; (subst h; simp at hIne); exact h
    have hm' : 0 < m' := by rcases Nat.eq_zero_or_pos m' with h | h; (subst h; simp at hOne); exact h
    have ha : a + m ≤ f.cols := by have := hIc (a + m - 1) (by rw [List.mem_range'_1]; omega); omega
    have ha' : a' + m' ≤ f.rows := by have := hOr (a' + m' - 1) (by rw [List.mem_range'_1]; omega); omega
    simp only [List.length_range'] at hnum hIl hOl
    have hresh : e.reshape m' m S = .ok ⟨m', m, fun x y p => e.flat ((x * m + y) * S + p)⟩ := by rw [Expanded.reshape, if_pos hnum]
    refine ⟨⟨f.rows, f.cols, fun r c p => if a' ≤ r ∧ r < a' + m' ∧ a ≤ c ∧ c < a + m then e.flat (((r - a') * m + (c - a)) * S + p) else f.get r c p⟩, ?_, rfl, rfl, ?_, ?_⟩
    · rw [writeBlock, if_pos rfl]
      simp only [bind, Except.bind, pyGet, List.length_cons, List.length_nil, Int.reduceLE, if_true, Int.reduceToNat, List.getElem?_cons_zero, List.getElem?_cons_succ,
        le_refl, Int.toNat_zero, Int.toNat_one]
      norm_num
      rw [hresh]
      simp only
      rw [setBlock, if_pos ⟨by simp only; omega, by simp only; omega⟩]
    · intro j l r c p hr hc hp
      rw [List.getElem?_eq_some_iff] at hr hc
      obtain ⟨hj, rfl⟩ := hr
      obtain ⟨hl, rfl⟩ := hc
      rw [List.length_range'] at hj hl
      simp only [List.getElem_range', Nat.one_mul]
      rw [if_pos (by omega), Nat.add_sub_cancel_left, Nat.add_sub_cancel_left, ← heS]
      exact e.flat_get hIl hl (by omega)
    · intro r c p hn
      simp only
      rw [if_neg]
      intro h
      exact hn ⟨by rw [List.mem_range'_1]; omega, by rw [List.mem_range'_1]; omega⟩
  · have hlen : (O.flatMap fun o => I.map fun _ => o).length = O.length * I.length := flatMap_length_uniform _ _ _ (by simp)
    have hlen' : (O.flatMap fun _ => I).length = O.length * I.length := flatMap_length_uniform _ _ _ (by simp)
    refine ⟨⟨f.rows, f.cols, fun r c p => if (r, c) ∈ (O.flatMap fun o => I.map fun _ => o).zip (O.flatMap fun _ => I) then
      e.flat (((O.flatMap fun o => I.map fun _ => o).zip (O.flatMap fun _ => I)).idxOf (r, c) * S + p) else f.get r c p⟩, ?_, rfl, rfl, ?_, ?_⟩
    · rw [writeBlock, if_neg (by simp), scatterBlock, if_neg (by omega), if_neg, if_pos]
      · rw [Bool.and_eq_true, List.all_eq_true, List.all_eq_true]
        constructor
        · intro r hr
          simp only [List.mem_flatMap, List.mem_map] at hr
          obtain ⟨o, ho, _, _, rfl⟩ := hr
          simpa using hOr _ ho
        · intro c hc
          simp only [List.mem_flatMap] at hc
          simpa using hIc _ hc.choose_spec.2
      · rw [hlen, hlen']
        simp [hnum]
    · intro j l r c p hr hc hp
      have hg := product_get O I j l r c hr hc
      simp only
      rw [if_pos (List.mem_of_getElem? hg)]
      obtain ⟨hlt, hg'⟩ := List.getElem?_eq_some_iff.1 hg
      have hidx : ((O.flatMap fun o => I.map fun _ => o).zip (O.flatMap fun _ => I)).idxOf (r, c) = j * I.length + l := by
        rw [← hg']
        exact (product_nodup O I hO hI).idxOf_getElem _ hlt
      rw [hidx, ← heS]
      exact e.flat_get hIl (List.getElem?_eq_some_iff.1 hc).1 (by omega)
    · intro r c p hn
      simp only
      rw [if_neg]
      rw [product_mem]
      exact hn

theorem Facts.expandBlock (f : Facts nm sz gen uin uout inR outR S m T) (hb : HasBlock nm gen inR outR p b) (hd : 0 < b.dim) (hk : m.pairs[k]? = some p) (w : ℕ → ℝ) :
    m.expandBlock w p = .ok ⟨nFields nm outR p.2, b.outSize, nFields nm inR p.1, b.inSize, S, fun co o ci i pt =>
      ∑ e ∈ Finset.range b.dim, (b.sampled[e]?.getD fun _ _ _ => 0) o i pt * w (slot nm inR m T p b k co ci e)⟩ := by
  have hr : dictGet m.ranges p = .ok (chanOffset T m.pairs k, chanOffset T m.pairs k + T p) := by
    rw [dictGet_ok, lookupLast_of_nodup (by rw [f.keys]; exact f.nodup)]
    exact List.mem_of_getElem? (f.range k p hk)
  unfold Blocks.expandBlock
  rw [f.block p b hb]
  simp only [bind, Except.bind]
  rw [hr]
  simp only [Nat.add_sub_cancel_left]
  rw [f.total p b hb, if_neg (by rw [Nat.mul_mod_right]; omega), Nat.mul_div_cancel_left _ hd, if_neg (by rw [f.inCount, f.outCount, not_not, Nat.mul_comm (nFields nm inR p.1)])]
  rw [f.inCount, f.outCount, f.pts]
  rfl

/-- The loop of `forward`. -/
theorem Facts.fwdLoop (f : Facts nm sz gen uin uout inR outR S m T) (h : Args nm sz gen uin uout inR outR) (hS : 0 < S) (w : ℕ → ℝ) (L : List (String × String))
    (hL : ∀ p ∈ L, p ∈ m.pairs) (hnd : L.Nodup) (F : Kern) (hFr : F.rows = (outR.map sz).sum) (hFc : F.cols = (inR.map sz).sum) :
    ∃ F', Blocks.fwdLoop m w F L = .ok F' ∧ F'.rows = (outR.map sz).sum ∧ F'.cols = (inR.map sz).sum ∧
      (∀ p ∈ L, ∀ b, HasBlock nm gen inR outR p b → ∀ k, m.pairs[k]? = some p → ∀ (j l : ℕ) r c pt, (labelIdx sz outR (outR.map nm) p.2)[j]? = some r →
        (labelIdx sz inR (inR.map nm) p.1)[l]? = some c → pt < S → F'.get r c pt =
          ∑ e ∈ Finset.range b.dim, (b.sampled[e]?.getD fun _ _ _ => 0) (j % b.outSize) (l % b.inSize) pt * w (slot nm inR m T p b k (j / b.outSize) (l / b.inSize) e)) ∧
      ∀ r c pt, (∀ p ∈ L, ¬ (r ∈ labelIdx sz outR (outR.map nm) p.2 ∧ c ∈ labelIdx sz inR (inR.map nm) p.1)) → F'.get r c pt = F.get r c pt := by
  induction L generalizing F with
  | nil => exact ⟨F, rfl, hFr, hFc, by simp, fun _ _ _ _ => rfl⟩
  | cons p L ih =>
    have hp := hL p (by simp)
    obtain ⟨b, hb⟩ := (f.mem p).1 hp
    obtain ⟨i, hi, o, ho, hpe, hg⟩ := hb
    have hb : HasBlock nm gen inR outR p b := ⟨i, hi, o, ho, hpe, hg⟩
    obtain ⟨hwf, hbo, hbi⟩ : b.WF ∧ b.outSize = sz o ∧ b.inSize = sz i := by
      rcases h.gen_ok i hi o ho with h' | ⟨b', h1, h2, h3, h4⟩
      · rw [hg] at h'; cases h'
      · rw [hg] at h1; cases h1; exact ⟨h2, h3, h4⟩
    obtain ⟨k, hk⟩ := List.mem_iff_getElem?.1 hp
    obtain ⟨c, ii, oi, hc, hii, hoi, hent⟩ := f.idx p hp
    have hsi : ∀ (k : ℕ) (r : R), (inR.map nm)[k]? = some p.1 → inR[k]? = some r → sz r = sz i := by
      intro k r h1 h2
      rw [List.getElem?_map, h2] at h1
      have h3 : nm r = nm i := by simpa [hpe] using h1
      rw [h.in_name r (List.mem_of_getElem? h2) i hi (by rw [h3])]
    have hso : ∀ (k : ℕ) (r : R), (outR.map nm)[k]? = some p.2 → outR[k]? = some r → sz r = sz o := by
      intro k r h1 h2
      rw [List.getElem?_map, h2] at h1
      have h3 : nm r = nm o := by simpa [hpe] using h1
      rw [h.out_name r (List.mem_of_getElem? h2) o ho (by rw [h3])]
    have hIne : labelIdx sz inR (inR.map nm) p.1 ≠ [] := by
      rw [← indices_eq, hpe]; exact indices_ne_nil h.in_pos hi
    have hOne : labelIdx sz outR (outR.map nm) p.2 ≠ [] := by
      rw [← indices_eq, hpe]; exact indices_ne_nil h.out_pos ho
    obtain ⟨F1, e1, e2, e3, e4, e5⟩ := write_spec (f := F) (e := ⟨nFields nm outR p.2, b.outSize, nFields nm inR p.1, b.inSize, S, fun co o ci i pt =>
      ∑ e ∈ Finset.range b.dim, (b.sampled[e]?.getD fun _ _ _ => 0) o i pt * w (slot nm inR m T p b k co ci e)⟩) hS rfl hent
      (labelIdx_nodup (by simp) _) (labelIdx_nodup (by simp) _) (by rw [labelIdx_length (by simp) _ _ hsi, hbi]) (by rw [labelIdx_length (by simp) _ _ hso, hbo])
      (fun c hc => by rw [hFc]; exact labelIdx_lt hc) (fun r hr => by rw [hFr]; exact labelIdx_lt hr) hIne hOne
    obtain ⟨F2, g1, g2, g3, g4, g5⟩ := ih (fun q hq => hL q (by simp [hq])) (List.nodup_cons.1 hnd).2 F1 (e2.trans hFr) (e3.trans hFc)
    have hdisj : ∀ q ∈ L, ∀ r c, r ∈ labelIdx sz outR (outR.map nm) p.2 → c ∈ labelIdx sz inR (inR.map nm) p.1 →
        ¬ (r ∈ labelIdx sz outR (outR.map nm) q.2 ∧ c ∈ labelIdx sz inR (inR.map nm) q.1) := by
      rintro q hq r c h1 h2 ⟨h3, h4⟩
      have : p = q := Prod.ext (labelIdx_disjoint h2 h4) (labelIdx_disjoint h1 h3)
      exact (List.nodup_cons.1 hnd).1 (this ▸ hq)
    refine ⟨F2, ?_, g2, g3, ?_, ?_⟩
    · rw [Blocks.fwdLoop]
      have he := f.expandBlock hb hwf.1 hk w
      rw [f.pts]
      simp only [bind, Except.bind] at e1 ⊢
      rw [hii]
      simp only
      rw [hoi]
      simp only
      rw [he]
      simp only
      rw [hc]
      simp only
      rw [e1]
      exact g1
    · intro q hq b' hb' k' hk' j l r c' pt hr hc' hpt
      rcases List.mem_cons.1 hq with rfl | hq
      · obtain rfl := h.hasBlock_unique hb hb'
        obtain rfl : k = k' := (List.getElem?_inj (List.getElem?_eq_some_iff.1 hk).1 f.nodup).1 (hk.trans hk'.symm)
        rw [g5 r c' pt (fun q' hq' => hdisj q' hq' r c' (List.mem_of_getElem? hr) (List.mem_of_getElem? hc'))]
        exact e4 j l r c' pt hr hc' hpt
      · exact g4 q hq b' hb' k' hk' j l r c' pt hr hc' hpt
    · intro r c' pt hn
      rw [g5 r c' pt fun q hq => hn q (by simp [hq]), e5 r c' pt (hn p (by simp))]

end Blocks

end Escnn
