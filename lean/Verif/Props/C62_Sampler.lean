import Verif.Lemmas.Sampler
import Verif.Props.C34_Filter

/-!
# C62: the two evaluation orders of `BlocksBasisSampler`
-/

namespace Escnn

namespace Sampler

variable {R X A : Type} {nm : R → String} {sz : R → ℕ} {bg : R → R → Except Err (PBasis X A)} {uin uout inR outR : List R}

/-- What is required of the arguments of `BlocksBasisSampler`: `uin` and `uout` enumerate the sets of representations; representations with the same name have the same size, which is positive; no name contains a dot; the generator returns kernels of the right shape or raises
`EmptyBasisException`. -/
structure Input (nm : R → String) (sz : R → ℕ) (bg : R → R → Except Err (PBasis X A)) (uin uout inR outR : List R) : Prop where
  uin_mem : ∀ r, r ∈ uin ↔ r ∈ inR
  uin_nodup : uin.Nodup
  uout_mem : ∀ r, r ∈ uout ↔ r ∈ outR
  uout_nodup : uout.Nodup
  in_name : ∀ r ∈ inR, ∀ r' ∈ inR, nm r = nm r' → sz r = sz r'
  out_name : ∀ r ∈ outR, ∀ r' ∈ outR, nm r = nm r' → sz r = sz r'
  in_pos : ∀ r ∈ inR, 0 < sz r
  out_pos : ∀ r ∈ outR, 0 < sz r
  in_dot : ∀ r ∈ inR, '.' ∉ (nm r).toList
  out_dot : ∀ r ∈ outR, '.' ∉ (nm r).toList
  basis : ∀ i ∈ inR, ∀ o ∈ outR, bg i o = .error .emptyBasis ∨ ∃ k, bg i o = .ok k ∧ k.outSize = sz o ∧ k.inSize = sz i

theorem ofFilter_cases (k : PBasis X A) (f : Option (Attr A → Bool)) : PBlock.ofFilter k f = .error .emptyBasis ∨ ∃ b, PBlock.ofFilter k f = .ok b ∧ b.basis = k := by
  unfold PBlock.ofFilter
  cases f with
  | none =>
    simp only
    rw [PBlock.init, if_neg (by simp)]
    by_cases hk : ¬ (List.map (fun _ => true) k.attrs).any id = true
    · exact .inl (by rw [if_pos hk])
    · exact .inr ⟨_, by rw [if_neg hk], rfl⟩
  | some f =>
    simp only
    rw [PBlock.init, if_neg (by simp)]
    by_cases hk : ¬ (List.map f k.attrs).any id = true
    · exact .inl (by rw [if_pos hk])
    · exact .inr ⟨_, by rw [if_neg hk], rfl⟩

theorem ofFilter_dim {k : PBasis X A} {f : Option (Attr A → Bool)} {b : PBlock X A} (h : PBlock.ofFilter k f = .ok b) : 0 < b.dim := by
  have key : ∀ mask, PBlock.init k mask = .ok b → 0 < b.dim := by
    intro mask h
    unfold PBlock.init at h
    split_ifs at h with h1 h2
    obtain rfl := Except.ok.inj h
    simp only [not_not, List.any_eq_true, id_eq, exists_eq_right] at h2
    exact List.count_pos_iff.2 h2
  cases f with
  | none => exact key _ h
  | some f => exact key _ h

theorem noDot_of {s : String} (h : '.' ∉ s.toList) : noDot s = true := by
  rw [noDot, List.all_eq_true]
  intro c hc
  simp only [ne_eq, decide_eq_true_eq]
  rintro rfl
  exact h hc

theorem Input.blockFor_cases (h : Input nm sz bg uin uout inR outR) (filt : Option (Attr A → Bool)) {i o : R} (hi : i ∈ inR) (ho : o ∈ outR) :
    blockFor nm bg filt i o = .error .emptyBasis ∨ ∃ b, blockFor nm bg filt i o = .ok b ∧ b.basis.outSize = sz o ∧ b.basis.inSize = sz i := by
  rcases h.basis i hi o ho with e | ⟨k, e1, e2, e3⟩
  · exact .inl (by rw [blockFor, e]; rfl)
  · rcases ofFilter_cases k filt with e | ⟨b, e, e4⟩
    · exact .inl (by rw [blockFor, e1]; simp only [bind, Except.bind]; rw [e])
    · refine .inr ⟨b, ?_, by rw [e4, e2], by rw [e4, e3]⟩
      rw [blockFor, e1]
      simp only [bind, Except.bind]
      rw [e]
      simp only
      rw [noDot_of (h.in_dot i hi), noDot_of (h.out_dot o ho)]
      rfl

theorem collect_spec {gen : R → R → Except Err (PBlock X A)} (L : List (R × R)) (hL : ∀ e ∈ L, gen e.1 e.2 = .error .emptyBasis ∨ ∃ b, gen e.1 e.2 = .ok b) :
    ∃ d, collect nm gen L = .ok d ∧ ∀ p b, (p, b) ∈ d ↔ ∃ e ∈ L, p = (nm e.1, nm e.2) ∧ gen e.1 e.2 = .ok b := by
  induction L with
  | nil => exact ⟨[], rfl, by simp⟩
  | cons e L ih =>
    obtain ⟨i, o⟩ := e
    obtain ⟨d, h1, h2⟩ := ih fun e he => hL e (by simp [he])
    rcases hL (i, o) (by simp) with h | ⟨b, h⟩
    · refine ⟨d, by rw [collect]; simp only at h; rw [h]; exact h1, fun p b => ?_⟩
      rw [h2]
      constructor
      · rintro ⟨e, he, hp⟩; exact ⟨e, by simp [he], hp⟩
      · rintro ⟨e, he, hp, hg⟩
        rcases List.mem_cons.1 he with rfl | he
        · rw [h] at hg; cases hg
        · exact ⟨e, he, hp, hg⟩
    · refine ⟨((nm i, nm o), b) :: d, by rw [collect]; simp only at h; rw [h]; simp only [bind, Except.bind]; rw [h1], fun p b' => ?_⟩
      rw [List.mem_cons, h2]
      constructor
      · rintro (he | ⟨e, he, hp⟩)
        · cases he; exact ⟨(i, o), by simp, rfl, h⟩
        · exact ⟨e, by simp [he], hp⟩
      · rintro ⟨e, he, hp, hg⟩
        rcases List.mem_cons.1 he with rfl | he
        · rw [h] at hg; cases hg; exact .inl (by rw [hp])
        · exact .inr ⟨e, he, hp, hg⟩

theorem rangesLoop_spec (mods : List ((String × String) × PBlock X A)) (ic oc : String → ℕ) (T : String × String → ℕ) (last : ℕ) (L : List (String × String)) (hL : L.Nodup)
    (h : ∀ p ∈ L, ∃ b, dictGet mods p = .ok b ∧ T p = b.dim * (ic p.1 * oc p.2)) :
    ∃ r, rangesLoop mods ic oc last L = .ok r ∧ r.1.map Prod.fst = L ∧ (∀ e ∈ r.1, e.2.2 = e.2.1 + T e.1) ∧ r.2 = last + (L.map T).sum := by
  induction L generalizing last with
  | nil => exact ⟨([], last), rfl, rfl, by simp, by simp⟩
  | cons q L ih =>
    obtain ⟨b, hb, hT⟩ := h q (by simp)
    obtain ⟨r, h1, h2, h3, h4⟩ := ih (last + T q) (List.nodup_cons.1 hL).2 fun p hp => h p (by simp [hp])
    refine ⟨((q, (last, last + T q)) :: r.1, r.2), ?_, by simp [h2], ?_, by simp only [h4, List.map_cons, List.sum_cons]; omega⟩
    · rw [rangesLoop]
      simp only [bind, Except.bind]
      rw [hb]
      simp only
      rw [← hT, h1]
    · intro e he
      rcases List.mem_cons.1 he with rfl | he
      · rfl
      · exact h3 e he

theorem pairIndices_spec (hin : ∀ r ∈ inR, 0 < sz r) (hout : ∀ r ∈ outR, 0 < sz r) {i o : R} (hi : i ∈ inR) (ho : o ∈ outR) :
    ∃ c ii oi, pairIndices nm sz inR outR (nm i, nm o) = .ok (c, ii, oi) ∧
      Entry c ii oi (labelIdx sz inR (inR.map nm) (nm i)) (labelIdx sz outR (outR.map nm) (nm o)) := by
  have hI := Blocks.indices_ne_nil (nm := nm) hin hi
  have hO := Blocks.indices_ne_nil (nm := nm) hout ho
  rw [← Blocks.indices_eq, ← Blocks.indices_eq]
  obtain ⟨ci, h1, h2⟩ := checkConsecutive_iff _ hI (Blocks.indices_sorted inR _)
  obtain ⟨co, h3, h4⟩ := checkConsecutive_iff _ hO (Blocks.indices_sorted outR _)
  have hc : pairIndices nm sz inR outR (nm i, nm o) = (if (ci && co) = true then do
      let i' ← Blocks.bounds (Blocks.indices nm sz inR (nm i))
      let o' ← Blocks.bounds (Blocks.indices nm sz outR (nm o))
      .ok (true, i', o')
    else .ok (false, Blocks.indices nm sz inR (nm i), Blocks.indices nm sz outR (nm o))) := by
    rw [pairIndices]
    simp only [bind, Except.bind]
    rw [h1, h3]
  rw [hc]
  cases hcc : ci && co with
  | true =>
    rw [Bool.and_eq_true] at hcc
    obtain ⟨a, ha⟩ := h2.1 hcc.1
    obtain ⟨a', ha'⟩ := h4.1 hcc.2
    have hm := List.length_pos_of_ne_nil hI
    have hm' := List.length_pos_of_ne_nil hO
    generalize (Blocks.indices nm sz inR (nm i)).length = m at ha hm
    generalize (Blocks.indices nm sz outR (nm o)).length = m' at ha' hm'
    refine ⟨true, [a, a + m, m], [a', a' + m', m'], ?_, .inl ⟨rfl, a, m, a', m', ha, ha', rfl, rfl⟩⟩
    rw [if_pos rfl, ha, ha', Blocks.bounds_range a m hm, Blocks.bounds_range a' m' hm']
    rfl
  | false =>
    refine ⟨false, _, _, rfl, .inr ⟨rfl, ?_, rfl, rfl⟩⟩
    rintro ⟨⟨a, n, ha⟩, a', n', ha'⟩
    rw [Bool.and_eq_false_iff] at hcc
    rcases hcc with hcc | hcc
    · have := h2.2 ⟨a, by rw [ha]; simp⟩
      rw [hcc] at this; cases this
    · have := h4.2 ⟨a', by rw [ha']; simp⟩
      rw [hcc] at this; cases this

/-- What the constructor has computed. -/
structure Facts [DecidableEq R] (nm : R → String) (sz : R → ℕ) (gen : R → R → Except Err (PBlock X A)) (uin uout inR outR : List R) (m : Sampler X A) : Prop where
  inSize : m.inSize = (inR.map sz).sum
  outSize : m.outSize = (outR.map sz).sum
  nodup : m.pairs.Nodup
  mem : ∀ p, p ∈ m.pairs ↔ ∃ i ∈ inR, ∃ o ∈ outR, p = (nm i, nm o) ∧ ∃ b, gen i o = .ok b
  uniform : m.uniform = true ↔ (∃ i, inR ≠ [] ∧ ∀ r ∈ inR, r = i) ∧ ∃ o, outR ≠ [] ∧ ∀ r ∈ outR, r = o
  data : ∀ p ∈ m.pairs, ∃ b rg c ii oi, PairData m p b rg c ii oi (labelIdx sz inR (inR.map nm) p.1) (labelIdx sz outR (outR.map nm) p.2)
  inCount : m.inCount = Blocks.count nm inR
  outCount : m.outCount = Blocks.count nm outR
  block : ∀ p ∈ m.pairs, ∃ i ∈ inR, ∃ o ∈ outR, p = (nm i, nm o) ∧ ∃ b, gen i o = .ok b ∧ tabGet m.blocks p = .ok b
  dim : m.dim = 0 ↔ m.pairs = []

theorem allSame_iff [DecidableEq R] (L : List R) : allSame L = true ↔ L = [] ∨ ∃ i, L ≠ [] ∧ ∀ r ∈ L, r = i := by
  cases L with
  | nil => simp [allSame]
  | cons a L =>
    simp only [allSame, List.all_eq_true, decide_eq_true_eq, List.cons_ne_nil, false_or, List.mem_cons, ne_eq, not_false_eq_true, true_and]
    constructor
    · exact fun h => ⟨a, fun r hr => hr.elim id (h r)⟩
    · rintro ⟨i, h⟩ r hr
      rw [h r (.inr hr), h a (.inl rfl)]

theorem length_one_of {u L : List R} (hu : u.Nodup) (h : ∀ r, r ∈ u ↔ r ∈ L) : u.length = 1 ↔ ∃ i, L ≠ [] ∧ ∀ r ∈ L, r = i := by
  constructor
  · intro hl
    obtain ⟨a, rfl⟩ := List.length_eq_one_iff.1 hl
    refine ⟨a, List.ne_nil_of_mem ((h a).1 (by simp)), fun r hr => ?_⟩
    simpa using (h r).2 hr
  · rintro ⟨i, h1, h2⟩
    obtain ⟨r, hr⟩ := List.exists_mem_of_ne_nil L h1
    have hi : i ∈ u := (h i).2 (h2 r hr ▸ hr)
    have : ∀ r ∈ u, r = i := fun r hr => h2 r ((h r).1 hr)
    match u, hu, hi, this with
    | [a], _, _, _ => rfl
    | a :: b :: u, hu, _, this =>
      have h1 := this a (by simp)
      have h2 := this b (by simp)
      rw [h1, h2] at hu
      simp at hu

theorem Input.init_spec [DecidableEq R] (h : Input nm sz bg uin uout inR outR) (filt : Option (Attr A → Bool)) :
    ∃ m, init nm sz (blockFor nm bg filt) uin uout inR outR = .ok m ∧ Facts nm sz (blockFor nm bg filt) uin uout inR outR m := by
  classical
  have hmem : ∀ i o, (i, o) ∈ (uin.flatMap fun i => uout.map fun o => (i, o)) ↔ i ∈ inR ∧ o ∈ outR := by
    intro i o
    simp only [List.mem_flatMap, List.mem_map, Prod.mk.injEq]
    constructor
    · rintro ⟨i', h1, o', h2, rfl, rfl⟩; exact ⟨(h.uin_mem _).1 h1, (h.uout_mem _).1 h2⟩
    · rintro ⟨h1, h2⟩; exact ⟨i, (h.uin_mem _).2 h1, o, (h.uout_mem _).2 h2, rfl, rfl⟩
  obtain ⟨mods, h1, h2⟩ := collect_spec (nm := nm) (gen := blockFor nm bg filt) (uin.flatMap fun i => uout.map fun o => (i, o)) (by
    rintro ⟨i, o⟩ he
    obtain ⟨hi, ho⟩ := (hmem i o).1 he
    exact (h.blockFor_cases filt hi ho).imp_right fun ⟨b, hb, _⟩ => ⟨b, hb⟩)
  have h2' : ∀ p b, (p, b) ∈ mods ↔ ∃ i ∈ inR, ∃ o ∈ outR, p = (nm i, nm o) ∧ blockFor nm bg filt i o = .ok b := by
    intro p b
    rw [h2]
    constructor
    · rintro ⟨⟨i, o⟩, he, hp, hg⟩
      obtain ⟨hi, ho⟩ := (hmem i o).1 he
      exact ⟨i, hi, o, ho, hp, hg⟩
    · rintro ⟨i, hi, o, ho, hp, hg⟩
      exact ⟨(i, o), (hmem i o).2 ⟨hi, ho⟩, hp, hg⟩
  have hperm : (((mods.map Prod.fst).dedup).mergeSort pairLe).Perm (mods.map Prod.fst).dedup := List.mergeSort_perm _ _
  have hkey : ∀ p, p ∈ ((mods.map Prod.fst).dedup).mergeSort pairLe ↔ p ∈ mods.map Prod.fst := fun p => by rw [hperm.mem_iff, List.mem_dedup]
  have hnd : (((mods.map Prod.fst).dedup).mergeSort pairLe).Nodup := hperm.nodup_iff.2 (List.nodup_dedup _)
  generalize hpairs : ((mods.map Prod.fst).dedup).mergeSort pairLe = pairs at *
  have hex : ∀ p ∈ pairs, ∃ b, FType.lookupLast mods p = some b ∧ ∃ i ∈ inR, ∃ o ∈ outR, p = (nm i, nm o) ∧ blockFor nm bg filt i o = .ok b := by
    intro p hp
    obtain ⟨b, h3, h4⟩ := lookupLast_mem ((hkey p).1 hp)
    exact ⟨b, h3, (h2' p b).1 h4⟩
  haveI : Nonempty (PBlock X A) := ⟨⟨⟨0, 0, [], fun _ _ _ _ _ => 0⟩, []⟩⟩
  choose! bl hb1 hb2 using hex
  obtain ⟨r, hr1, hr2, hr3, hr4⟩ := rangesLoop_spec mods (Blocks.count nm inR) (Blocks.count nm outR) (fun p => (bl p).dim * (Blocks.count nm inR p.1 * Blocks.count nm outR p.2)) 0 pairs hnd
    (fun p hp => ⟨bl p, dictGet_ok.2 (hb1 p hp), rfl⟩)
  have hpi : ∀ p ∈ pairs, ∃ c : Bool × List ℕ × List ℕ, pairIndices nm sz inR outR p = .ok c ∧ Entry c.1 c.2.1 c.2.2 (labelIdx sz inR (inR.map nm) p.1) (labelIdx sz outR (outR.map nm) p.2) := by
    intro p hp
    obtain ⟨i, hi, o, ho, rfl, -⟩ := hb2 p hp
    obtain ⟨c, ii, oi, e1, e2⟩ := pairIndices_spec (nm := nm) h.in_pos h.out_pos hi ho
    exact ⟨(c, ii, oi), e1, e2⟩
  choose! e he1 he2 using hpi
  have ht : mapE (fun p => do
      let e ← pairIndices nm sz inR outR p
      .ok (p, e)) pairs = .ok (pairs.map fun p => (p, e p)) := mapE_map fun p hp => by rw [he1 p hp]; rfl
  have hcons : ∀ rs : List R, (∀ r ∈ rs, 0 < sz r) → ∃ L, mapE (fun n => checkConsecutive (Blocks.indices nm sz rs n)) (rs.map nm) = .ok L := by
    intro rs hpos
    have : ∀ n ∈ rs.map nm, ∃ c, checkConsecutive (Blocks.indices nm sz rs n) = .ok c := by
      intro n hn
      obtain ⟨r, hr, rfl⟩ := List.mem_map.1 hn
      obtain ⟨c, hc, -⟩ := checkConsecutive_iff _ (Blocks.indices_ne_nil (nm := nm) hpos hr) (Blocks.indices_sorted rs _)
      exact ⟨c, hc⟩
    choose! c hc using this
    exact ⟨_, mapE_map hc⟩
  obtain ⟨Li, hLi⟩ := hcons inR h.in_pos
  obtain ⟨Lo, hLo⟩ := hcons outR h.out_pos
  have hzero : ∀ {u L : List R}, (∀ r, r ∈ u ↔ r ∈ L) → L = [] → u.length = 0 := by
    rintro u L hu rfl
    rw [List.length_eq_zero_iff]
    exact List.eq_nil_iff_forall_not_mem.2 fun r hr => by simpa using (hu r).1 hr
  have hassert : pyAssert (!(allSame inR && allSame outR) || decide (uin.length * uout.length ≤ 1)) = .ok () := by
    rw [pyAssert, if_pos]
    rw [Bool.or_eq_true]
    by_cases hu : (allSame inR && allSame outR) = true
    · right
      rw [decide_eq_true_eq]
      rw [Bool.and_eq_true, allSame_iff, allSame_iff] at hu
      rcases hu.1 with h3 | h3
      · rw [hzero h.uin_mem h3]; omega
      · rw [(length_one_of h.uin_nodup h.uin_mem).2 h3]
        rcases hu.2 with h4 | h4
        · rw [hzero h.uout_mem h4]; omega
        · rw [(length_one_of h.uout_nodup h.uout_mem).2 h4]
    · left; rw [Bool.not_eq_true] at hu; rw [hu]; rfl
  have hsame : ∀ {rs : List R}, (∀ r ∈ rs, ∀ r' ∈ rs, nm r = nm r' → sz r = sz r') → ∀ {i : R}, i ∈ rs → ∀ (k : ℕ) (r : R), (rs.map nm)[k]? = some (nm i) → rs[k]? = some r → sz r = sz i := by
    intro rs hrs i hi k r h3 h4
    rw [List.getElem?_map, h4] at h3
    exact hrs r (List.mem_of_getElem? h4) i hi (by simpa using h3)
  have hpos : ∀ {rs : List R}, (∀ r ∈ rs, 0 < sz r) → ∀ {i : R}, i ∈ rs → 0 < Blocks.count nm rs (nm i) := by
    intro rs hrs i hi
    rw [Blocks.count_eq]
    obtain ⟨k, hk⟩ := List.mem_iff_getElem?.1 hi
    exact List.length_pos_of_mem (a := k) (mem_labelled.2 (by rw [List.getElem?_map, hk]; rfl))
  refine ⟨_, by
    rw [init]
    simp only [bind, Except.bind]
    rw [h1]
    simp only
    rw [hassert]
    simp only
    rw [hLi]
    simp only
    rw [hLo]
    simp only
    rw [hpairs]
    simp only [bind, Except.bind] at ht
    rw [ht]
    simp only
    rw [hr1], ?_⟩
  refine ⟨rfl, rfl, hnd, fun p => ?_, ?_, fun p hp => ?_, rfl, rfl, fun p hp => by
    obtain ⟨i, hi, o, ho, hpe, hb⟩ := hb2 p hp
    exact ⟨i, hi, o, ho, hpe, bl p, hb, tabGet_ok.2 (hb1 p hp)⟩, ?_⟩
  · rw [hkey, List.mem_map]
    constructor
    · rintro ⟨⟨q, b⟩, hq, rfl⟩
      obtain ⟨i, hi, o, ho, hp, hb⟩ := (h2' _ _).1 hq
      exact ⟨i, hi, o, ho, hp, b, hb⟩
    · rintro ⟨i, hi, o, ho, hp, b, hb⟩; exact ⟨(p, b), (h2' _ _).2 ⟨i, hi, o, ho, hp, hb⟩, rfl⟩
  · rw [← length_one_of h.uin_nodup h.uin_mem, ← length_one_of h.uout_nodup h.uout_mem]
    simp only [Bool.and_eq_true, decide_eq_true_eq, allSame_iff, mul_eq_one]
    rw [← length_one_of h.uin_nodup h.uin_mem, ← length_one_of h.uout_nodup h.uout_mem]
    tauto
  · obtain ⟨i, hi, o, ho, rfl, hb⟩ := hb2 p hp
    obtain ⟨b', hb', hs1, hs2⟩ := (h.blockFor_cases filt hi ho).resolve_left (by rw [hb]; simp)
    rw [hb] at hb'
    obtain rfl := Except.ok.inj hb'
    obtain ⟨rg, hrg1, hrg2⟩ := lookupLast_mem (d := r.1) (l := (nm i, nm o)) (by rw [hr2]; exact hp)
    have hrg3 := hr3 _ hrg2
    simp only at hrg3
    have hsz : ∃ s, dictGet (inR.map fun r => (nm r, sz r)) (nm i) = .ok s ∧ s = sz i := by
      obtain ⟨s, hs3, hs4⟩ := lookupLast_mem (d := inR.map fun r => (nm r, sz r)) (l := nm i) (by simp only [List.map_map, List.mem_map]; exact ⟨i, hi, rfl⟩)
      refine ⟨s, dictGet_ok.2 hs3, ?_⟩
      obtain ⟨r', hr', e'⟩ := List.mem_map.1 hs4
      obtain ⟨e1, e2⟩ := Prod.mk.inj e'
      rw [← e2, h.in_name r' hr' i hi e1]
    obtain ⟨s, hsz, rfl⟩ := hsz
    refine ⟨bl (nm i, nm o), rg, (e (nm i, nm o)).1, (e (nm i, nm o)).2.1, (e (nm i, nm o)).2.2, ⟨tabGet_ok.2 (hb1 _ hp), dictGet_ok.2 hrg1, by rw [hrg3]; simp, by rw [hs2]; exact hsz, by rw [hs2]; exact h.in_pos i hi, by rw [hs1]; exact h.out_pos o ho,
      hpos h.in_pos hi, hpos h.out_pos ho, ?_, ?_, labelIdx_nodup (by simp) _, labelIdx_nodup (by simp) _, fun c hc => labelIdx_lt hc, fun c hc => labelIdx_lt hc, ?_, ?_, ?_, he2 _ hp⟩⟩
    · rw [hs2, labelIdx_length (by simp) (nm i) (sz i) (hsame h.in_name hi)]
      simp only
      rw [Blocks.count_eq]
    · rw [hs1, labelIdx_length (by simp) (nm o) (sz o) (hsame h.out_name ho)]
      simp only
      rw [Blocks.count_eq]
    · rw [dictGet_ok, lookupLast_of_nodup (by simpa [List.map_map, Function.comp_def] using hnd)]
      simp only [List.map_map, List.mem_map]
      exact ⟨_, hp, rfl⟩
    · rw [tabGet_ok, lookupLast_of_nodup (by simpa [List.map_map, Function.comp_def] using hnd)]
      simp only [List.map_map, List.mem_map]
      exact ⟨_, hp, rfl⟩
    · rw [tabGet_ok, lookupLast_of_nodup (by simpa [List.map_map, Function.comp_def] using hnd)]
      simp only [List.map_map, List.mem_map]
      exact ⟨_, hp, rfl⟩
  · change r.2 = 0 ↔ pairs = []
    rw [hr4, Nat.zero_add]
    constructor
    · intro h0
      rw [List.eq_nil_iff_forall_not_mem]
      intro p hp
      have h3 := List.sum_eq_zero_iff.1 h0 _ (List.mem_map.2 ⟨p, hp, rfl⟩)
      obtain ⟨i, hi, o, ho, rfl, hb⟩ := hb2 p hp
      have hbd : 0 < (bl (nm i, nm o)).dim := by
        rw [blockFor] at hb
        simp only [bind, Except.bind] at hb
        cases hk : bg i o with
        | error e => rw [hk] at hb; cases hb
        | ok k =>
          rw [hk] at hb
          simp only at hb
          cases hf : PBlock.ofFilter k filt with
          | error e => rw [hf] at hb; cases hb
          | ok b' =>
            rw [hf] at hb
            simp only at hb
            split_ifs at hb
            rw [← Except.ok.inj hb]
            exact ofFilter_dim hf
      have := Nat.mul_pos hbd (Nat.mul_pos (hpos h.in_pos hi) (hpos h.out_pos ho))
      simp only at h3
      exact absurd h3 (Nat.ne_of_gt this)
    · rintro h0
      rw [h0]; rfl

theorem allSame_idx {rs : List R} {i : R} (h : ∀ r ∈ rs, r = i) : labelIdx sz rs (rs.map nm) (nm i) = List.range' 0 (rs.map sz).sum :=
  Blocks.labelIdx_all rs (nm i) fun r hr => by rw [h r hr]

/-- Both orders at once, for `groups = 1`. -/
theorem Facts.both [DecidableEq R] {gen : R → R → Except Err (PBlock X A)} {m : Sampler X A} (f : Facts nm sz gen uin uout inR outR m) (w : ℕ → ℝ) (pts : List X) (hS : 0 < pts.length) (x : GIn) (hx : x.groups = 1) (hxS : x.S = pts.length) (hxc : x.cols = m.inSize) :
    (m.uniform = true ∧ m.pairs = []) ∨ ∃ F y, m.forward m.dim w pts = .ok F ∧ F.S = pts.length ∧ F.rows = m.outSize ∧ F.cols = m.inSize ∧
      (if m.uniform then (do
        let p ← pyGet m.pairs 0
        let s ← dictGet m.inSizes p.1
        let d ← x.view (m.inCount p.1) s
        let y ← m.computeOut w d pts p
        y.reshape m.outSize) else cmpLoop m w x pts ⟨x.S, m.outSize, fun _ _ => 0⟩ m.pairs) = .ok y ∧ y.S = x.S ∧ y.cols = m.outSize ∧
      ∀ pt r, r < m.outSize → y.get pt r = ∑ c ∈ Finset.range m.inSize, F.get pt r c * x.get pt 0 c := by
  by_cases hu : m.uniform = true
  · obtain ⟨⟨i, hi1, hi2⟩, o, ho1, ho2⟩ := f.uniform.1 hu
    cases hp : m.pairs with
    | nil => exact .inl ⟨hu, rfl⟩
    | cons p L =>
      right
      have hpm : p ∈ m.pairs := by rw [hp]; simp
      obtain ⟨i', hi', o', ho', rfl, -⟩ := (f.mem p).1 hpm
      obtain ⟨b, rg, c, ii, oi, hd⟩ := f.data _ hpm
      rw [hi2 i' hi', ho2 o' ho'] at hd
      simp only [allSame_idx hi2, allSame_idx ho2] at hd
      rw [← f.inSize, ← f.outSize] at hd
      obtain ⟨e, F, d, y, z, e1, e2, e3, e4, e5, e6, e7, e8, e9, e10, e11⟩ := uniform_case w pts x hx hxS hxc hd
      refine ⟨F, z, ?_, e6, e7, e8, ?_, e9, e10, e11⟩
      · rw [forward, if_neg (by simp), if_pos hu, hp]
        simp only [bind, Except.bind, show ∀ a : String × String, pyGet (a :: L) 0 = .ok a from fun _ => by simp [pyGet]]
        rw [hi2 i' hi', ho2 o' ho', e1]
        exact e2
      · rw [if_pos hu]
        simp only [bind, Except.bind, show ∀ a : String × String, pyGet (a :: L) 0 = .ok a from fun _ => by simp [pyGet]]
        rw [hi2 i' hi', ho2 o' ho', hd.isz]
        simp only
        rw [e3]
        simp only
        rw [e4]
        exact e5
  · right
    obtain ⟨F, y, e1, e2, e3, e4, e5, e6, e7, e8⟩ := loops (m := m) w pts hS x hx hxS hxc (fun p => labelIdx sz inR (inR.map nm) p.1) (fun p => labelIdx sz outR (outR.map nm) p.2) m.pairs f.nodup f.data
      (fun p _ p' _ r c h1 h2 h3 h4 => Prod.ext (labelIdx_disjoint h2 h4) (labelIdx_disjoint h1 h3)) ⟨pts.length, m.outSize, m.inSize, fun _ _ _ => 0⟩ rfl rfl (fun _ _ _ _ _ _ _ => rfl) ⟨x.S, m.outSize, fun _ _ => 0⟩ rfl (fun _ _ => by simp)
    exact ⟨F, y, by rw [forward, if_neg (by simp), if_neg hu]; exact e1, e3, e4, e5, by rw [if_neg hu]; exact e2, e6, e7, fun pt r _ => e8 pt r⟩

/-- **C62** For `groups = 1`, all layouts, points, weights and inputs: computing the features first and expanding the filter first give the same messages; the only exception is a single pair of representations with an empty basis, for which both orders raise `IndexError`. -/
theorem C62_orders_agree [DecidableEq R] (h : Input nm sz bg uin uout inR outR) (filt : Option (Attr A → Bool)) :
    ∃ m, init nm sz (blockFor nm bg filt) uin uout inR outR = .ok m ∧ ∀ (w : ℕ → ℝ) (pts : List X) (x : Feats), 0 < pts.length → x.S = pts.length → x.cols = (inR.map sz).sum →
      ((∃ y y', m.messages m.dim w x pts true 1 = .ok y ∧ m.messages m.dim w x pts false 1 = .ok y' ∧ y.S = pts.length ∧ y'.S = pts.length ∧ y.cols = (outR.map sz).sum ∧ y'.cols = (outR.map sz).sum ∧
        ∀ p c, c < (outR.map sz).sum → y.get p c = y'.get p c) ∨
      (m.messages m.dim w x pts true 1 = .error .index ∧ m.messages m.dim w x pts false 1 = .error .index ∧
        ∃ i o, inR ≠ [] ∧ outR ≠ [] ∧ (∀ r ∈ inR, r = i) ∧ (∀ r ∈ outR, r = o) ∧ blockFor nm bg filt i o = .error .emptyBasis)) := by
  obtain ⟨m, hm, f⟩ := h.init_spec filt
  refine ⟨m, hm, fun w pts x hS hxS hxc => ?_⟩
  have hxc' : x.cols = m.inSize := by rw [hxc, f.inSize]
  have a1 : m.messages m.dim w x pts true 1 = m.computeThenExpand w x pts 1 := by
    rw [messages, if_neg (by rw [hxS, hxc', Nat.mul_one, Nat.mod_one]; simp), if_pos rfl]
  have a2 : m.messages m.dim w x pts false 1 = m.expandThenCompute m.dim w x pts 1 := by
    rw [messages, if_neg (by rw [hxS, hxc', Nat.mul_one, Nat.mod_one]; simp), if_neg (by simp)]
  rw [a1, a2, computeThenExpand, if_neg (by rw [hxS]; simp [hS]), if_neg (by rw [hxc']; simp)]
  rcases f.both w pts hS ⟨x.S, 1, m.inSize, fun p g c => x.get p (g * m.inSize + c)⟩ rfl hxS rfl with ⟨hu, hp⟩ | ⟨F, y, e1, e2, e3, e4, e5, e6, e7, e8⟩
  · right
    obtain ⟨⟨i, hi1, hi2⟩, o, ho1, ho2⟩ := f.uniform.1 hu
    refine ⟨?_, ?_, i, o, hi1, ho1, hi2, ho2, ?_⟩
    · simp only
      rw [if_pos hu, hp]
      rfl
    · rw [expandThenCompute, forward, if_neg (by simp), if_pos hu, hp]
      rfl
    · obtain ⟨r, hr⟩ := List.exists_mem_of_ne_nil _ hi1
      obtain ⟨r', hr'⟩ := List.exists_mem_of_ne_nil _ ho1
      have h1 := hi2 r hr
      have h2 := ho2 r' hr'
      subst h1 h2
      rcases h.blockFor_cases filt hr hr' with e | ⟨b, hb, -⟩
      · exact e
      · have := (f.mem (nm r, nm r')).2 ⟨r, hr, r', hr', rfl, b, hb⟩
        rw [hp] at this
        simp at this
  · left
    refine ⟨y, ⟨x.S, m.outSize, fun p c => ∑ i ∈ Finset.range m.inSize, F.get p (c / (m.outSize / 1) * (m.outSize / 1) + c % (m.outSize / 1)) i * x.get p (c / (m.outSize / 1) * m.inSize + i)⟩, e5, by
      rw [expandThenCompute, e1]
      simp only [bind, Except.bind]
      rw [if_neg (by rw [hxS]; simp [hS]), if_neg (by rw [e2, e3, e4, hxS, hxc']; simp)], by rw [e6]; exact hxS, hxS, by rw [e7, f.outSize], f.outSize, fun p c hc => ?_⟩
    rw [← f.outSize] at hc
    rw [e8 p c hc]
    simp only [Nat.div_one]
    refine Finset.sum_congr rfl fun i _ => ?_
    rw [Nat.div_eq_of_lt hc, Nat.mod_eq_of_lt hc, Nat.zero_mul, Nat.zero_mul, Nat.zero_add, Nat.zero_add]

/-- For `groups ≥ 2` the two orders differ: with at least two pairs of representations, all of them in consecutive channels, and a basis which is not empty, computing the features first raises `RuntimeError` (basissampler_blocks.py L466 reshapes to
`groups * out_indices[2]` columns, but `out_indices[2]` already counts the fields of all the groups), while expanding the filter first returns the messages. -/
theorem C62_groups_violation [DecidableEq R] (h : Input nm sz bg uin uout inR outR) (filt : Option (Attr A → Bool)) (hi : ∀ r ∈ inR, ∃ a n, labelIdx sz inR (inR.map nm) (nm r) = List.range' a n)
    (ho : ∀ r ∈ outR, ∃ a n, labelIdx sz outR (outR.map nm) (nm r) = List.range' a n) (hu : 1 < uin.length ∨ 1 < uout.length) {i o : R} (hi' : i ∈ inR) (ho' : o ∈ outR) {b : PBlock X A} (hb : blockFor nm bg filt i o = .ok b)
    (groups : ℕ) (hg : 1 < groups) (hdiv : (outR.map sz).sum % groups = 0) :
    ∃ m, init nm sz (blockFor nm bg filt) uin uout inR outR = .ok m ∧ ∀ (w : ℕ → ℝ) (pts : List X) (x : Feats), 0 < pts.length → x.S = pts.length → x.cols = (inR.map sz).sum * groups →
      m.messages m.dim w x pts true groups = .error .runtime ∧ ∃ y, m.messages m.dim w x pts false groups = .ok y := by
  obtain ⟨m, hm, f⟩ := h.init_spec filt
  refine ⟨m, hm, fun w pts x hS hxS hxc => ?_⟩
  have hnu : ¬ m.uniform = true := by
    rw [f.uniform, ← length_one_of h.uin_nodup h.uin_mem, ← length_one_of h.uout_nodup h.uout_mem]
    omega
  rw [← f.inSize] at hxc
  rw [← f.outSize] at hdiv
  have hpre : ¬ (m.dim ≠ m.dim ∨ x.cols ≠ m.inSize * groups ∨ x.S ≠ pts.length ∨ m.outSize % groups ≠ 0) := by simp [hxc, hxS, hdiv]
  constructor
  · rw [messages, if_neg hpre, if_pos rfl, computeThenExpand, if_neg (by rw [hxS]; simp [hS]), if_neg (by rw [hxc, Nat.mul_comm]; simp)]
    simp only
    rw [if_neg hnu]
    obtain ⟨p, L, hp⟩ : ∃ p L, m.pairs = p :: L := List.exists_cons_of_ne_nil (List.ne_nil_of_mem ((f.mem (nm i, nm o)).2 ⟨i, hi', o, ho', rfl, b, hb⟩))
    have hpm : p ∈ m.pairs := by rw [hp]; simp
    obtain ⟨i', hi'', o', ho'', rfl, -⟩ := (f.mem p).1 hpm
    obtain ⟨b, rg, c, ii, oi, hd⟩ := f.data _ hpm
    rw [hp, cmpLoop]
    simp only [bind, Except.bind]
    rw [hd.hii, hd.hoi]
    simp only
    rw [hd.cont]
    simp only
    obtain ⟨a, n, a', n', hI, hO, rfl, rfl, rfl⟩ : ∃ a n a' n', labelIdx sz inR (inR.map nm) (nm i') = List.range' a n ∧ labelIdx sz outR (outR.map nm) (nm o') = List.range' a' n' ∧ ii = [a, a + n, n] ∧ oi = [a', a' + n', n'] ∧ c = true := by
      rcases hd.entry with ⟨hc, a, n, a', n', e1, e2, e3, e4⟩ | ⟨-, hn, -⟩
      · exact ⟨a, n, a', n', e1, e2, e3, e4, hc⟩
      · exact absurd ⟨hi i' hi'', ho o' ho''⟩ hn
    have hn : n = m.inCount (nm i') * b.basis.inSize := by have := hd.ilen; simp only at this; rwa [hI, List.length_range'] at this
    have hn' : n' = m.outCount (nm o') * b.basis.outSize := by have := hd.olen; simp only at this; rwa [hO, List.length_range'] at this
    have hnpos : 0 < n := by rw [hn]; exact Nat.mul_pos hd.cpos hd.ipos
    have hle : a + n ≤ m.inSize := by
      have := hd.ilt (a + n - 1) (by simp only; rw [hI, List.mem_range'_1]; omega)
      omega
    rw [show GIn.read ⟨x.S, groups, m.inSize, fun p g c => x.get p (g * m.inSize + c)⟩ true [a, a + n, n] = .ok ⟨x.S, groups, min (a + n) m.inSize - a, fun p g c => x.get p (g * m.inSize + (a + c))⟩ from rfl]
    simp only
    rw [hd.isz]
    simp only
    rw [GIn.view, if_pos (by simp only; rw [← hn, show min (a + n) m.inSize - a = n by omega])]
    simp only
    rw [computeOut]
    simp only [bind, Except.bind]
    rw [hd.blk, hd.rng]
    simp only
    by_cases hlen : rg.2 - rg.1 ≠ groups * (m.outCount (nm o') / groups) * m.inCount (nm i') * b.dim
    · rw [if_pos hlen]
    rw [if_neg hlen, if_neg (by rw [hxS]; simp)]
    simp only
    rw [Feats.addTo, if_pos rfl]
    simp only [bind, Except.bind, show pyGet [a', a' + n', n'] 0 = .ok a' from rfl, show pyGet [a', a' + n', n'] 1 = .ok (a' + n') from rfl, show pyGet [a', a' + n', n'] 2 = .ok n' from rfl]
    rw [GFeats.reshape, if_neg]
    simp only
    rw [hxS]
    intro hh
    have hh := Nat.eq_of_mul_eq_mul_left hS hh
    rw [hn', ← Nat.mul_assoc] at hh
    have hh := Nat.eq_of_mul_eq_mul_right hd.opos hh
    have h1 : groups * (m.outCount (nm o') / groups) ≤ m.outCount (nm o') := Nat.mul_div_le _ _
    have h2 : 0 < m.outCount (nm o') := hd.dpos
    have h3 : 2 * m.outCount (nm o') ≤ groups * m.outCount (nm o') := Nat.mul_le_mul_right _ hg
    omega
  · obtain ⟨F, y, e1, e2, e3, e4, -⟩ := (f.both w pts hS ⟨pts.length, 1, m.inSize, fun p g c => x.get p (g * m.inSize + c)⟩ rfl rfl rfl).resolve_left fun hh => hnu hh.1
    refine ⟨⟨x.S, m.outSize, fun p c => ∑ i ∈ Finset.range m.inSize, F.get p (c / (m.outSize / groups) * (m.outSize / groups) + c % (m.outSize / groups)) i * x.get p (c / (m.outSize / groups) * m.inSize + i)⟩, ?_⟩
    rw [messages, if_neg hpre, if_neg (by simp), expandThenCompute, e1]
    simp only [bind, Except.bind]
    rw [if_neg (by rw [hxS]; simp [hS]), if_neg]
    rw [e2, e3, e4, hxS, hxc, Nat.mul_div_cancel' (Nat.dvd_of_mod_eq_zero hdiv), Nat.mul_comm]
    simp

/-- The names are not escaped: a basis which is not empty, for a name with a dot, makes the constructor raise `KeyError`. -/
theorem C62_dot_violation [DecidableEq R] (filt : Option (Attr A → Bool)) (i : R) {o : R} {L M : List R} (hdot : '.' ∈ (nm i).toList) {k : PBasis X A} (hk : bg i o = .ok k) {b : PBlock X A} (hb : PBlock.ofFilter k filt = .ok b) (inR outR : List R) :
    init nm sz (blockFor nm bg filt) (i :: L) (o :: M) inR outR = .error .key := by
  have e : blockFor nm bg filt i o = .error .key := by
    rw [blockFor, hk]
    simp only [bind, Except.bind]
    rw [hb]
    simp only
    rw [if_neg]
    have : noDot (nm i) = false := by
      rw [noDot, List.all_eq_false]
      exact ⟨'.', hdot, by simp⟩
    rw [this]
    simp
  rw [init]
  simp only [List.flatMap_cons, List.map_cons, List.cons_append, collect, bind, Except.bind]
  rw [e]

/-- A layout with two representations, of sizes `1` and `2`, in an order which is not contiguous for the first; the basis of the pair (`a`, `a`) is empty. -/
def exBg (i o : Bool) : Except Err (PBasis ℕ Unit) :=
  if i = false ∧ o = false then .error .emptyBasis
  else .ok ⟨if o then 2 else 1, if i then 2 else 1, [⟨0, 1, 0, 0, ()⟩, ⟨1, 1, 0, 0, ()⟩], fun pts p r c e => (pts[p]?.getD 0 + 1 + r + 2 * c + 3 * e : ℕ)⟩

example : Input (fun r : Bool => if r then "b" else "a") (fun r => if r then 2 else 1) exBg [true, false] [true, false] [false, true, false] [true, false] where
  uin_mem := by simp
  uin_nodup := by simp
  uout_mem := by simp
  uout_nodup := by simp
  in_name := by simp
  out_name := by simp
  in_pos := by simp
  out_pos := by simp
  in_dot := by simp
  out_dot := by simp
  basis := by intro i _ o _; cases i <;> cases o <;> simp [exBg]

/-- The hypotheses of `C62_groups_violation` hold for the layout `a → a, a, b, b` with two groups. -/
example : Input (fun r : Bool => if r then "b" else "a") (fun r => if r then 2 else 1) exBg [false] [true, false] [false] [false, false, true, true] ∧
    (∀ r ∈ [false], ∃ a n, labelIdx (fun r : Bool => if r then 2 else 1) [false] ([false].map fun r => if r then "b" else "a") (if r then "b" else "a") = List.range' a n) ∧
    (∀ r ∈ [false, false, true, true], ∃ a n, labelIdx (fun r : Bool => if r then 2 else 1) [false, false, true, true] ([false, false, true, true].map fun r => if r then "b" else "a") (if r then "b" else "a") = List.range' a n) ∧
    (∃ b, blockFor (fun r : Bool => if r then "b" else "a") exBg none false true = .ok b) ∧ (([false, false, true, true].map fun r : Bool => if r then 2 else 1).sum % 2 = 0) := by
  refine ⟨⟨by simp, by simp, by simp, by simp, by simp, by simp, by simp, by simp, by simp, by simp, ?_⟩, ?_, ?_, ?_, by decide⟩
  · intro i _ o _; cases i <;> cases o <;> simp [exBg]
  · intro r hr
    obtain rfl : r = false := by simpa using hr
    exact ⟨0, 1, by decide⟩
  · intro r hr
    cases r
    · exact ⟨0, 2, by decide⟩
    · exact ⟨2, 4, by decide⟩
  · exact ⟨_, rfl⟩

end Sampler

end Escnn
