import Verif.Lemmas.Expansion

/-!
# C32: the weights of the basis expansion are partitioned among the pairs of representations
-/

namespace Escnn

namespace Blocks

variable {R A : Type} {nm : R → String} {sz ni : R → ℕ} {bg : R → R → Except Err (KBasis A)} {filt : Option (Attr A → Bool)} {uin uout inR outR : List R}

/-- What is required of the arguments of `BlocksBasisExpansion`: `uin` and `uout` enumerate the sets of representations; no two different
representations have the same name, also after replacing `.` with `^`; the generator returns kernels of the right shape, as many
attributes as kernels, or raises `EmptyBasisException`. -/
structure Input (nm : R → String) (sz : R → ℕ) (bg : R → R → Except Err (KBasis A)) (uin uout inR outR : List R) : Prop where
  uin_mem : ∀ r, r ∈ uin ↔ r ∈ inR
  uin_nodup : uin.Nodup
  uout_mem : ∀ r, r ∈ uout ↔ r ∈ outR
  uout_nodup : uout.Nodup
  in_name : ∀ r ∈ inR, ∀ r' ∈ inR, escName (nm r) = escName (nm r') → r = r'
  out_name : ∀ r ∈ outR, ∀ r' ∈ outR, escName (nm r) = escName (nm r') → r = r'
  in_pos : ∀ r ∈ inR, 0 < sz r
  out_pos : ∀ r ∈ outR, 0 < sz r
  basis : ∀ i ∈ inR, ∀ o ∈ outR, bg i o = .error .emptyBasis ∨ ∃ k, bg i o = .ok k ∧ k.outSize = sz o ∧ k.inSize = sz i ∧ k.sampled.length = k.attrs.length

theorem Input.args (h : Input nm sz bg uin uout inR outR) (filt : Option (Attr A → Bool)) (S : ℕ) : Args nm sz (blockFor bg filt S) uin uout inR outR := by
  refine ⟨h.uin_mem, h.uin_nodup, h.uout_mem, h.uout_nodup, h.in_name, h.out_name, h.in_pos, h.out_pos, fun i hi o ho => ?_⟩
  rcases h.basis i hi o ho with h | ⟨k, h1, h2, h3, h4⟩
  · exact .inl (by rw [blockFor, h]; rfl)
  · have e : blockFor bg filt S i o = SBlock.ofFilter S k filt := by rw [blockFor, h1]; rfl
    rcases SBlock.ofFilter_cases S k filt h4 with h | ⟨b, h5, h6, h7, h8⟩
    · exact .inl (by rw [e, h])
    · exact .inr ⟨b, by rw [e, h5], h6, by rw [h7, h2], by rw [h8, h3]⟩

theorem Input.wf (h : Input nm sz bg uin uout inR outR) {S : ℕ} {p : String × String} {b : SBlock A} (hb : HasBlock nm (blockFor bg filt S) inR outR p b) : b.WF := by
  obtain ⟨i, hi, o, ho, rfl, e⟩ := hb
  rcases (h.args filt S).gen_ok i hi o ho with h' | ⟨b', h1, h2, -⟩
  · rw [e] at h'; cases h'
  · rw [e] at h1; cases h1; exact h2

/-- What is required for the weight ranges: names may be shared. -/
structure Input0 (sz : R → ℕ) (bg : R → R → Except Err (KBasis A)) (uin uout inR outR : List R) : Prop where
  uin_mem : ∀ r, r ∈ uin ↔ r ∈ inR
  uout_mem : ∀ r, r ∈ uout ↔ r ∈ outR
  in_pos : ∀ r ∈ inR, 0 < sz r
  out_pos : ∀ r ∈ outR, 0 < sz r
  basis : ∀ i ∈ inR, ∀ o ∈ outR, bg i o = .error .emptyBasis ∨ ∃ k, bg i o = .ok k ∧ k.sampled.length = k.attrs.length

theorem Input.input0 (h : Input nm sz bg uin uout inR outR) : Input0 sz bg uin uout inR outR :=
  ⟨h.uin_mem, h.uout_mem, h.in_pos, h.out_pos, fun i hi o ho => (h.basis i hi o ho).imp_right fun ⟨k, h1, _, _, h4⟩ => ⟨k, h1, h4⟩⟩

/-- The part of the constructor which computes the ranges. -/
theorem Input0.init_spec (h : Input0 sz bg uin uout inR outR) (nm : R → String) (filt : Option (Attr A → Bool)) (S : ℕ) :
    ∃ m T, init nm sz (blockFor bg filt S) uin uout inR outR S = .ok m ∧ m.pairs.Nodup ∧ (∀ p, p ∈ m.pairs ↔ ∃ b, HasBlock nm (blockFor bg filt S) inR outR p b) ∧
      (∀ p ∈ m.pairs, ∃ b, HasBlock nm (blockFor bg filt S) inR outR p b ∧ T p = b.dim * (nFields nm inR p.1 * nFields nm outR p.2)) ∧
      m.dim = (m.pairs.map T).sum ∧ m.ranges.map Prod.fst = m.pairs ∧
      ∀ (k : ℕ) p, m.pairs[k]? = some p → m.ranges[k]? = some (p, (chanOffset T m.pairs k, chanOffset T m.pairs k + T p)) := by
  classical
  have hmem : ∀ i o, (i, o) ∈ (uin.flatMap fun i => uout.map fun o => (i, o)) ↔ i ∈ inR ∧ o ∈ outR := by
    intro i o
    simp only [List.mem_flatMap, List.mem_map, Prod.mk.injEq]
    constructor
    · rintro ⟨i', h1, o', h2, rfl, rfl⟩; exact ⟨(h.uin_mem _).1 h1, (h.uout_mem _).1 h2⟩
    · rintro ⟨h1, h2⟩; exact ⟨i, (h.uin_mem _).2 h1, o, (h.uout_mem _).2 h2, rfl, rfl⟩
  obtain ⟨mods, h1, h2, -⟩ := collect_spec (nm := nm) (gen := blockFor bg filt S) (uin.flatMap fun i => uout.map fun o => (i, o)) (by
    rintro ⟨i, o⟩ he
    obtain ⟨hi, ho⟩ := (hmem i o).1 he
    rcases h.basis i hi o ho with h | ⟨k, h1, h4⟩
    · exact .inl (by simp only [blockFor]; rw [h]; rfl)
    · have e : blockFor bg filt S i o = SBlock.ofFilter S k filt := by rw [blockFor, h1]; rfl
      rcases SBlock.ofFilter_cases S k filt h4 with h | ⟨b, h5, -⟩
      · exact .inl (by simp only; rw [e, h])
      · exact .inr ⟨b, by simp only; rw [e, h5]⟩)
  have h2' : ∀ p b, (p, b) ∈ mods ↔ HasBlock nm (blockFor bg filt S) inR outR p b := by
    intro p b
    rw [h2]
    constructor
    · rintro ⟨⟨i, o⟩, he, hp, hg⟩
      obtain ⟨hi, ho⟩ := (hmem i o).1 he
      exact ⟨i, hi, o, ho, hp, hg⟩
    · rintro ⟨i, hi, o, ho, hp, hg⟩
      exact ⟨(i, o), (hmem i o).2 ⟨hi, ho⟩, hp, hg⟩
  have hperm : (((mods.map Prod.fst).dedup).mergeSort pairLe).Perm (mods.map Prod.fst).dedup := List.mergeSort_perm _ _
  have hkey : ∀ p, p ∈ ((mods.map Prod.fst).dedup).mergeSort pairLe ↔ p ∈ mods.map Prod.fst := fun p => by rw [hperm.mem_iff, List.mem_dedup]
  have hnd : (((mods.map Prod.fst).dedup).mergeSort pairLe).Nodup := hperm.nodup_iff.2 (List.nodup_dedup _)
  generalize hpairs : ((mods.map Prod.fst).dedup).mergeSort pairLe = pairs at *
  have hex : ∀ p ∈ pairs, ∃ b, dictGet mods p = .ok b ∧ HasBlock nm (blockFor bg filt S) inR outR p b := by
    intro p hp
    obtain ⟨b, h3, h4⟩ := lookupLast_mem ((hkey p).1 hp)
    exact ⟨b, dictGet_ok.2 h3, (h2' p b).1 h4⟩
  haveI : Nonempty (SBlock A) := ⟨⟨0, 0, [], [], []⟩⟩
  choose! bl hb1 hb2 using hex
  obtain ⟨r, hr1, hr2, hr3, hr4⟩ := rangesLoop_spec mods (count nm inR) (count nm outR) (fun p => (bl p).dim * (nFields nm inR p.1 * nFields nm outR p.2)) 0 pairs
    (fun p hp => ⟨bl p, hb1 p hp, by rw [count_eq, count_eq]⟩)
  have hpi : ∀ p ∈ pairs, ∃ c : Bool × List ℕ × List ℕ, pairIndices nm sz inR outR p = .ok c := by
    intro p hp
    obtain ⟨i, hi, o, ho, rfl, -⟩ := hb2 p hp
    obtain ⟨c, ii, oi, e1, -⟩ := pairIndices_spec (nm := nm) h.in_pos h.out_pos hi ho
    exact ⟨(c, ii, oi), e1⟩
  choose! e he1 using hpi
  have ht : mapE (fun p => do
      let e ← pairIndices nm sz inR outR p
      .ok (p, e)) pairs = .ok (pairs.map fun p => (p, e p)) := mapE_map fun p hp => by rw [he1 p hp]; rfl
  have hcons : ∀ rs : List R, (∀ r ∈ rs, 0 < sz r) → ∃ L, mapE (fun n => checkConsecutive (indices nm sz rs n)) (rs.map nm) = .ok L := by
    intro rs hpos
    have : ∀ n ∈ rs.map nm, ∃ c, checkConsecutive (indices nm sz rs n) = .ok c := by
      intro n hn
      obtain ⟨r, hr, rfl⟩ := List.mem_map.1 hn
      obtain ⟨c, hc, -⟩ := checkConsecutive_iff _ (indices_ne_nil (nm := nm) hpos hr) (indices_sorted rs _)
      exact ⟨c, hc⟩
    choose! c hc using this
    exact ⟨_, mapE_map hc⟩
  obtain ⟨Li, hLi⟩ := hcons inR h.in_pos
  obtain ⟨Lo, hLo⟩ := hcons outR h.out_pos
  refine ⟨_, _, by
    rw [init]
    simp only [bind, Except.bind]
    rw [h1]
    simp only
    rw [hLi]
    simp only
    rw [hLo]
    simp only
    rw [hpairs]
    simp only [bind, Except.bind] at ht
    rw [ht]
    simp only
    rw [hr1], hnd, fun p => ?_, fun p hp => ⟨bl p, hb2 p hp, rfl⟩, by rw [hr2]; simp, hr3, fun k p hk => by rw [hr4 k p hk]; simp⟩
  rw [hkey, List.mem_map]
  constructor
  · rintro ⟨⟨q, b⟩, hq, rfl⟩; exact ⟨b, (h2' _ _).1 hq⟩
  · rintro ⟨b, hb⟩; exact ⟨(p, b), (h2' _ _).2 hb, rfl⟩

theorem nFields_eq (rs : List R) (n : String) : nFields nm rs n = (rs.filter fun r => nm r = n).length := by
  rw [nFields, ← count_eq]
  have key : ∀ (rs : List R) (c : ℕ), rs.foldl (fun c r => if nm r = n then c + 1 else c) c = c + (rs.filter fun r => nm r = n).length := by
    intro rs
    induction rs with
    | nil => simp
    | cons r rs ih =>
      intro c
      rw [List.foldl_cons, ih]
      by_cases hr : nm r = n
      · rw [if_pos hr, List.filter_cons_of_pos (by simpa using hr)]; simp; omega
      · rw [if_neg hr, List.filter_cons_of_neg (by simpa using hr)]
  rw [count, key, Nat.zero_add]

/-- **C32** The ranges belong to the pairs of names with a non-empty basis, each once; they start at `0`, each begins where the
previous one ends, and the last ends at `dimension()`; the range of a pair has one weight for each element of the basis, input field and
output field with those names; each weight is in exactly one range. -/
theorem C32_weight_ranges (h : Input0 sz bg uin uout inR outR) (nm : R → String) (filt : Option (Attr A → Bool)) (S : ℕ) :
    ∃ m, init nm sz (blockFor bg filt S) uin uout inR outR S = .ok m ∧ (m.ranges.map Prod.fst).Nodup ∧
      (∀ p, p ∈ m.ranges.map Prod.fst ↔ ∃ i ∈ inR, ∃ o ∈ outR, p = (nm i, nm o) ∧ ∃ b, blockFor bg filt S i o = .ok b) ∧
      (∀ e, m.ranges[0]? = some e → e.2.1 = 0) ∧
      (∀ (k : ℕ) e e', m.ranges[k]? = some e → m.ranges[k + 1]? = some e' → e'.2.1 = e.2.2) ∧
      (∀ e, m.ranges.getLast? = some e → e.2.2 = m.dim) ∧ (m.ranges = [] → m.dim = 0) ∧
      (∀ e ∈ m.ranges, ∃ i ∈ inR, ∃ o ∈ outR, ∃ b, e.1 = (nm i, nm o) ∧ blockFor bg filt S i o = .ok b ∧
        e.2.2 = e.2.1 + b.dim * ((inR.filter fun r => nm r = nm i).length * (outR.filter fun r => nm r = nm o).length)) ∧
      ∀ w < m.dim, ∃! e, e ∈ m.ranges ∧ e.2.1 ≤ w ∧ w < e.2.2 := by
  obtain ⟨m, T, hm, hnd, hmem, hT, hdim, hkeys, hrange⟩ := h.init_spec nm filt S
  have hget : ∀ (k : ℕ) e, m.ranges[k]? = some e → m.pairs[k]? = some e.1 ∧ e.2 = (chanOffset T m.pairs k, chanOffset T m.pairs k + T e.1) := by
    intro k e he
    have h1 : m.pairs[k]? = some e.1 := by rw [← hkeys, List.getElem?_map, he]; rfl
    refine ⟨h1, ?_⟩
    have h2 := hrange k e.1 h1
    rw [he] at h2
    rw [Option.some.inj h2]
  have hlen : m.ranges.length = m.pairs.length := by rw [← hkeys, List.length_map]
  refine ⟨m, hm, by rw [hkeys]; exact hnd, ?_, ?_, ?_, ?_, ?_, ?_, ?_⟩
  · intro p
    rw [hkeys, hmem]
    constructor
    · rintro ⟨b, i, hi, o, ho, hp, hb⟩; exact ⟨i, hi, o, ho, hp, b, hb⟩
    · rintro ⟨i, hi, o, ho, hp, b, hb⟩; exact ⟨b, i, hi, o, ho, hp, hb⟩
  · intro e he
    rw [(hget 0 e he).2]; rfl
  · intro k e e' he he'
    rw [(hget k e he).2, (hget (k + 1) e' he').2]
    exact chanOffset_succ (hget k e he).1
  · intro e he
    rw [List.getLast?_eq_getElem?] at he
    obtain ⟨h1, h2⟩ := hget _ e he
    have h3 := (List.getElem?_eq_some_iff.1 h1).1
    rw [h2]
    simp only
    rw [← chanOffset_succ h1, show m.ranges.length - 1 + 1 = m.pairs.length by omega, chanOffset_length, hdim]
  · intro he
    have : m.pairs = [] := by rw [← hkeys, he]; rfl
    rw [hdim, this]; rfl
  · intro e he
    obtain ⟨k, hk⟩ := List.mem_iff_getElem?.1 he
    obtain ⟨h1, h2⟩ := hget k e hk
    obtain ⟨b, ⟨i, hi, o, ho, hp, hb⟩, hTe⟩ := hT e.1 (List.mem_of_getElem? h1)
    refine ⟨i, hi, o, ho, b, hp, hb, ?_⟩
    rw [h2]
    simp only
    rw [hTe, nFields_eq, nFields_eq, hp]
  · intro w hw
    rw [hdim] at hw
    obtain ⟨k, p, off, h1, h2, h3⟩ := exists_field hw
    have h4 := hrange k p h1
    refine ⟨_, ⟨List.mem_of_getElem? h4, by simp only; omega, by simp only; omega⟩, ?_⟩
    rintro e ⟨he, he1, he2⟩
    obtain ⟨k', hk'⟩ := List.mem_iff_getElem?.1 he
    obtain ⟨h5, h6⟩ := hget k' e hk'
    rw [h6] at he1 he2
    simp only at he1 he2
    obtain ⟨q, hq⟩ : ∃ q, w = chanOffset T m.pairs k' + q := ⟨_, (Nat.add_sub_cancel' he1).symm⟩
    obtain ⟨rfl, -⟩ := field_unique h1 h5 h2 (show q < T e.1 by omega) (h3.symm.trans hq)
    rw [hk'] at h4
    exact Option.some.inj h4

/-! ### an example: fields `a`, `b`, `a` (of sizes 1, 2, 1) to fields `a`, `c` (of sizes 1, 2), with an empty basis from `b` to `c` -/

/-- The basis of constant kernels, empty from `b` to `c`. -/
def exBasis (i o : String × ℕ) : Except Err (KBasis Unit) :=
  if i.1 = "b" ∧ o.1 = "c" then .error .emptyBasis else .ok ⟨o.2, i.2, [⟨0, 1, 0, 0, ()⟩], [fun _ _ _ => 1]⟩

theorem exInput : Input Prod.fst Prod.snd exBasis [("b", 2), ("a", 1)] [("a", 1), ("c", 2)] [("a", 1), ("b", 2), ("a", 1)] [("a", 1), ("c", 2)] := by
  refine ⟨fun r => by simp only [List.mem_cons, List.not_mem_nil, or_false]; tauto, by decide, fun r => Iff.rfl, by decide, by decide, by decide, by decide, by decide, ?_⟩
  intro i _ o _
  unfold exBasis
  split_ifs
  · exact .inl rfl
  · exact .inr ⟨_, rfl, rfl, rfl, rfl⟩

example : ∃ m, init Prod.fst Prod.snd (blockFor exBasis none 3) [("b", 2), ("a", 1)] [("a", 1), ("c", 2)] [("a", 1), ("b", 2), ("a", 1)] [("a", 1), ("c", 2)] 3 = .ok m ∧
    ∀ w < m.dim, ∃! e, e ∈ m.ranges ∧ e.2.1 ≤ w ∧ w < e.2.2 := by
  obtain ⟨m, h1, -, -, -, -, -, -, -, h2⟩ := C32_weight_ranges exInput.input0 Prod.fst none 3
  exact ⟨m, h1, h2⟩

end Blocks

end Escnn
