import Verif.Model.SamplerInfo
import Verif.Props.C33_WeightInfo
import Verif.Props.C62_Sampler
import Verif.Lemmas.ExRel

/-!
# C33 for `BlocksBasisSampler`

The weights of a sampler are laid out as those of a `BlocksBasisExpansion` with the same blocks.
-/

namespace Escnn

namespace PBlock

variable {X A : Type}

/-- The block of a `BlocksBasisExpansion` with the same attributes and mask. -/
def toS (b : PBlock X A) : SBlock A := ⟨b.basis.outSize, b.basis.inSize, b.basis.attrs, b.mask, List.replicate b.dim fun _ _ _ => 0⟩

theorem toS_dim (b : PBlock X A) : b.toS.dim = b.dim := List.length_replicate ..

theorem zip_count {α : Type} : ∀ (L : List α) (m : List Bool), L.length = m.length → ((L.zip m).filter Prod.snd).length = m.count true
  | [], [], _ => rfl
  | a :: L, b :: m, h => by
    have ih := zip_count L m (by simpa using h)
    cases b <;> simp [ih]

end PBlock

namespace Sampler

open Blocks (HasBlock)

variable {R X A : Type} {nm : R → String} {sz : R → ℕ} {bg : R → R → Except Err (PBasis X A)} {uin uout inR outR : List R}

/-- The generator of the corresponding expansion. -/
def genS (gen : R → R → Except Err (PBlock X A)) (i o : R) : Except Err (SBlock A) := do
  let b ← gen i o
  .ok b.toS

theorem collect_genS (gen : R → R → Except Err (PBlock X A)) : ∀ L : List (R × R), Blocks.collect nm (genS gen) L = (do
    let d ← collect nm gen L
    .ok (d.map fun e => (e.1, e.2.toS)))
  | [] => rfl
  | (i, o) :: L => by
    have ih := collect_genS gen L
    unfold Blocks.collect collect genS
    cases h : gen i o with
    | error e =>
      cases e <;> first | rfl | exact ih
    | ok b =>
      show (Blocks.collect nm (genS gen) L >>= fun d => Except.ok (((nm i, nm o), b.toS) :: d)) = _
      rw [ih]
      cases hc : collect nm gen L <;> rfl

theorem lookupLast_map {K V W : Type} [DecidableEq K] (f : V → W) (d : List (K × V)) (k : K) : FType.lookupLast (d.map fun e => (e.1, f e.2)) k = (FType.lookupLast d k).map f := by
  unfold FType.lookupLast
  rw [List.filter_map, List.getLast?_map, Option.map_map, Option.map_map]
  rfl

theorem rangesLoop_genS (mods : List ((String × String) × PBlock X A)) (ic oc : String → ℕ) : ∀ (L : List (String × String)) (last : ℕ),
    Blocks.rangesLoop (mods.map fun e => (e.1, e.2.toS)) ic oc last L = rangesLoop mods ic oc last L
  | [], _ => rfl
  | p :: L, last => by
    unfold Blocks.rangesLoop rangesLoop dictGet
    rw [lookupLast_map]
    cases h : FType.lookupLast mods p with
    | none => rfl
    | some b =>
      simp only [Option.map_some, bind, Except.bind, PBlock.toS_dim]
      rw [rangesLoop_genS mods ic oc L]

theorem escName_of {s : String} (h : '.' ∉ s.toList) : escName s = s := by
  unfold escName
  rw [List.map_congr_left (g := id), List.map_id, String.ofList_toList]
  intro c hc
  rw [if_neg]
  · rfl
  · rintro rfl; exact h hc

theorem rangesLoop_keys (mods : List ((String × String) × PBlock X A)) (ic oc : String → ℕ) : ∀ (L : List (String × String)) (last : ℕ) r, rangesLoop mods ic oc last L = .ok r → r.1.map Prod.fst = L
  | [], _, _, h => by cases h; rfl
  | p :: L, last, r, h => by
    unfold rangesLoop at h
    obtain ⟨b, -, h⟩ := ExRel.bind_ok h
    obtain ⟨r', hr', h⟩ := ExRel.bind_ok h
    cases h
    rw [List.map_cons, rangesLoop_keys mods ic oc L _ r' hr']

theorem collect_keys {gen : R → R → Except Err (PBlock X A)} : ∀ (L : List (R × R)) d, collect nm gen L = .ok d → ∀ e ∈ d, ∃ q ∈ L, e.1 = (nm q.1, nm q.2)
  | [], _, h => by cases h; simp
  | (i, o) :: L, d, h => by
    unfold collect at h
    split at h
    · obtain ⟨d', hd', h⟩ := ExRel.bind_ok h
      cases h
      intro e he
      rcases List.mem_cons.1 he with rfl | he
      · exact ⟨(i, o), by simp, rfl⟩
      · obtain ⟨q, hq, e⟩ := collect_keys L d' hd' e he
        exact ⟨q, by simp [hq], e⟩
    · intro e he
      obtain ⟨q, hq, e⟩ := collect_keys L d h e he
      exact ⟨q, by simp [hq], e⟩
    · cases h

theorem mapE_congr {α β : Type} {f g : α → Except Err β} : ∀ {L : List α}, (∀ a ∈ L, f a = g a) → mapE f L = mapE g L
  | [], _ => rfl
  | a :: L, h => by
    unfold mapE
    rw [h a (by simp), mapE_congr (L := L) fun b hb => h b (by simp [hb])]

/-- The `(output field, input field, basis element)` triples which need a weight. -/
def Triples (gen : R → R → Except Err (PBlock X A)) (inR outR : List R) : Set (ℕ × ℕ × ℕ) :=
  {t | ∃ ro ri b, outR[t.1]? = some ro ∧ inR[t.2.1]? = some ri ∧ gen ri ro = .ok b ∧ t.2.2 < b.dim}

theorem genS_ok {gen : R → R → Except Err (PBlock X A)} {i o : R} {s : SBlock A} : genS gen i o = .ok s ↔ ∃ b, gen i o = .ok b ∧ b.toS = s := by
  unfold genS
  cases gen i o with
  | error e => simp [bind, Except.bind]
  | ok b => simp [bind, Except.bind]

theorem ofFilter_wf {k : PBasis X A} {filt : Option (Attr A → Bool)} {b : PBlock X A} (h : PBlock.ofFilter k filt = .ok b) : b.toS.WF := by
  have key : ∀ mask, PBlock.init k mask = .ok b → b.toS.WF := by
    intro mask h
    unfold PBlock.init at h
    split_ifs at h with h1 h2
    cases h
    rw [ne_eq, not_not] at h1
    refine ⟨?_, ?_⟩
    · rw [PBlock.toS_dim, PBlock.dim, List.count_pos_iff]
      obtain ⟨x, hx, hx'⟩ := List.any_eq_true.1 h2
      cases x
      · cases hx'
      · exact hx
    · rw [PBlock.toS_dim, SBlock.basisInfo, SBlock.basisLoop_length]
      exact PBlock.zip_count _ _ h1.symm
  cases filt with
  | none => exact key _ h
  | some f => exact key _ h

/-- **C33** for samplers (partial: representations have different names; names with a dot are rejected by the constructor, see `C62_dot_violation`) `get_basis_info()` yields `dimension()` items; item `idx` has
id `idx` and is `get_element_info(idx)`; it names the representations of its input and output field, carries the attributes of its element in the block of that pair, and gives the positions of the irreps among
all the irreps of the type; decoding an index to (output field, input field, element) is a bijection. -/
theorem C33_sampler_info_partial [DecidableEq R] (h : Input nm sz bg uin uout inR outR) (hin : ∀ r ∈ inR, ∀ r' ∈ inR, nm r = nm r' → r = r') (hout : ∀ r ∈ outR, ∀ r' ∈ outR, nm r = nm r' → r = r')
    (filt : Option (Attr A → Bool)) (ni : R → ℕ) :
    ∃ m L, init nm sz (blockFor nm bg filt) uin uout inR outR = .ok m ∧ basisInfo nm ni inR outR m = .ok L ∧ L.length = m.dim ∧
      (∀ (idx : ℕ) x, L[idx]? = some x → elementInfo nm ni inR outR m idx = .ok x ∧ x.id = idx ∧
        ∃ ro ri b a, outR[x.outField]? = some ro ∧ inR[x.inField]? = some ri ∧ blockFor nm bg filt ri ro = .ok b ∧ b.basisInfo[x.blockId]? = some a ∧
          x.outRepr = nm ro ∧ x.inRepr = nm ri ∧ x.attr = a ∧ x.inIrrepsPosition = ((inR.take x.inField).map ni).sum + a.inIrrepIdx ∧
          x.outIrrepsPosition = ((outR.take x.outField).map ni).sum + a.outIrrepIdx) ∧
      (∀ idx, m.dim ≤ idx → elementInfo nm ni inR outR m idx = .error .assertion) ∧
      Set.BijOn (fun idx => ((L[idx]?.map fun x => (x.outField, x.inField, x.blockId)).getD (0, 0, 0))) {idx | idx < m.dim} (Triples (blockFor nm bg filt) inR outR) := by
  have hargs : Blocks.Args nm sz (genS (blockFor nm bg filt)) uin uout inR outR := by
    refine ⟨h.uin_mem, h.uin_nodup, h.uout_mem, h.uout_nodup, fun r hr r' hr' e => ?_, fun r hr r' hr' e => ?_, h.in_pos, h.out_pos, fun i hi o ho => ?_⟩
    · rw [escName_of (h.in_dot r hr), escName_of (h.in_dot r' hr')] at e
      exact hin r hr r' hr' e
    · rw [escName_of (h.out_dot r hr), escName_of (h.out_dot r' hr')] at e
      exact hout r hr r' hr' e
    · rcases h.blockFor_cases filt hi ho with e | ⟨b, e, e1, e2⟩
      · exact .inl (by rw [genS, e]; rfl)
      · refine .inr ⟨b.toS, genS_ok.2 ⟨b, e, rfl⟩, ?_, e1, e2⟩
        unfold blockFor at e
        obtain ⟨k, -, e⟩ := ExRel.bind_ok e
        obtain ⟨b', hb', e⟩ := ExRel.bind_ok e
        split_ifs at e
        cases e
        exact ofFilter_wf hb'
  obtain ⟨m, hm, -⟩ := h.init_spec filt
  obtain ⟨m', L, hm', hL, hlen, hinfo, hover, hbij⟩ := Blocks.info_spec hargs 0 ni
  -- the two objects have the same tables
  have hsame : m.pairs = m'.pairs ∧ m.ranges = m'.ranges ∧ m.dim = m'.dim ∧ m'.inReprs = inR ∧ m'.outReprs = outR ∧
      ∃ mods, m.blocks = mods ∧ m'.blocks = mods.map (fun e => (escPair e.1, e.2.toS)) ∧ (∀ p ∈ m.pairs, escPair p = p) ∧ (∀ e ∈ mods, escPair e.1 = e.1) ∧ ∀ e ∈ m.ranges, e.1 ∈ m.pairs := by
    unfold init at hm
    obtain ⟨mods, hc, hm⟩ := ExRel.bind_ok hm
    obtain ⟨-, -, hm⟩ := ExRel.bind_ok hm
    obtain ⟨-, -, hm⟩ := ExRel.bind_ok hm
    obtain ⟨-, -, hm⟩ := ExRel.bind_ok hm
    obtain ⟨t, -, hm⟩ := ExRel.bind_ok hm
    obtain ⟨r, hr, hm⟩ := ExRel.bind_ok hm
    unfold Blocks.init at hm'
    rw [collect_genS, hc] at hm'
    obtain ⟨mods', hc', hm'⟩ := ExRel.bind_ok hm'
    obtain rfl := Except.ok.inj hc'
    obtain ⟨-, -, hm'⟩ := ExRel.bind_ok hm'
    obtain ⟨-, -, hm'⟩ := ExRel.bind_ok hm'
    obtain ⟨t', -, hm'⟩ := ExRel.bind_ok hm'
    obtain ⟨r', hr', hm'⟩ := ExRel.bind_ok hm'
    have hkeys : (mods.map fun e => (e.1, e.2.toS)).map Prod.fst = mods.map Prod.fst := by rw [List.map_map]; rfl
    rw [rangesLoop_genS, hkeys, hr] at hr'
    obtain rfl := Except.ok.inj hr'
    have hdot : ∀ e ∈ mods, escPair e.1 = e.1 := by
      intro e he
      obtain ⟨q, hq, heq⟩ := collect_keys _ _ hc e he
      obtain ⟨i, hi, hq⟩ := List.mem_flatMap.1 hq
      obtain ⟨o, ho, rfl⟩ := List.mem_map.1 hq
      rw [heq]
      show (escName (nm i), escName (nm o)) = _
      rw [escName_of (h.in_dot i ((h.uin_mem i).1 hi)), escName_of (h.out_dot o ((h.uout_mem o).1 ho))]
    have hrk := rangesLoop_keys _ _ _ _ _ _ hr
    cases hm
    cases hm'
    refine ⟨by rw [hkeys], rfl, rfl, rfl, rfl, mods, rfl, by rw [List.map_map]; rfl, fun p hp => ?_, hdot, fun e he => hrk ▸ List.mem_map_of_mem he⟩
    have : p ∈ mods.map Prod.fst := by
      have := (List.mergeSort_perm (mods.map Prod.fst).dedup pairLe).mem_iff.1 hp
      rwa [List.mem_dedup] at this
    obtain ⟨e, he, rfl⟩ := List.mem_map.1 this
    exact hdot e he
  obtain ⟨e1, e2, e3, e4, e5, mods, e6, e7, e8, e9, hrange⟩ := hsame
  have hblocks : m'.blocks = m.blocks.map fun e => (e.1, e.2.toS) := by
    rw [e6, e7]
    exact List.map_congr_left fun e he => by rw [e9 e he]
  have htab : ∀ p, tabGet m'.blocks p = (do
      let b ← tabGet m.blocks p
      .ok b.toS) := by
    intro p
    unfold tabGet
    rw [hblocks, lookupLast_map]
    cases FType.lookupLast m.blocks p <;> rfl
  have hel : ∀ idx, elementInfo nm ni inR outR m idx = Blocks.elementInfo nm ni m' idx := by
    intro idx
    unfold elementInfo Blocks.elementInfo
    rw [e3, e2, e4, e5]
    by_cases hidx : ¬ idx < m'.dim
    · rw [if_pos hidx, if_pos hidx]
    rw [if_neg hidx, if_neg hidx]
    cases hf : m'.ranges.find? fun e => decide (e.2.1 ≤ idx ∧ idx < e.2.2) with
    | none => rfl
    | some e =>
      have he : escPair e.1 = e.1 := e8 _ (hrange e (e2 ▸ List.mem_of_find?_eq_some hf))
      simp only [he, htab]
      cases tabGet m.blocks e.1 with
      | error _ => rfl
      | ok b =>
        simp only [bind, Except.bind, PBlock.toS_dim]
        rfl
  have hpi : ∀ p ∈ m.pairs, pairInfo nm ni inR outR m p = Blocks.pairInfo nm ni m' p := by
    intro p hp
    unfold pairInfo Blocks.pairInfo
    rw [e8 p hp, htab, e4, e5]
    cases tabGet m.blocks p <;> rfl
  have hbi : basisInfo nm ni inR outR m = Blocks.basisInfo nm ni m' := by
    unfold basisInfo Blocks.basisInfo
    rw [← e1, ← e3, mapE_congr hpi]
  refine ⟨m, L, hm, by rw [hbi, hL], by rw [e3, hlen], fun idx x hx => ?_, fun idx hidx => ?_, ?_⟩
  · obtain ⟨h1, h2, ro, ri, b, a, h3, h4, h5, h6⟩ := hinfo idx x hx
    obtain ⟨b', hb', rfl⟩ := genS_ok.1 h5
    exact ⟨by rw [hel, h1], h2, ro, ri, b', a, h3, h4, hb', h6⟩
  · rw [hel]; exact hover idx (e3 ▸ hidx)
  · rw [e3]
    have : Triples (blockFor nm bg filt) inR outR = Blocks.Triples (genS (blockFor nm bg filt)) inR outR := by
      ext t
      constructor
      · rintro ⟨ro, ri, b, h1, h2, h3, h4⟩
        exact ⟨ro, ri, b.toS, h1, h2, genS_ok.2 ⟨b, h3, rfl⟩, by rwa [PBlock.toS_dim]⟩
      · rintro ⟨ro, ri, s, h1, h2, h3, h4⟩
        obtain ⟨b, hb, rfl⟩ := genS_ok.1 h3
        exact ⟨ro, ri, b, h1, h2, hb, by rwa [PBlock.toS_dim] at h4⟩
    rw [this]
    exact hbij

example := C33_sampler_info_partial (nm := fun r : Bool => if r then "b" else "a") (sz := fun r => if r then 2 else 1) (bg := exBg) (uin := [true, false]) (uout := [true, false]) (inR := [false, true, false]) (outR := [true, false])
  ⟨by simp, by simp, by simp, by simp, by simp, by simp, by simp, by simp, by simp, by simp, by intro i _ o _; cases i <;> cases o <;> simp [exBg]⟩ (by simp) (by simp) none fun _ => 1

end Sampler

end Escnn
