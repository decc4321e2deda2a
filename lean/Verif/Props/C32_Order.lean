import Verif.Props.C32_WeightRanges
import Verif.Model.Sampler
import Verif.Lemmas.ExRel
import Mathlib.Data.String.Basic

/-!
# C32: the order of the blocks of weights

Python iterates over sets of representations in an order which changes from one process to the next; the pairs are sorted by name, so that the weights are laid out in the same way.
-/

namespace Escnn

/-- Python's order of tuples of two strings. -/
def LexLt (p q : String × String) : Prop := p.1 < q.1 ∨ p.1 = q.1 ∧ p.2 < q.2

theorem LexLt.asymm {p q : String × String} (h : LexLt p q) (h' : LexLt q p) : False := by
  rcases h with h | ⟨e, h⟩ <;> rcases h' with h' | ⟨e', h'⟩
  · exact lt_asymm h h'
  · exact absurd h (by rw [e']; exact lt_irrefl _)
  · exact absurd h' (by rw [e]; exact lt_irrefl _)
  · exact lt_asymm h h'

theorem pairLe_iff {p q : String × String} : pairLe p q = true ↔ p.1 < q.1 ∨ p.1 = q.1 ∧ p.2 ≤ q.2 := by
  simp [pairLe]

theorem pairLe_trans (a b c : String × String) (h : pairLe a b = true) (h' : pairLe b c = true) : pairLe a c = true := by
  rw [pairLe_iff] at *
  rcases h with h | ⟨e, h⟩ <;> rcases h' with h' | ⟨e', h'⟩
  · exact .inl (h.trans h')
  · exact .inl (e' ▸ h)
  · exact .inl (e ▸ h')
  · exact .inr ⟨e.trans e', h.trans h'⟩

theorem pairLe_total (a b : String × String) : (pairLe a b || pairLe b a) = true := by
  rw [Bool.or_eq_true, pairLe_iff, pairLe_iff]
  rcases lt_trichotomy a.1 b.1 with h | h | h
  · exact .inl (.inl h)
  · rcases le_total a.2 b.2 with h' | h'
    · exact .inl (.inr ⟨h, h'⟩)
    · exact .inr (.inr ⟨h.symm, h'⟩)
  · exact .inr (.inl h)

theorem sortedPairs {L : List (String × String)} : (L.dedup.mergeSort pairLe).Pairwise LexLt := by
  have h1 := List.pairwise_mergeSort pairLe_trans pairLe_total L.dedup
  have h2 : (L.dedup.mergeSort pairLe).Nodup := (List.mergeSort_perm _ _).nodup_iff.2 (List.nodup_dedup _)
  refine (h1.and h2).imp fun {p q} ⟨h, hne⟩ => ?_
  rw [pairLe_iff] at h
  rcases h with h | ⟨e, h⟩
  · exact .inl h
  · exact .inr ⟨e, lt_of_le_of_ne h fun e' => hne (Prod.ext e e')⟩

/-- Two strictly sorted lists with the same members are equal. -/
theorem lexSorted_unique {L L' : List (String × String)} (h : L.Pairwise LexLt) (h' : L'.Pairwise LexLt) (hmem : ∀ p, p ∈ L ↔ p ∈ L') : L = L' := by
  have hn : ∀ {L : List (String × String)}, L.Pairwise LexLt → L.Nodup := fun h => h.imp fun h e => by
    subst e
    exact h.asymm h
  exact ((List.perm_ext_iff_of_nodup (hn h) (hn h')).2 hmem).eq_of_pairwise (fun a b _ _ h h' => (h.asymm h').elim) h h'

namespace Blocks

variable {R A : Type} {nm : R → String} {sz : R → ℕ} {bg : R → R → Except Err (KBasis A)} {uin uout uin' uout' inR outR : List R}

/-- **C32** The blocks of weights of `BlocksBasisExpansion` are in Python's order of the pairs of names, each pair once. -/
theorem C32_sorted {gen : R → R → Except Err (SBlock A)} {S : ℕ} {m : Blocks R A} (h : init nm sz gen uin uout inR outR S = .ok m) :
    m.pairs.Pairwise fun p q => p.1 < q.1 ∨ p.1 = q.1 ∧ p.2 < q.2 := by
  unfold init at h
  obtain ⟨mods, -, h⟩ := ExRel.bind_ok h
  obtain ⟨_, -, h⟩ := ExRel.bind_ok h
  obtain ⟨_, -, h⟩ := ExRel.bind_ok h
  obtain ⟨_, -, h⟩ := ExRel.bind_ok h
  obtain ⟨_, -, h⟩ := ExRel.bind_ok h
  obtain rfl := Except.ok.inj h
  exact sortedPairs

/-- **C32** The layout of the weights does not depend on the order in which Python iterates over the sets of representations. -/
theorem C32_set_order (h : Input nm sz bg uin uout inR outR) (h' : Input nm sz bg uin' uout' inR outR) (filt : Option (Attr A → Bool)) (S : ℕ) :
    ∃ m m', init nm sz (blockFor bg filt S) uin uout inR outR S = .ok m ∧ init nm sz (blockFor bg filt S) uin' uout' inR outR S = .ok m' ∧
      m.pairs = m'.pairs ∧ m.ranges = m'.ranges ∧ m.dim = m'.dim := by
  obtain ⟨m, T, hm, -, h2, h3, h4, h5, h6⟩ := h.input0.init_spec nm filt S
  obtain ⟨m', T', hm', -, h2', h3', h4', h5', h6'⟩ := h'.input0.init_spec nm filt S
  have hp : m.pairs = m'.pairs := lexSorted_unique (C32_sorted hm) (C32_sorted hm') fun p => by rw [h2, h2']
  have hT : ∀ p ∈ m.pairs, T p = T' p := fun p hpm => by
    obtain ⟨b, ⟨i, hi, o, ho, e, hb⟩, e1⟩ := h3 p hpm
    obtain ⟨b', ⟨i', hi', o', ho', e', hb'⟩, e1'⟩ := h3' p (hp ▸ hpm)
    have hi2 : i = i' := h.in_name i hi i' hi' (by rw [show nm i = nm i' from congrArg Prod.fst (e.symm.trans e')])
    have ho2 : o = o' := h.out_name o ho o' ho' (by rw [show nm o = nm o' from congrArg Prod.snd (e.symm.trans e')])
    subst hi2 ho2
    rw [hb] at hb'
    rw [e1, e1', Except.ok.inj hb']
  refine ⟨m, m', hm, hm', hp, ?_, ?_⟩
  · refine List.ext_getElem? fun k => ?_
    rcases hk : m.pairs[k]? with _ | p
    · have e1 : m.ranges[k]? = none := by
        have := congrArg (·[k]?) h5
        simpa [hk] using this
      have e2 : m'.ranges[k]? = none := by
        have := congrArg (·[k]?) h5'
        rw [hp] at hk
        simpa [hk] using this
      rw [e1, e2]
    · have hk' : m'.pairs[k]? = some p := hp ▸ hk
      have ho : chanOffset T m.pairs k = chanOffset T' m'.pairs k := by
        rw [← hp]
        unfold chanOffset
        exact congrArg List.sum (List.map_congr_left fun q hq => hT q (List.mem_of_mem_take hq))
      rw [h6 k p hk, h6' k p hk', ho, hT p (List.mem_of_getElem? hk)]
  · rw [h4, h4', ← hp]
    exact congrArg List.sum (List.map_congr_left hT)

/-- Non-vacuity: the two orders of the set of representations give the same layout, sorted by name. -/
theorem exInput' : Input Prod.fst Prod.snd exBasis [("a", 1), ("b", 2)] [("c", 2), ("a", 1)] [("a", 1), ("b", 2), ("a", 1)] [("a", 1), ("c", 2)] := by
  obtain ⟨h1, -, h3, -, h5, h6, h7, h8, h9⟩ := exInput
  exact ⟨fun r => by rw [← h1]; simp only [List.mem_cons, List.not_mem_nil, or_false]; tauto, by decide, fun r => by rw [← h3]; simp only [List.mem_cons, List.not_mem_nil, or_false]; tauto, by decide, h5, h6, h7, h8, h9⟩

example : ∃ m, init Prod.fst Prod.snd (blockFor exBasis none 3) [("b", 2), ("a", 1)] [("a", 1), ("c", 2)] [("a", 1), ("b", 2), ("a", 1)] [("a", 1), ("c", 2)] 3 = .ok m ∧
    m.pairs.Pairwise fun p q => p.1 < q.1 ∨ p.1 = q.1 ∧ p.2 < q.2 := by
  obtain ⟨m, -, h, -⟩ := C32_set_order exInput exInput' none 3
  exact ⟨m, h, C32_sorted h⟩

end Blocks

namespace Sampler

variable {R X A : Type} [DecidableEq R] {nm : R → String} {sz : R → ℕ} {uin uout inR outR : List R}

/-- **C32** The blocks of weights of `BlocksBasisSampler` are in Python's order of the pairs of names, each pair once. -/
theorem C32_sorted {gen : R → R → Except Err (PBlock X A)} {m : Sampler X A} (h : init nm sz gen uin uout inR outR = .ok m) :
    m.pairs.Pairwise fun p q => p.1 < q.1 ∨ p.1 = q.1 ∧ p.2 < q.2 := by
  unfold init at h
  obtain ⟨mods, -, h⟩ := ExRel.bind_ok h
  obtain ⟨_, -, h⟩ := ExRel.bind_ok h
  obtain ⟨_, -, h⟩ := ExRel.bind_ok h
  obtain ⟨_, -, h⟩ := ExRel.bind_ok h
  obtain ⟨_, -, h⟩ := ExRel.bind_ok h
  obtain ⟨_, -, h⟩ := ExRel.bind_ok h
  obtain rfl := Except.ok.inj h
  exact sortedPairs

end Sampler

end Escnn
