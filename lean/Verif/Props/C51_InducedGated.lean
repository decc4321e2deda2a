import Verif.Props.C51_InducedNorm

/-!
# C51: induced gated nonlinearities are equivariant
-/

namespace Escnn

variable {B P S G Id C : Type} {El : G → Prop}

theorem filter_zip_congr {α β γ : Type} {A : List α} {D : List β} (h : A.length = D.length) (rs : List γ) {p : α → Bool} {q : β → Bool}
    (hpq : ∀ (k : ℕ) a c, A[k]? = some a → D[k]? = some c → p a = q c) : ((A.zip rs).filter fun e => p e.1).map Prod.snd = ((D.zip rs).filter fun e => q e.1).map Prod.snd := by
  induction A generalizing D rs with
  | nil =>
    cases D with
    | nil => rfl
    | cons _ _ => simp at h
  | cons a A ih =>
    cases D with
    | nil => simp at h
    | cons c D =>
      cases rs with
      | nil => rfl
      | cons r rs =>
        have h0 := hpq 0 a c rfl rfl
        have := ih (D := D) (by simpa using h) rs fun k a c h1 h2 => hpq (k + 1) a c (by simpa using h1) (by simpa using h2)
        simp only [List.zip_cons_cons, List.filter_cons, h0]
        split <;> simp [this]

theorem mem_of_lookupLast {L V : Type} [DecidableEq L] {d : List (L × V)} {l : L} {v : V} (h : FType.lookupLast d l = some v) : (l, v) ∈ d := by
  obtain ⟨e, h1, rfl⟩ := Option.map_eq_some_iff.1 h
  have h2 := List.mem_filter.1 (List.mem_of_getLast? h1)
  have h3 : e.1 = l := by simpa using h2.2
  rw [← h3]
  exact h2.1

namespace InducedGated

/-- What a constructed module satisfies. -/
structure Facts (t : FType S (Rep G Id)) (gs : List String) (drop : Bool) (m : InducedGated S (Rep G Id)) : Prop where
  inType : m.inType = t
  drop_eq : m.drop = drop
  len : gs.length = t.reprs.length
  kind : ∀ (k : ℕ) g, gs[k]? = some g → g = "gate" ∨ g = "gated"
  count : gs.count "gate" = gs.count "gated"
  labels_len : m.labels.length = t.reprs.length
  gate : ∀ k : ℕ, gs[k]? = some "gate" → m.labels[k]? = some none
  gated : ∀ (k : ℕ) r, gs[k]? = some "gated" → t.reprs[k]? = some r →
    ∃ (s : ℕ) (k' : ℕ) (r' : Rep G Id), gs[k']? = some "gated" ∧ t.reprs[k']? = some r' ∧ r'.name = r.name ∧ subSize "induced_gated" r' = .ok s ∧ r'.size / s = m.Q ∧ m.labels[k]? = some (some (r.size, s))
  out : m.outType.reprs = keptFields m.labels t.reprs drop
  some_gate : none ∈ m.labels
  size : ∀ (k : ℕ) r, gs[k]? = some "gate" → t.reprs[k]? = some r → r.size = m.Q
  nodup : m.order.Nodup
  order : ∀ l, l ∈ m.order ↔ some l ∈ m.labels
  tables : gatedTables Rep.size t.reprs m.labels drop = .ok (m.tin, m.tout)

theorem checkField_ok {e : String × Rep G Id} {u : Unit} (h : checkField e = .ok u) :
    (e.1 = "gate" ∧ "induced_gate" ∈ e.2.nonlin) ∨ (e.1 = "gated" ∧ ∃ nl ∈ e.2.nonlin, pyStartsWith nl "induced_gated" = true) := by
  unfold checkField at h
  split_ifs at h with h1 h2 h3 h4
  · exact .inl ⟨h1, h2⟩
  · exact .inr ⟨h3, h4⟩

theorem quotientSize_ok {l : List (String × Rep G Id)} {Q : Option ℕ} (h : quotientSize l = .ok Q) : ∀ e ∈ l, e.1 = "gate" → Q = some e.2.size := by
  intro e he hg
  have hm : e ∈ l.filter (fun e => e.1 = "gate") := List.mem_filter.2 ⟨he, by simp [hg]⟩
  unfold quotientSize at h
  split at h
  · rename_i h0
    rw [h0] at hm
    cases hm
  · rename_i e0 es h0
    rw [h0] at hm
    split at h
    · rename_i h1
      obtain rfl := Except.ok.inj h
      rcases List.mem_cons.1 hm with rfl | hm
      · rfl
      · rw [h1 e hm]
    · cases h

theorem facts {bias : ℕ → ℝ} {t : FType S (Rep G Id)} {gates : Option (List String)} {drop : Bool} {m : InducedGated S (Rep G Id)} (h : init bias t gates drop = .ok m) :
    ∃ gs, defaultGates t.len gates = .ok gs ∧ Facts t gs drop m ∧ m.bias = bias := by
  unfold init at h
  obtain ⟨gs, hgs, h⟩ := bind_ok h
  refine ⟨gs, hgs, ?_⟩
  split at h
  · cases h
  rename_i hlen
  rw [not_not] at hlen
  have hlen : gs.length = t.reprs.length := hlen
  obtain ⟨u, hu, h⟩ := bind_ok h
  split at h
  · cases h
  rename_i hcount
  rw [not_not] at hcount
  obtain ⟨Q, hQ, h⟩ := bind_ok h
  obtain ⟨subs, hsubs, h⟩ := bind_ok h
  obtain ⟨out, hout, h⟩ := bind_ok h
  obtain ⟨labels, hlabels, h⟩ := bind_ok h
  obtain ⟨tabs, htabs, h⟩ := bind_ok h
  split at h
  swap
  · cases h
  rename_i hnone
  obtain rfl := Except.ok.inj h
  rw [mapE_ok_iff] at hu hsubs hlabels
  have hzip : ∀ (k : ℕ) g r, gs[k]? = some g → t.reprs[k]? = some r → (gs.zip t.reprs)[k]? = some (g, r) := fun k g r hg hr => List.getElem?_zip_eq_some.2 ⟨hg, hr⟩
  have hcheck : ∀ (k : ℕ) g r, gs[k]? = some g → t.reprs[k]? = some r → g = "gate" ∨ g = "gated" := by
    intro k g r hg hr
    obtain ⟨c, -, hc⟩ := forall₂_get hu (hzip k g r hg hr)
    rcases checkField_ok hc with h | h
    · exact .inl h.1
    · exact .inr h.1
  have hkind : ∀ (k : ℕ) g, gs[k]? = some g → g = "gate" ∨ g = "gated" := by
    intro k g hg
    have hk : k < t.reprs.length := by rw [← hlen]; exact (List.getElem?_eq_some_iff.1 hg).1
    exact hcheck k g _ hg (List.getElem?_eq_getElem hk)
  have hll : labels.length = t.reprs.length := by rw [← hlabels.length_eq]; simp [hlen]
  have hgate : ∀ k : ℕ, gs[k]? = some "gate" → labels[k]? = some none := by
    intro k hg
    have hk : k < t.reprs.length := by rw [← hlen]; exact (List.getElem?_eq_some_iff.1 hg).1
    obtain ⟨c, e1, e2⟩ := forall₂_get hlabels (hzip k _ _ hg (List.getElem?_eq_getElem hk))
    rw [label, if_pos rfl] at e2
    rw [e1, ← Except.ok.inj e2]
  have hQsize : ∀ (k : ℕ) r, gs[k]? = some "gate" → t.reprs[k]? = some r → Q = some r.size := fun k r hg hr =>
    quotientSize_ok hQ ("gate", r) (List.mem_of_getElem? (hzip k _ r hg hr)) rfl
  have hgated : ∀ (k : ℕ) r, gs[k]? = some "gated" → t.reprs[k]? = some r →
      ∃ (s : ℕ) (k' : ℕ) (r' : Rep G Id), gs[k']? = some "gated" ∧ t.reprs[k']? = some r' ∧ r'.name = r.name ∧ subSize "induced_gated" r' = .ok s ∧ r'.size / s = Q.getD 0 ∧ labels[k]? = some (some (r.size, s)) := by
    intro k r hg hr
    obtain ⟨c, e1, e2⟩ := forall₂_get hlabels (hzip k _ _ hg hr)
    rw [label, if_neg (by simp)] at e2
    obtain ⟨s, e3, e4⟩ := bind_ok e2
    have e5 := mem_of_lookupLast (dictGet_ok.1 e3)
    obtain ⟨L, hL, hmem⟩ := List.mem_flatten.1 e5
    obtain ⟨k', hk'⟩ := List.mem_iff_getElem?.1 hL
    have hk'l : k' < (gs.zip t.reprs).length := by rw [hsubs.length_eq]; exact (List.getElem?_eq_some_iff.1 hk').1
    obtain ⟨c', f1, f2⟩ := forall₂_get hsubs (List.getElem?_eq_getElem hk'l)
    rw [hk'] at f1
    obtain rfl := Option.some.inj f1
    have hz := List.getElem?_eq_getElem hk'l
    set e := (gs.zip t.reprs)[k'] with he
    have hz' := List.getElem?_zip_eq_some.1 (show (gs.zip t.reprs)[k']? = some (e.1, e.2) from hz)
    unfold subField at f2
    split at f2
    · rename_i hge
      obtain ⟨s', g1, g2⟩ := bind_ok f2
      split at g2
      · rename_i hq
        obtain rfl := Except.ok.inj g2
        simp only [List.mem_cons, List.not_mem_nil, or_false, Prod.mk.injEq] at hmem
        obtain ⟨hm1, rfl⟩ := hmem
        refine ⟨s, k', e.2, by rw [hz'.1, hge], hz'.2, hm1.symm, g1, by rw [← hq]; rfl, by rw [e1, ← Except.ok.inj e4]⟩
      · cases g2
    · obtain rfl := Except.ok.inj f2
      cases hmem
  refine ⟨⟨rfl, rfl, hlen, hkind, hcount, hll, hgate, hgated, ?_, hnone, ?_, (mergeSort_spec _ _).1, ?_, htabs⟩, rfl⟩
  · unfold gatedOut at hout
    cases drop with
    | false =>
      rw [if_neg (by simp)] at hout
      obtain rfl := Except.ok.inj hout
      exact (zip_filter_true hll).1.symm
    | true =>
      rw [if_pos rfl, indexSelect_nat] at hout
      refine GatedNL.forall₂_unique hout.2.2 ?_
      have := (kept_fields (rs := t.reprs) hll true).1
      have e : keptPos labels true = (List.range gs.length).filter fun i => gs[i]? = some "gated" := by
        rw [keptPos, hll, ← hlen]
        refine List.filter_congr fun k hk => ?_
        have hk1 := List.mem_range.1 hk
        have hk2 : k < t.reprs.length := by omega
        rcases hkind k _ (List.getElem?_eq_getElem hk1) with h | h
        · rw [hgate k (by rw [List.getElem?_eq_getElem hk1, h]), List.getElem?_eq_getElem hk1, h]
          simp
        · obtain ⟨s, -, -, -, -, -, -, -, e⟩ := hgated k _ (by rw [List.getElem?_eq_getElem hk1, h]) (List.getElem?_eq_getElem hk2)
          rw [e, List.getElem?_eq_getElem hk1, h]
          simp
      rw [e] at this
      exact this
  · intro k r hg hr
    have := hQsize k r hg hr
    simp only [this]
    rfl
  · intro l
    rw [(mergeSort_spec _ _).2, List.mem_filterMap]
    simp

section
variable {t : FType S (Rep G Id)} {gs : List String} {drop : Bool} {m : InducedGated S (Rep G Id)}

theorem Facts.label_gate (F : Facts t gs drop m) {k : ℕ} : m.labels[k]? = some none ↔ gs[k]? = some "gate" := by
  refine ⟨fun h => ?_, F.gate k⟩
  have hk : k < t.reprs.length := by rw [← F.labels_len]; exact (List.getElem?_eq_some_iff.1 h).1
  have hk1 : k < gs.length := by rw [F.len]; exact hk
  rcases F.kind k _ (List.getElem?_eq_getElem hk1) with h1 | h1
  · rw [List.getElem?_eq_getElem hk1, h1]
  · obtain ⟨s, -, -, -, -, -, -, -, e⟩ := F.gated k _ (by rw [List.getElem?_eq_getElem hk1, h1]) (List.getElem?_eq_getElem hk)
    rw [h] at e
    simp at e

theorem Facts.label_some (F : Facts t gs drop m) {k : ℕ} {l : ℕ × ℕ} {r : Rep G Id} (hr : t.reprs[k]? = some r) (h : m.labels[k]? = some (some l)) : gs[k]? = some "gated" := by
  have hk1 : k < gs.length := by rw [F.len]; exact (List.getElem?_eq_some_iff.1 hr).1
  rcases F.kind k _ (List.getElem?_eq_getElem hk1) with h1 | h1
  · rw [F.gate k (by rw [List.getElem?_eq_getElem hk1, h1])] at h
    simp at h
  · rw [List.getElem?_eq_getElem hk1, h1]

theorem Facts.gates_eq (F : Facts t gs drop m) : labelled m.labels none = labelled gs "gate" := by
  rw [labelled, labelled, F.labels_len, F.len]
  exact List.filter_congr fun k _ => by simp [F.label_gate]

theorem Facts.kept_eq (F : Facts t gs drop m) : keptPos m.labels true = labelled gs "gated" := by
  rw [keptPos, labelled, F.labels_len, F.len]
  refine List.filter_congr fun k hk => ?_
  have hk2 := List.mem_range.1 hk
  have hk1 : k < gs.length := by rw [F.len]; exact hk2
  rcases F.kind k _ (List.getElem?_eq_getElem hk1) with h | h
  · have : gs[k]? = some "gate" := by rw [List.getElem?_eq_getElem hk1, h]
    rw [F.gate k this, this]
    simp
  · have : gs[k]? = some "gated" := by rw [List.getElem?_eq_getElem hk1, h]
    obtain ⟨s, -, -, -, -, -, -, -, e⟩ := F.gated k _ this (List.getElem?_eq_getElem hk2)
    rw [e, this]
    simp

/-- The number of the gate of field `k`. -/
def gateNum {R : Type} (m : InducedGated S R) (k : ℕ) : ℕ :=
  match m.labels.getD k none with
  | none => 0
  | some l => orderIdx m.labels (m.order.map some) (some l) k

/-- The position of the gate of field `k`. -/
def gateOf {R : Type} (m : InducedGated S R) (k : ℕ) : ℕ := (labelled m.labels none).getD (m.gateNum k) 0

theorem Facts.gateNum_lt (F : Facts t gs drop m) {k : ℕ} {r : Rep G Id} (hg : gs[k]? = some "gated") (hr : t.reprs[k]? = some r) : m.gateNum k < (labelled m.labels none).length := by
  obtain ⟨s, -, -, -, -, -, -, -, e⟩ := F.gated k r hg hr
  have := orderIdx_lt (labels := m.labels) (ls := m.order.map some) (l := some (r.size, s)) (List.mem_map_of_mem ((F.order _).2 (List.mem_of_getElem? e))) e
  rw [nfields_sum F.labels_len F.nodup F.order, F.kept_eq, labelled_length, ← F.count, ← labelled_length, ← F.gates_eq] at this
  simp only [gateNum, List.getD, e, Option.getD_some]
  exact this

theorem Facts.gateNum_inj (F : Facts t gs drop m) {k k' : ℕ} {r r' : Rep G Id} (hg : gs[k]? = some "gated") (hr : t.reprs[k]? = some r) (hg' : gs[k']? = some "gated") (hr' : t.reprs[k']? = some r')
    (h : m.gateNum k = m.gateNum k') : k = k' := by
  obtain ⟨s, -, -, -, -, -, -, -, e⟩ := F.gated k r hg hr
  obtain ⟨s', -, -, -, -, -, -, -, e'⟩ := F.gated k' r' hg' hr'
  simp only [gateNum, List.getD, e, e', Option.getD_some] at h
  exact orderIdx_inj (List.mem_map_of_mem ((F.order _).2 (List.mem_of_getElem? e))) (List.mem_map_of_mem ((F.order _).2 (List.mem_of_getElem? e'))) e e' h

theorem Facts.gateOf_spec (F : Facts t gs drop m) {k : ℕ} {r : Rep G Id} (hg : gs[k]? = some "gated") (hr : t.reprs[k]? = some r) :
    (labelled m.labels none)[m.gateNum k]? = some (m.gateOf k) ∧ gs[m.gateOf k]? = some "gate" := by
  have hlt := F.gateNum_lt hg hr
  have h1 : (labelled m.labels none)[m.gateNum k]? = some (m.gateOf k) := by simp [gateOf, List.getD, hlt]
  exact ⟨h1, F.label_gate.1 (mem_labelled.1 (List.mem_of_getElem? h1))⟩

/-- Representations with the same name are equal. -/
def NamesDetermine (t : FType S (Rep G Id)) : Prop := ∀ r ∈ t.reprs, ∀ r' ∈ t.reprs, r.name = r'.name → r = r'

theorem Facts.sub (F : Facts t gs drop m) (hname : NamesDetermine t) {k : ℕ} {r : Rep G Id} (hg : gs[k]? = some "gated") (hr : t.reprs[k]? = some r) :
    ∃ s, subSize "induced_gated" r = .ok s ∧ r.size / s = m.Q ∧ m.labels[k]? = some (some (r.size, s)) := by
  obtain ⟨s, k', r', -, e2, e3, e4, e5, e6⟩ := F.gated k r hg hr
  obtain rfl := hname r' (List.mem_of_getElem? e2) r (List.mem_of_getElem? hr) e3
  exact ⟨s, e4, e5, e6⟩

/-- What the forward pass computes, when the gates are dropped. -/
theorem Facts.forward_spec (F : Facts t gs true m) (hname : NamesDetermine t) (hpos : ∀ r ∈ t.reprs, 0 < r.size) (junk : B → ℕ → P → ℝ) (x : GTensor B P S (Rep G Id) C) (hx : x.type = t)
    (hc : x.tensor.chans = t.size Rep.size) : ∃ y, forward junk m x = .ok y ∧ y.type = m.outType ∧ y.coords = x.coords ∧ y.tensor.chans = m.outType.size Rep.size ∧
      ∀ (k' k : ℕ) r s, (labelled gs "gated")[k']? = some k → t.reprs[k]? = some r → subSize "induced_gated" r = .ok s → ∀ o < r.size, ∀ b p,
        y.tensor.get b (chanOffset Rep.size m.outType.reprs k' + o) p = x.tensor.get b (chanOffset Rep.size t.reprs k + o) p *
          torchSigmoid (x.tensor.get b (chanOffset Rep.size t.reprs (m.gateOf k) + o / s) p - m.bias (m.gateNum k)) := by
  have hc' := hc
  rw [FType.size_eq] at hc
  obtain ⟨kg, hkg⟩ := List.mem_iff_getElem?.1 F.some_gate
  have hkgl : kg < t.reprs.length := by rw [← F.labels_len]; exact (List.getElem?_eq_some_iff.1 hkg).1
  have hQ : 0 < m.Q := by
    rw [← F.size kg _ (F.label_gate.1 hkg) (List.getElem?_eq_getElem hkgl)]
    exact hpos _ (List.getElem_mem hkgl)
  obtain ⟨d, hd, ht1, ht2⟩ := gatedTables_spec (sz := Rep.size) hpos m.labels F.labels_len true
  rw [F.tables] at hd
  obtain rfl := Except.ok.inj hd
  obtain ⟨c, idx, g0, a1, -, a2, a3, a4⟩ := readGates (sz := Rep.size) (Q := m.Q) F.labels_len (fun k r h hr => F.size k r (F.label_gate.1 h) hr) F.some_gate ht1 hc
  have hlabel : ∀ (k : ℕ) l r, m.labels[k]? = some (some l) → t.reprs[k]? = some r → subSize "induced_gated" r = .ok l.2 ∧ r.size = m.Q * l.2 := by
    intro k l r hk hr
    obtain ⟨s, e1, e2, e3⟩ := F.sub hname (F.label_some hr hk) hr
    rw [hk] at e3
    obtain rfl := Option.some.inj (Option.some.inj e3)
    exact ⟨e1, by rw [← e2, (subSize_ok e1).2]⟩
  obtain ⟨res, b1, b2, b3, -⟩ := gatedLoop_spec (x := x.tensor) (out := ⟨m.outType.size Rep.size, junk⟩) (gates := gateValues m.Q m.bias g0) (sub := Prod.snd) F.labels_len hQ
    (fun k l r h hr => (hlabel k l r h hr).2)
    (fun l hl => by
      obtain ⟨k, hk⟩ := List.mem_iff_getElem?.1 ((F.order l).1 hl)
      have hkl : k < t.reprs.length := by rw [← F.labels_len]; exact (List.getElem?_eq_some_iff.1 hk).1
      exact (subSize_ok (hlabel k l _ hk (List.getElem?_eq_getElem hkl)).1).1)
    F.nodup F.order ht1 ht2 hc (by rw [← F.out, FType.size_eq])
  rw [← F.out] at b2 b3
  refine ⟨⟨res, m.outType, x.coords⟩, ?_, rfl, rfl, by rw [FType.size_eq]; exact b2, fun k' k r s hk' hr hs o ho b p => ?_⟩
  · rw [forward, if_pos (hx.trans F.inType.symm)]
    simp only [bind, Except.bind, a1, a2, gatesOut', F.drop_eq, if_true, b1]
    exact if_pos (by rw [b2, FType.size_eq])
  · have hg : gs[k]? = some "gated" := mem_labelled.1 (List.mem_of_getElem? hk')
    obtain ⟨s', e1, e2, e3⟩ := F.sub hname hg hr
    obtain rfl : s' = s := Except.ok.inj (e1.symm.trans hs)
    obtain ⟨hs0, hdiv⟩ := subSize_ok hs
    have hsz : r.size = m.Q * s' := by rw [← e2, hdiv]
    have := b3 k' k (r.size, s') (by rw [F.kept_eq]; exact hk') e3 b o p (by rw [← hsz]; exact ho)
    simp only at this ⊢
    rw [this]
    have hoq : o / s' < m.Q := by rw [Nat.div_lt_iff_lt_mul hs0, ← hsz]; exact ho
    have hgn : m.gateNum k = orderIdx m.labels (m.order.map some) (some (r.size, s')) k := by simp only [gateNum, List.getD, e3, Option.getD_some]
    rw [← hgn]
    simp only [gateValues]
    rw [a4 (m.gateNum k) (m.gateOf k) (F.gateOf_spec hg hr).1 b (o / s') p hoq,
      show (m.gateNum k * m.Q + o / s') / m.Q = m.gateNum k by rw [Nat.mul_comm, Nat.mul_add_div hQ, Nat.div_eq_of_lt hoq, Nat.add_zero]]

end

/-- The matrices of the gates are the same permutations of the `Q` cosets and the matrices of the gated fields are block permutations, with orthogonal blocks, for the same permutations. -/
def SameBlocks (El : G → Prop) (gs : List String) (Q : ℕ) (t : FType S (Rep G Id)) : Prop :=
  ∀ g, El g → ∃ σ : Equiv.Perm (Fin Q),
    (∀ (k : ℕ) r, gs[k]? = some "gate" → t.reprs[k]? = some r → (r.mat g).rows = Q ∧ (r.mat g).cols = Q ∧ ∀ i j : Fin Q, (r.mat g).get i j = if i = σ j then 1 else 0) ∧
    ∀ (k : ℕ) r s, gs[k]? = some "gated" → t.reprs[k]? = some r → subSize "induced_gated" r = .ok s → (r.mat g).rows = Q * s ∧ (r.mat g).cols = Q * s ∧
      ∃ A : Fin Q → NpMat ℝ, ∀ (i j : Fin Q) (p q : ℕ), p < s → q < s → (r.mat g).get (i * s + p) (j * s + q) = if i = σ j then (A j).get p q else 0

theorem sum_gate {Q : ℕ} {M : NpMat ℝ} {σ : Equiv.Perm (Fin Q)} (h : ∀ i j : Fin Q, M.get i j = if i = σ j then 1 else 0) (v : ℕ → ℝ) (i : Fin Q) :
    ∑ j ∈ Finset.range Q, M.get i j * v j = v (σ.symm i) := by
  rw [sum_range_fin, Finset.sum_eq_single (σ.symm i)]
  · rw [h, if_pos (by simp), one_mul]
  · intro j _ hj
    rw [h, if_neg (fun e => hj (by rw [e]; simp)), zero_mul]
  · simp

theorem sum_gated {Q d : ℕ} {M : NpMat ℝ} {σ : Equiv.Perm (Fin Q)} {A : Fin Q → NpMat ℝ}
    (h : ∀ (i j : Fin Q) (p q : ℕ), p < d → q < d → M.get (i * d + p) (j * d + q) = if i = σ j then (A j).get p q else 0) (v : ℕ → ℝ) (i : Fin Q) {p : ℕ} (hp : p < d) :
    ∑ j ∈ Finset.range (Q * d), M.get (i * d + p) j * v j = ∑ q ∈ Finset.range d, (A (σ.symm i)).get p q * v (σ.symm i * d + q) := by
  rw [sum_range_blocks, sum_range_fin fun a => ∑ q ∈ Finset.range d, M.get (i * d + p) (a * d + q) * v (a * d + q), Finset.sum_eq_single (σ.symm i)]
  · refine Finset.sum_congr rfl fun q hq => ?_
    rw [h i (σ.symm i) p q hp (Finset.mem_range.1 hq), if_pos (by simp)]
  · intro j _ hj
    refine Finset.sum_eq_zero fun q hq => ?_
    rw [h i j p q hp (Finset.mem_range.1 hq), if_neg (fun e => hj (by rw [e]; simp)), zero_mul]
  · simp

/-- **C51** `InducedGatedNonLinearity1` with `drop_gates`: if the gates and the gated fields are induced from the same subgroup (their matrices permute the cosets in the same way), for all biases, contents of the
uninitialised memory, inputs and group elements the module commutes with the action; it computes at each position from the values at that position. -/
theorem C51_gated (bias : ℕ → ℝ) (t : FType S (Rep G Id)) (hpos : ∀ r ∈ t.reprs, 0 < r.size) (hname : NamesDetermine t) (gates : Option (List String)) {m : InducedGated S (Rep G Id)}
    (hm : init bias t gates true = .ok m) (Q : ℕ) (gs : List String) (hgs : defaultGates t.len gates = .ok gs) (hQ : ∀ (k : ℕ) r, gs[k]? = some "gate" → t.reprs[k]? = some r → r.size = Q)
    (hblock : SameBlocks El gs Q t) (junk : B → ℕ → P → ℝ) :
    m.outType.reprs = (((gs.zip t.reprs).filter fun e => e.1 = "gated").map Prod.snd) ∧
    FibreEquivariant (B := B) (P := P) (C := C) El t m.outType (forward junk m) ∧ PositionLocal (B := B) (P := P) (C := C) Rep.size t (forward junk m) := by
  obtain ⟨gs', e, F, -⟩ := facts hm
  obtain rfl : gs' = gs := Except.ok.inj (e.symm.trans hgs)
  obtain ⟨kg, hkg⟩ := List.mem_iff_getElem?.1 F.some_gate
  have hkgl : kg < t.reprs.length := by rw [← F.labels_len]; exact (List.getElem?_eq_some_iff.1 hkg).1
  obtain rfl : m.Q = Q := by
    rw [← F.size kg _ (F.label_gate.1 hkg) (List.getElem?_eq_getElem hkgl)]
    exact hQ kg _ (F.label_gate.1 hkg) (List.getElem?_eq_getElem hkgl)
  have hkept := (kept_fields (rs := t.reprs) F.labels_len true).1
  rw [← F.out, F.kept_eq] at hkept
  have hpick : ∀ (k' : ℕ) r, m.outType.reprs[k']? = some r → ∃ k : ℕ, (labelled gs' "gated")[k']? = some k ∧ gs'[k]? = some "gated" ∧ t.reprs[k]? = some r := by
    intro k' r hk'
    have h1 : k' < (labelled gs' "gated").length := by rw [hkept.length_eq]; exact (List.getElem?_eq_some_iff.1 hk').1
    obtain ⟨r', e1, e2⟩ := forall₂_get hkept (List.getElem?_eq_getElem h1)
    rw [hk'] at e1
    obtain rfl := Option.some.inj e1
    exact ⟨_, List.getElem?_eq_getElem h1, mem_labelled.1 (List.getElem_mem h1), e2⟩
  have hsq : t.Square El := by
    intro r hr g hg
    obtain ⟨k, hk⟩ := List.mem_iff_getElem?.1 hr
    have hk1 : k < gs'.length := by rw [F.len]; exact (List.getElem?_eq_some_iff.1 hk).1
    obtain ⟨σ, h1, h2⟩ := hblock g hg
    rcases F.kind k _ (List.getElem?_eq_getElem hk1) with h | h
    · have hg' : gs'[k]? = some "gate" := by rw [List.getElem?_eq_getElem hk1, h]
      rw [F.size k r hg' hk]
      exact ⟨(h1 k r hg' hk).1, (h1 k r hg' hk).2.1⟩
    · have hg' : gs'[k]? = some "gated" := by rw [List.getElem?_eq_getElem hk1, h]
      obtain ⟨s, e1, e2, -⟩ := F.sub hname hg' hk
      have := h2 k r s hg' hk e1
      rw [← (subSize_ok e1).2, e2]
      exact ⟨this.1, this.2.1⟩
  have hsqo : m.outType.Square El := by
    intro r hr
    obtain ⟨k', hk'⟩ := List.mem_iff_getElem?.1 hr
    obtain ⟨k, -, -, hk⟩ := hpick k' r hk'
    exact hsq r (List.mem_of_getElem? hk)
  let sub : ℕ → ℕ := fun k => match t.reprs[k]? with
    | some r => (match subSize "induced_gated" r with
      | .ok s => s
      | .error _ => 0)
    | none => 0
  have hsub : ∀ {k : ℕ} {r : Rep G Id} {s}, t.reprs[k]? = some r → subSize "induced_gated" r = .ok s → sub k = s := fun h1 h2 => by simp only [sub, h1, h2]
  let Φ : FTensor B P → ℕ → ℕ → B → P → ℝ := fun x k' o b p => x.get b (chanOffset Rep.size t.reprs ((labelled gs' "gated").getD k' 0) + o) p *
    torchSigmoid (x.get b (chanOffset Rep.size t.reprs (m.gateOf ((labelled gs' "gated").getD k' 0)) + o / sub ((labelled gs' "gated").getD k' 0)) p - m.bias (m.gateNum ((labelled gs' "gated").getD k' 0)))
  have hf : ∀ x : GTensor B P S (Rep G Id) C, x.type = t → x.tensor.chans = t.size Rep.size → ∃ y, forward junk m x = .ok y ∧ y.type = m.outType ∧ y.coords = x.coords ∧
      y.tensor.chans = m.outType.size Rep.size ∧
      ∀ (k : ℕ) (r : Rep G Id), m.outType.reprs[k]? = some r → ∀ o < r.size, ∀ b p, y.tensor.get b (chanOffset Rep.size m.outType.reprs k + o) p = Φ x.tensor k o b p := by
    intro x hx hc
    obtain ⟨y, e1, e2, e3, e4, e5⟩ := F.forward_spec (C := C) hname hpos junk x hx hc
    refine ⟨y, e1, e2, e3, e4, fun k' r hk' o ho b p => ?_⟩
    obtain ⟨k, a1, a2, a3⟩ := hpick k' r hk'
    obtain ⟨s, b1, -⟩ := F.sub hname a2 a3
    have hD : (labelled gs' "gated").getD k' 0 = k := by simp [List.getD, a1]
    simp only [Φ, hD, hsub a3 b1]
    exact e5 k' k r s a1 a3 b1 o ho b p
  refine ⟨?_, ?_, ?_⟩
  · rw [F.out]
    refine filter_zip_congr (A := m.labels) (D := gs') (p := fun a => a.isSome || !true) (q := fun g => decide (g = "gated")) (by rw [F.labels_len, F.len]) t.reprs fun k a c hl hc => ?_
    rcases F.kind k c hc with rfl | rfl
    · rw [F.gate k hc] at hl
      obtain rfl := Option.some.inj hl
      simp
    · have hk : k < t.reprs.length := by rw [← F.len]; exact (List.getElem?_eq_some_iff.1 hc).1
      obtain ⟨s, -, -, -, -, -, -, -, e⟩ := F.gated k _ hc (List.getElem?_eq_getElem hk)
      rw [e] at hl
      obtain rfl := Option.some.inj hl
      simp
  · refine FibreEquivariant.of_fields hsq hsqo Φ hf ?_
    intro g hg x gx _ _ hact k' r hk' o ho b p
    obtain ⟨k, a1, a2, a3⟩ := hpick k' r hk'
    obtain ⟨s, b1, b2, b3⟩ := F.sub hname a2 a3
    obtain ⟨hs0, hdiv⟩ := subSize_ok b1
    rw [b2] at hdiv
    obtain ⟨σ, h1, h2⟩ := hblock g hg
    have hD : (labelled gs' "gated").getD k' 0 = k := by simp [List.getD, a1]
    simp only [Φ, hD, hsub a3 b1]
    obtain ⟨c1, c2⟩ := F.gateOf_spec a2 a3
    have hgl : m.gateOf k < t.reprs.length := by rw [← F.len]; exact (List.getElem?_eq_some_iff.1 c2).1
    have hgr := List.getElem?_eq_getElem hgl
    have hsz := F.size _ _ c2 hgr
    have hoq : o / s < m.Q := by rw [Nat.div_lt_iff_lt_mul hs0, hdiv]; exact ho
    have hom : o % s < s := Nat.mod_lt _ hs0
    have e := Nat.div_add_mod' o s
    have d1 := hact _ _ hgr b (o / s) p (by rw [hsz]; exact hoq)
    rw [hsz, sum_gate (h1 _ _ c2 hgr).2.2 (fun j => x.get b (chanOffset Rep.size t.reprs (m.gateOf k) + j) p) ⟨o / s, hoq⟩] at d1
    obtain ⟨-, -, A, hA⟩ := h2 k r s a2 a3 b1
    have d2 := hact k r a3 b o p ho
    have d3 := sum_gated hA (fun j => x.get b (chanOffset Rep.size t.reprs k + j) p) ⟨o / s, hoq⟩ hom
    simp only [e, hdiv] at d3
    rw [d3] at d2
    have d4 := sum_gated hA (fun j => x.get b (chanOffset Rep.size t.reprs k + j) p * torchSigmoid (x.get b (chanOffset Rep.size t.reprs (m.gateOf k) + j / s) p - m.bias (m.gateNum k))) ⟨o / s, hoq⟩ hom
    simp only [e, hdiv] at d4
    rw [d1, d2, d4, Finset.sum_mul]
    refine Finset.sum_congr rfl fun q hq => ?_
    rw [show ((σ.symm ⟨o / s, hoq⟩ : ℕ) * s + q) / s = σ.symm ⟨o / s, hoq⟩ by rw [Nat.mul_comm, Nat.mul_add_div hs0, Nat.div_eq_of_lt (Finset.mem_range.1 hq), Nat.add_zero], mul_assoc]
  · exact PositionLocal.of_fields (sz := Rep.size) (inT := t) (outT := m.outType) Φ hf (fun _ _ _ _ _ _ => rfl)

end InducedGated

end Escnn
