import Verif.Lemmas.PointConv

/-!
# The messages of `BlocksBasisSampler`, field by field
-/

namespace Escnn

open FType

namespace Sampler

variable {R X A : Type} {m : Sampler X A} {nm : R → String} {sz : R → ℕ} {uin uout inR outR : List R} {bg : R → R → Except Err (PBasis X A)}

instance : Inhabited (PBlock X A) := ⟨⟨⟨0, 0, [], fun _ _ _ _ _ => 0⟩, []⟩⟩

/-- Channel `a` of field `k` among the channels of the fields with the same name. -/
theorem labelIdx_idxOf {rs : List R} (hsz : ∀ r ∈ rs, ∀ r' ∈ rs, nm r = nm r' → sz r = sz r') {k : ℕ} {r : R} (hk : rs[k]? = some r) {a : ℕ} (ha : a < sz r) :
    chanOffset sz rs k + a ∈ labelIdx sz rs (rs.map nm) (nm r) ∧ (labelIdx sz rs (rs.map nm) (nm r)).idxOf (chanOffset sz rs k + a) = (labelled (rs.map nm) (nm r)).idxOf k * sz r + a ∧
      (labelled (rs.map nm) (nm r)).idxOf k < (labelled (rs.map nm) (nm r)).length := by
  have hkl : (rs.map nm)[k]? = some (nm r) := by rw [List.getElem?_map, hk]; rfl
  have hkm := mem_labelled.2 hkl
  have hn : (labelled (rs.map nm) (nm r))[(labelled (rs.map nm) (nm r)).idxOf k]? = some k := by
    rw [List.getElem?_eq_getElem (List.idxOf_lt_length_of_mem hkm), List.getElem_idxOf]
  have hs : ∀ (k' : ℕ) (r' : R), (rs.map nm)[k']? = some (nm r) → rs[k']? = some r' → sz r' = sz r := fun k' r' h1 h2 => by
    rw [List.getElem?_map, h2] at h1
    exact hsz r' (List.mem_of_getElem? h2) r (List.mem_of_getElem? hk) (Option.some.inj h1)
  have hget := labelIdx_get (List.length_map nm) (nm r) (sz r) hs hn ha
  obtain ⟨hlt, e⟩ := List.getElem?_eq_some_iff.1 hget
  refine ⟨List.mem_of_getElem? hget, ?_, List.idxOf_lt_length_of_mem hkm⟩
  rw [← e]
  exact (labelIdx_nodup (List.length_map nm) (nm r)).idxOf_getElem _ hlt

/-- The messages of a sampler: in every field of the output the filter is applied to the channels of one group, and the block of the filter for two fields is a combination of the elements of the basis of their representations. -/
theorem Facts.fields [DecidableEq R] (h : Input nm sz bg uin uout inR outR) (filt : Option (Attr A → Bool)) (f : Facts nm sz (blockFor nm bg filt) uin uout inR outR m)
    (hin : ∀ r ∈ inR, ∀ r' ∈ inR, nm r = nm r' → r = r') (hout : ∀ r ∈ outR, ∀ r' ∈ outR, nm r = nm r' → r = r') {groups : ℕ} (hgr : 0 < groups) :
    (∃ e, ∀ w pts x, 0 < pts.length → x.S = pts.length → x.cols = m.inSize * groups → m.messages m.dim w x pts true groups = .error e) ∨
    ∃ (grp : ℕ → ℕ) (slot : ℕ → ℕ → ℕ → ℕ), (∀ o, grp o < groups) ∧ ∀ w pts, ∃ F : ℕ → ℕ → ℕ → ℝ,
      (∀ x, 0 < pts.length → x.S = pts.length → x.cols = m.inSize * groups → ∃ y, m.messages m.dim w x pts true groups = .ok y ∧ y.S = pts.length ∧ y.cols = m.outSize ∧
        ∀ pt o ro a, outR[o]? = some ro → a < sz ro → y.get pt (chanOffset sz outR o + a) = ∑ c ∈ Finset.range m.inSize, F pt (chanOffset sz outR o + a) c * x.get pt (grp o * m.inSize + c)) ∧
      ∀ pt o ro i ri a c, outR[o]? = some ro → inR[i]? = some ri → a < sz ro → c < sz ri →
        (blockFor nm bg filt ri ro = .error .emptyBasis → F pt (chanOffset sz outR o + a) (chanOffset sz inR i + c) = 0) ∧
        ∀ b, blockFor nm bg filt ri ro = .ok b → F pt (chanOffset sz outR o + a) (chanOffset sz inR i + c) = ∑ k ∈ Finset.range b.dim, w (slot o i k) * b.sample pts pt a c k := by
  classical
  choose! bl rg hd using f.data
  rcases f.total hgr bl rg hd with he | ⟨hdv, hok⟩
  · exact .inl he
  have hblk : ∀ i ∈ inR, ∀ o ∈ outR, (nm i, nm o) ∈ m.pairs → blockFor nm bg filt i o = .ok (bl (nm i, nm o)) ∧ (bl (nm i, nm o)).basis.outSize = sz o ∧ (bl (nm i, nm o)).basis.inSize = sz i := by
    intro i hi o ho hp
    obtain ⟨i', hi', o', ho', e, b, hb, hb'⟩ := f.block _ hp
    obtain ⟨e1, e2⟩ := Prod.mk.inj e
    obtain rfl := hin i hi i' hi' e1
    obtain rfl := hout o ho o' ho' e2
    obtain ⟨c, ii, oi, hpd⟩ := hd _ hp
    have : b = bl (nm i, nm o) := Except.ok.inj (hb'.symm.trans hpd.blk)
    subst this
    rcases h.blockFor_cases filt hi ho with e | ⟨b, e1, e2, e3⟩
    · rw [hb] at e; cases e
    · rw [hb] at e1
      obtain rfl := Except.ok.inj e1
      exact ⟨hb, e2, e3⟩
  have hof : ∀ o ro, outR[o]? = some ro → ∀ a < sz ro, ∀ p ∈ m.pairs, chanOffset sz outR o + a ∈ labelIdx sz outR (outR.map nm) p.2 → p.2 = nm ro := fun o ro ho a ha p _ hr =>
    labelIdx_disjoint hr (labelIdx_idxOf h.out_name ho ha).1
  have hif : ∀ i ri, inR[i]? = some ri → ∀ a < sz ri, ∀ p ∈ m.pairs, chanOffset sz inR i + a ∈ labelIdx sz inR (inR.map nm) p.1 → p.1 = nm ri := fun i ri hi a ha p _ hr =>
    labelIdx_disjoint hr (labelIdx_idxOf h.in_name hi ha).1
  refine .inr ⟨fun o => if ∃ p ∈ m.pairs, (outR[o]?).map nm = some p.2 then match outR[o]? with
      | some ro => (labelled (outR.map nm) (nm ro)).idxOf o / (m.outCount (nm ro) / groups)
      | none => 0 else 0,
    fun o i k => match outR[o]?, inR[i]? with
      | some ro, some ri => (rg (nm ri, nm ro)).1 + (((labelled (outR.map nm) (nm ro)).idxOf o * m.inCount (nm ri) + (labelled (inR.map nm) (nm ri)).idxOf i) * (bl (nm ri, nm ro)).dim + k)
      | _, _ => 0, fun o => ?_, fun w pts => ⟨fun pt r c => ∑ p ∈ m.pairs.toFinset, if r ∈ labelIdx sz outR (outR.map nm) p.2 ∧ c ∈ labelIdx sz inR (inR.map nm) p.1 then
        m.blockEntry w pts p (bl p) (rg p) pt ((labelIdx sz outR (outR.map nm) p.2).idxOf r) ((labelIdx sz inR (inR.map nm) p.1).idxOf c) else 0, fun x h1 h2 h3 => ?_, ?_⟩⟩
  · simp only
    split_ifs with hp
    · obtain ⟨p, hp, he⟩ := hp
      cases ho : outR[o]? with
      | none => exact hgr
      | some ro =>
        simp only
        rw [ho] at he
        have he' : nm ro = p.2 := Option.some.inj he
        obtain ⟨i', hi', o', ho', rfl, b, hb⟩ := (f.mem p).1 hp
        have ho2 := List.mem_of_getElem? ho
        obtain rfl := hout ro ho2 o' ho' he'
        obtain ⟨c, ii, oi, hpd⟩ := hd _ hp
        obtain ⟨-, b2, b3⟩ := hblk i' hi' ro ho2 hp
        have hlt := (labelIdx_idxOf h.out_name ho (h.out_pos ro ho2)).2.2
        have hlen := labelIdx_length (sz := sz) (List.length_map nm) (nm ro) (sz ro) (rs := outR) fun k' r' h1 h2 => by
          rw [List.getElem?_map, h2] at h1
          exact h.out_name r' (List.mem_of_getElem? h2) ro ho2 (Option.some.inj h1)
        have hol := hpd.olen
        simp only at hol
        rw [hlen, b2] at hol
        have hcnt := Nat.eq_of_mul_eq_mul_right (h.out_pos ro ho2) hol
        rw [hcnt, ← hdv _ hp] at hlt
        simp only at hlt
        rw [Nat.div_lt_iff_lt_mul]
        · exact hlt
        · rcases Nat.eq_zero_or_pos (m.outCount (nm ro) / groups) with hz | hz
          · rw [hz, Nat.mul_zero] at hlt; omega
          · exact hz
    · exact hgr
  · obtain ⟨y, y1, y2, y3, y4⟩ := hok w pts x h1 h2 h3
    refine ⟨y, y1, y2, y3, fun pt o ro a ho ha => ?_⟩
    have hr : chanOffset sz outR o + a < m.outSize := by rw [f.outSize]; exact chanOffset_lt ho ha
    rw [y4 pt _ hr, ← List.sum_toFinset _ f.nodup]
    simp only [Finset.sum_mul]
    rw [Finset.sum_comm]
    refine Finset.sum_congr rfl fun p hp => ?_
    rw [List.mem_toFinset] at hp
    by_cases hrp : chanOffset sz outR o + a ∈ labelIdx sz outR (outR.map nm) p.2
    swap
    · rw [if_neg hrp]
      exact (Finset.sum_eq_zero fun c _ => by rw [if_neg fun hh => hrp hh.1, zero_mul]).symm
    obtain ⟨c, ii, oi, hpd⟩ := hd _ hp
    rw [if_pos hrp]
    have hp2 := hof o ro ho a ha p hp hrp
    obtain ⟨i', hi', o', ho', hpe, b, hb⟩ := (f.mem p).1 hp
    have ho2 := List.mem_of_getElem? ho
    obtain rfl := hout ro ho2 o' ho' (by rw [← hp2, hpe])
    have hbs := (hblk i' hi' ro ho2 (by rw [← hpe]; exact hp)).2.1
    rw [← hpe] at hbs
    rw [if_pos ⟨p, hp, by rw [ho, hp2]; rfl⟩, ho]
    simp only
    have hx := (labelIdx_idxOf h.out_name ho ha).2.1
    have hdivv : (labelIdx sz outR (outR.map nm) p.2).idxOf (chanOffset sz outR o + a) / (bl p).basis.outSize = (labelled (outR.map nm) (nm ro)).idxOf o := by
      rw [hp2, hx, hbs, Nat.add_comm, Nat.add_mul_div_right _ _ (h.out_pos ro ho2), Nat.div_eq_of_lt ha, Nat.zero_add]
    rw [hdivv, ← hp2]
    refine (sum_at _ hpd.inodup m.inSize hpd.ilt (fun l => m.blockEntry w pts p (bl p) (rg p) pt ((labelIdx sz outR (outR.map nm) p.2).idxOf (chanOffset sz outR o + a)) l)
      fun c => x.get pt ((labelled (outR.map nm) p.2).idxOf o / (m.outCount p.2 / groups) * m.inSize + c)).symm.trans ?_
    refine Finset.sum_congr rfl fun c _ => ?_
    by_cases hc : c ∈ labelIdx sz inR (inR.map nm) p.1
    · rw [if_pos hc, if_pos ⟨hrp, hc⟩]
    · rw [if_neg hc, if_neg fun hh => hc hh.2, zero_mul]
  · intro pt o ro i ri a c ho hi ha hc
    have ho2 := List.mem_of_getElem? ho
    have hi2 := List.mem_of_getElem? hi
    have hone : ∀ p ∈ m.pairs, chanOffset sz outR o + a ∈ labelIdx sz outR (outR.map nm) p.2 ∧ chanOffset sz inR i + c ∈ labelIdx sz inR (inR.map nm) p.1 → p = (nm ri, nm ro) := fun p hp hh =>
      Prod.ext (hif i ri hi c hc p hp hh.2) (hof o ro ho a ha p hp hh.1)
    constructor
    · intro he
      refine Finset.sum_eq_zero fun p hp => ?_
      rw [if_neg]
      intro hh
      rw [List.mem_toFinset] at hp
      obtain rfl := hone p hp hh
      rw [(hblk ri hi2 ro ho2 hp).1] at he
      cases he
    · intro b hb
      have hp : (nm ri, nm ro) ∈ m.pairs := (f.mem _).2 ⟨ri, hi2, ro, ho2, rfl, b, hb⟩
      obtain ⟨e1, e2, e3⟩ := hblk ri hi2 ro ho2 hp
      rw [hb] at e1
      obtain rfl := Except.ok.inj e1
      simp only
      rw [Finset.sum_eq_single (nm ri, nm ro)]
      · obtain ⟨o1, o2, -⟩ := labelIdx_idxOf h.out_name ho ha
        obtain ⟨i1, i2, -⟩ := labelIdx_idxOf h.in_name hi hc
        rw [if_pos ⟨o1, i1⟩, o2, i2, ho, hi, blockEntry]
        simp only
        have d1 : ∀ q, (q * sz ro + a) / sz ro = q ∧ (q * sz ro + a) % sz ro = a := fun q => by
          rw [Nat.add_comm, Nat.add_mul_div_right _ _ (h.out_pos ro ho2), Nat.div_eq_of_lt ha, Nat.add_mul_mod_self_right, Nat.mod_eq_of_lt ha, Nat.zero_add]
          exact ⟨rfl, rfl⟩
        have d2 : ∀ q, (q * sz ri + c) / sz ri = q ∧ (q * sz ri + c) % sz ri = c := fun q => by
          rw [Nat.add_comm, Nat.add_mul_div_right _ _ (h.in_pos ri hi2), Nat.div_eq_of_lt hc, Nat.add_mul_mod_self_right, Nat.mod_eq_of_lt hc, Nat.zero_add]
          exact ⟨rfl, rfl⟩
        rw [e2, e3, (d1 _).1, (d1 _).2, (d2 _).1, (d2 _).2]
      · intro p hp' hne
        rw [List.mem_toFinset] at hp'
        rw [if_neg fun hh => hne (hone p hp' hh)]
      · intro hn
        exact absurd (List.mem_toFinset.2 hp) hn

end Sampler

end Escnn
