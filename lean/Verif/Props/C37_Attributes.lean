import Verif.Lemmas.Locate
import Verif.Props.C35_WignerEckart
import Verif.Props.C36_RestrictedWE

/-!
# C37: attributes, iteration and samples of kernel bases agree
-/

namespace Escnn

open NpMat

variable {G H J J' P A : Type} [DecidableEq J] [DecidableEq J']

/-- The filter basis describes its filters consistently: `steerable_attrs_j_iter(j)` yields `multiplicity(j)` descriptions, and
`steerable_attrs_j(j, i)` is the `i`-th. -/
def FBasis.AttrsAgree (F : FBasis J P A) : Prop :=
  ∀ e ∈ F.js, ∃ L, F.attrsIter e.1 = .ok L ∧ L.length = e.2 ∧ ∀ (i : ℕ) (h : i < L.length), F.attrsJ e.1 i = .ok L[i]

namespace IBasis

/-- What the subclasses provide. -/
def AttrOk (b : IBasis J J' A) : Prop :=
  ∀ j ∈ b.js, ∃ M, b.attrsIter j = .ok M ∧ M.length = b.dimH j ∧ ∀ s0, (j, s0) ∈ startLoop b.dimH 0 b.js → ∀ e < b.dimH j,
    ∃ a, M[e]? = some a ∧ b.attrsJ j e = .ok a ∧ a.idx = s0 + e ∧ a.j = j

theorem getLoop_eq (dimH : J → ℕ) : ∀ (L : List J) (j0 : J) (e : ℕ) (r : J × ℕ), locate dimH L e = some r → getLoop dimH j0 e L = r
  | [], _, _, _, h => by simp [locate] at h
  | j :: L, j0, e, r, h => by
    rw [locate] at h
    rw [getLoop]
    by_cases hlt : e < dimH j
    · rw [if_pos hlt] at h ⊢; exact Option.some.inj h
    · rw [if_neg hlt] at h ⊢; exact getLoop_eq dimH L j _ r h

theorem attr_spec {b : IBasis J J' A} (hd : b.dim = (b.js.map b.dimH).sum) (hA : b.AttrOk) :
    ∃ L, b.iter = .ok L ∧ L.length = b.dim ∧ ∀ idx < b.dim, ∃ j e a, locate b.dimH b.js idx = some (j, e) ∧ b.getItem idx = .ok a ∧ L[idx]? = some a ∧
      a.idx = idx ∧ a.j = j ∧ b.attrsJ j e = .ok a := by
  have hex : ∀ j, ∃ M, j ∈ b.js → b.attrsIter j = .ok M ∧ M.length = b.dimH j ∧ ∀ s0, (j, s0) ∈ startLoop b.dimH 0 b.js → ∀ e < b.dimH j,
      ∃ a, M[e]? = some a ∧ b.attrsJ j e = .ok a ∧ a.idx = s0 + e ∧ a.j = j := by
    intro j
    by_cases h : j ∈ b.js
    · obtain ⟨M, hM⟩ := hA j h
      exact ⟨M, fun _ => hM⟩
    · exact ⟨[], fun h' => absurd h' h⟩
  choose M hM using hex
  refine ⟨b.js.flatMap M, ?_, ?_, fun idx hidx => ?_⟩
  · rw [iter, mapE_map (g := M) fun j hj => (hM j hj).1]
    simp only [bind, Except.bind]
    rw [List.flatMap_def]
  · rw [flatMap_length b.js fun j hj => (hM j hj).2.1, hd]
  · obtain ⟨j, e, hloc, hj, he, s0, hs0, hsum⟩ := locate_spec b.dimH b.js 0 idx (hd ▸ hidx)
    obtain ⟨a, h1, h2, h3, h4⟩ := (hM j hj).2.2 s0 hs0 e he
    refine ⟨j, e, a, hloc, ?_, ?_, ?_, h4, h2⟩
    · rw [getItem, if_neg (not_not.2 hidx)]
      cases hjs : b.js with
      | nil => rw [hjs] at hj; simp at hj
      | cons j0 L =>
        simp only
        rw [← hjs, getLoop_eq b.dimH b.js j0 idx _ hloc]
        exact h2
    · rw [flatMap_locate b.js (fun j hj => (hM j hj).2.1) _ _ _ hloc]; exact h1
    · rw [h3, hsum, zero_add]

end IBasis

namespace WE

/-- The object built by the constructor. -/
theorem init_inv {K : KGroup G J} {F : FBasis J P A} {m n : J} {b : IBasis J J A} (h : init K F m n = .ok b) :
    let js := (K.tensor m n).filter fun e => 0 < F.mult e.1
    let dims := js.map fun e => (e.1, F.mult e.1 * e.2 * (K.typ e.1).sumsq)
    let dimH := fun j => (FType.lookupLast dims j).getD 0
    let jJl := fun j => (FType.lookupLast js j).getD 0
    let sel := IBasis.selectJs (js.map Prod.fst) [] F.js
    let start := IBasis.startLoop dimH 0 sel
    (∀ j ∈ sel, jJl j = (K.cg n m j).mult) ∧
    b = ⟨(dims.map Prod.snd).sum, K.T.size n, K.T.size m, sel, dimH, fun j => block K n m j (K.cg n m j).mult (F.mult j),
        attrsJ F start dimH jJl, attrsIter K F start dimH jJl⟩ := by
  rw [init] at h
  simp only at h
  split_ifs at h with h1 h2
  refine ⟨fun j hj => ?_, (Except.ok.inj h).symm⟩
  simpa using List.all_eq_true.1 h2 j hj

theorem attrsLoop_get (j : J) (L : List A) (S K e : ℕ) (he : e < K * (S * L.length)) :
    (attrsLoop j L S K)[e]? = (L[e % L.length]?).map fun a idx => ⟨idx, j, none, e % L.length, 0, e / L.length % S, e / (L.length * S), a⟩ := by
  have hz : ∀ k s, (L.zipIdx.map fun e (idx : ℕ) => (⟨idx, j, none, e.2, 0, s, k, e.1⟩ : IAttr J J A)).length = L.length := fun k s => by simp
  rw [attrsLoop, flatMap_range_get (m := S * L.length) (fun k _ => flatMap_range_length fun s _ => hz k s) he,
    flatMap_range_get (m := L.length) (fun s _ => hz _ s) (Nat.mod_lt _ (by
      rcases Nat.eq_zero_or_pos (S * L.length) with h | h
      · rw [h, mul_zero] at he; omega
      · exact h)), Nat.mod_mul_left_mod, Nat.mod_mul_left_div_self, List.getElem?_map, List.getElem?_zipIdx, mul_comm S]
  cases L[e % L.length]? <;> simp

theorem attrsLoop_length (j : J) (L : List A) (S K : ℕ) : (attrsLoop j L S K).length = K * (S * L.length) := by
  rw [attrsLoop]
  exact flatMap_range_length fun k _ => flatMap_range_length fun s _ => by simp

/-- The attributes of the elements, with what `SteerableKernelBasis` needs of the methods. -/
theorem attr_full (K : KGroup G J) (F : FBasis J P A) (m n : J) (hnd : ((K.tensor m n).map Prod.fst).Nodup)
    (hE : ∀ p ∈ K.tensor m n, (K.typ p.1).sizeOk (K.T.size p.1)) (hF : (F.js.map Prod.fst).Nodup) (hA : F.AttrsAgree)
    (b : IBasis J J A) (hb : init K F m n = .ok b) :
    (b.AttrOk ∧ (∀ j, b.dimH j = 0 → b.attrsIter j = .ok []) ∧ b.js.Nodup ∧ b.dim = (b.js.map b.dimH).sum) ∧
    ∃ L, b.iter = .ok L ∧ L.length = b.dim ∧
      (∀ idx, b.dim ≤ idx → b.getItem idx = .error .assertion) ∧
      (∀ idx < b.dim, ∃ a, b.getItem idx = .ok a ∧ L[idx]? = some a ∧ a.idx = idx ∧
        ∃ kf mf, F.js[kf]? = some (a.j, mf) ∧ a.i < mf ∧ a.s < (K.cg n m a.j).mult ∧ F.attrsJ a.j a.i = .ok a.harm ∧
        ∃ E, (K.endo a.j)[a.k]? = some E ∧ ∀ x, ∃ k, b.sample K.T.size F x idx = .ok k ∧ k.rows = K.T.size n ∧ k.cols = K.T.size m ∧
          ∀ p q, k.get p q = ∑ o ∈ Finset.range (K.T.size a.j), (∑ i ∈ Finset.range (K.T.size a.j), (K.cg n m a.j).get p q a.s i * E.get o i) *
            F.sample x (((F.js.take kf).map fun e => K.T.size e.1 * e.2).sum + (a.i * K.T.size a.j + o))) ∧
      ∀ (idx idx' : ℕ) (a a' : IAttr J J A), L[idx]? = some a → L[idx']? = some a' → a.j = a'.j → a.i = a'.i → a.s = a'.s → a.k = a'.k → idx = idx' := by
  have hmultF : ∀ j, 0 < F.mult j → j ∈ F.js.map Prod.fst := fun j hj => List.mem_map.2 ⟨_, FBasis.mem_of_mult hj, rfl⟩
  obtain ⟨hmul, hbeq⟩ := init_inv hb
  set js := (K.tensor m n).filter fun e => 0 < F.mult e.1 with hjs
  set dims := js.map fun e => (e.1, F.mult e.1 * e.2 * (K.typ e.1).sumsq) with hdims
  set dimH := fun j => (FType.lookupLast dims j).getD 0 with hdimHdef
  set jJl := fun j => (FType.lookupLast js j).getD 0 with hjJldef
  set sel := IBasis.selectJs (js.map Prod.fst) [] F.js with hseldef
  set start := IBasis.startLoop dimH 0 sel with hstart
  have hjsnd : (js.map Prod.fst).Nodup := hnd.sublist (List.filter_sublist.map _)
  have hsel : sel = (F.js.map Prod.fst).filter (· ∈ js.map Prod.fst) := by
    rw [hseldef, IBasis.selectJs_eq _ _ _ hF (by simp), List.nil_append]
  have hselnd : sel.Nodup := by rw [hsel]; exact hF.filter _
  have hmem : ∀ j ∈ sel, (j, jJl j) ∈ K.tensor m n ∧ 0 < F.mult j ∧ dimH j = F.mult j * jJl j * (K.typ j).sumsq := by
    intro j hj
    rw [hsel, List.mem_filter, decide_eq_true_eq] at hj
    obtain ⟨e, he, rfl⟩ := List.mem_map.1 hj.2
    have h1 : jJl e.1 = e.2 := by
      show (FType.lookupLast js e.1).getD 0 = e.2
      rw [(lookupLast_of_nodup hjsnd).2 he]; rfl
    have hd1 : dims.map Prod.fst = js.map Prod.fst := by rw [hdims, List.map_map]; rfl
    have h2 : dimH e.1 = F.mult e.1 * e.2 * (K.typ e.1).sumsq := by
      show (FType.lookupLast dims e.1).getD 0 = _
      have h3 : FType.lookupLast dims e.1 = some (F.mult e.1 * e.2 * (K.typ e.1).sumsq) :=
        (lookupLast_of_nodup (by rw [hd1]; exact hjsnd)).2 (List.mem_map.2 ⟨e, he, rfl⟩)
      rw [h3]; rfl
    rw [h1, h2]
    exact ⟨(List.mem_filter.1 he).1, by simpa using (List.mem_filter.1 he).2, rfl⟩
  have hdim : b.dim = (b.js.map b.dimH).sum := by
    rw [hbeq]
    exact (sum_dims (w := fun j => (K.typ j).sumsq) hnd hF hmultF).symm
  have hjsb : b.js = sel := by rw [hbeq]
  have hdHb : b.dimH = dimH := by rw [hbeq]
  have hstk : (start.map Prod.fst).Nodup := by rw [hstart, IBasis.startLoop_keys]; exact hselnd
  have hlist : ∀ j ∈ sel, ∃ L, F.attrsIter j = .ok L ∧ L.length = F.mult j ∧ ∀ (i : ℕ) (h : i < L.length), F.attrsJ j i = .ok L[i] := by
    intro j hj
    obtain ⟨L, h1, h2, h3⟩ := hA _ (FBasis.mem_of_mult (hmem j hj).2.1)
    exact ⟨L, h1, h2, h3⟩
  have haJ : ∀ j ∈ sel, ∀ s0, (j, s0) ∈ start → ∀ e < dimH j, ∃ a, F.attrsJ j (e % F.mult j) = .ok a ∧
      attrsJ F start dimH jJl j e = .ok ⟨s0 + e, j, none, e % F.mult j, 0, e / F.mult j % jJl j, e / (F.mult j * jJl j), a⟩ := by
    intro j hj s0 hs0 e he
    obtain ⟨L, h1, h2, h3⟩ := hlist j hj
    have hlt : e % F.mult j < L.length := by rw [h2]; exact Nat.mod_lt _ (hmem j hj).2.1
    refine ⟨_, h3 _ hlt, ?_⟩
    rw [attrsJ, if_neg (not_not.2 he), dictGet_ok.2 ((lookupLast_of_nodup hstk).2 hs0)]
    simp only [bind, Except.bind]
    rw [h3 _ hlt]
  have hAttr : b.AttrOk := by
    intro j hj
    rw [hjsb] at hj
    obtain ⟨hT, hpos, hdj⟩ := hmem j hj
    obtain ⟨L, h1, h2, h3⟩ := hlist j hj
    obtain ⟨s0, hs0⟩ : ∃ s0, (j, s0) ∈ start := by
      have : j ∈ start.map Prod.fst := by rw [hstart, IBasis.startLoop_keys]; exact hj
      obtain ⟨e, he, rfl⟩ := List.mem_map.1 this
      exact ⟨e.2, he⟩
    have hs0get : dictGet start j = .ok s0 := dictGet_ok.2 ((lookupLast_of_nodup hstk).2 hs0)
    have haI : ∃ M, attrsIter K F start dimH jJl j = .ok M ∧ M = (attrsLoop j L (jJl j) (K.typ j).sumsq).zipIdx.map fun e => e.1 (s0 + e.2) := by
      by_cases h0 : dimH j = 0
      · refine ⟨[], by rw [attrsIter, if_pos h0], ?_⟩
        have : attrsLoop j L (jJl j) (K.typ j).sumsq = [] := by
          refine List.eq_nil_of_length_eq_zero ?_
          rw [attrsLoop_length, h2, ← h0, hdj]; ring
        rw [this]; rfl
      · refine ⟨_, ?_, rfl⟩
        rw [attrsIter, if_neg h0, hs0get]
        simp only [bind, Except.bind]
        rw [h1]
    obtain ⟨M, hM, hMeq⟩ := haI
    rw [hdHb]
    refine ⟨M, by rw [hbeq]; exact hM, ?_, fun s0' hs0' e he => ?_⟩
    · rw [hMeq, List.length_map, List.length_zipIdx, attrsLoop_length, h2, hdj]; ring
    · rw [hjsb] at hs0'
      have : s0' = s0 := by
        have := (lookupLast_of_nodup hstk).2 hs0'
        rw [(lookupLast_of_nodup hstk).2 hs0] at this
        exact (Option.some.inj this).symm
      subst this
      obtain ⟨a, ha1, ha2⟩ := haJ j hj s0' hs0 e he
      refine ⟨_, ?_, by rw [hbeq]; exact ha2, rfl, rfl⟩
      have hlt : e % F.mult j < L.length := by rw [h2]; exact Nat.mod_lt _ hpos
      have ha : L[e % F.mult j] = a := by
        have := h3 _ hlt
        rw [ha1] at this
        exact (Except.ok.inj this).symm
      rw [hMeq, List.getElem?_map, List.getElem?_zipIdx, attrsLoop_get j L _ _ e (by rw [h2]; rw [hdj] at he; calc e < _ := he
        _ = _ := by ring), h2, List.getElem?_eq_getElem hlt, ha]
      simp
  obtain ⟨L, hL, hlen, hget⟩ := IBasis.attr_spec hdim hAttr
  have key : ∀ idx < b.dim, ∃ j e s0 a, IBasis.locate dimH sel idx = some (j, e) ∧ j ∈ sel ∧ e < dimH j ∧ (j, s0) ∈ start ∧ s0 + e = idx ∧ b.getItem idx = .ok a ∧
      L[idx]? = some a ∧ a.idx = idx ∧ a.j = j ∧ a.i = e % F.mult j ∧ a.s = e / F.mult j % jJl j ∧ a.k = e / (F.mult j * jJl j) ∧ F.attrsJ j (e % F.mult j) = .ok a.harm := by
    intro idx hidx
    obtain ⟨j, e, a, h1, h2, h3, h4, h5, h6⟩ := hget idx hidx
    rw [hdHb, hjsb] at h1
    obtain ⟨j', e', h1', hj, he, s0, hs0, hsum⟩ := IBasis.locate_spec dimH sel 0 idx (by rw [hdim, hdHb, hjsb] at hidx; exact hidx)
    obtain ⟨rfl, rfl⟩ := Prod.mk.inj (Option.some.inj (h1.symm.trans h1'))
    obtain ⟨x, hx1, hx2⟩ := haJ j hj s0 hs0 e he
    have h6' : attrsJ F start dimH jJl j e = .ok a := by rw [hbeq] at h6; exact h6
    rw [hx2] at h6'
    obtain rfl := Except.ok.inj h6'
    exact ⟨j, e, s0, _, h1, hj, he, hs0, by omega, h2, h3, h4, rfl, rfl, rfl, rfl, hx1⟩
  refine ⟨⟨hAttr, fun j hj => by rw [hbeq] at hj ⊢; exact if_pos hj, by rw [hjsb]; exact hselnd, hdim⟩, L, hL, hlen, fun idx h => ?_, fun idx hidx => ?_, fun idx idx' a a' ha ha' hj hi hs hk => ?_⟩
  · rw [IBasis.getItem, if_pos (by omega)]
  · obtain ⟨j, e, s0, a, hloc, hj, he, hs0, -, h2, h3, h4, rfl, h6, h7, h8, h9⟩ := key idx hidx
    obtain ⟨hT, hpos, hdj⟩ := hmem a.j hj
    obtain ⟨kf, hkf⟩ := List.mem_iff_getElem?.1 (FBasis.mem_of_mult hpos)
    have hSpos : 0 < jJl a.j := by
      rcases Nat.eq_zero_or_pos (jJl a.j) with h | h
      · rw [hdj, h, mul_zero, zero_mul] at he; omega
      · exact h
    have hS : jJl a.j = (K.cg n m a.j).mult := hmul a.j hj
    have hlenE : (K.endo a.j).length = (K.typ a.j).sumsq := (C18_endo_orthogonal (K.typ a.j) (K.T.size a.j) (hE _ hT)).1
    have hkE : a.k < (K.endo a.j).length := by
      rw [h8, hlenE]
      exact Nat.div_lt_of_lt_mul (by rw [hdj] at he; exact he)
    refine ⟨a, h2, h3, h4, kf, F.mult a.j, hkf, by rw [h6]; exact Nat.mod_lt _ hpos, by rw [← hS, h7]; exact Nat.mod_lt _ hSpos, by rw [h6]; exact h9,
      _, List.getElem?_eq_getElem hkE, fun x => ?_⟩
    have hsl := IBasis.sampleLoop_eq b (F.asDict K.T.size x) (fun j => (dictGet (F.asDict K.T.size x) j).toOption.getD fun _ _ => 0) b.js (fun j hj => by
      rw [hjsb] at hj
      obtain ⟨k, hk⟩ := List.mem_iff_getElem?.1 (FBasis.mem_of_mult (hmem j hj).2.1)
      rw [FBasis.asDict_get K.T.size hF hk]; rfl) idx a.j e (by rw [hdHb, hjsb]; exact hloc)
    refine ⟨_, by rw [IBasis.sample, hsl]; rfl, by rw [hbeq], by rw [hbeq], fun p q => ?_⟩
    rw [FBasis.asDict_get K.T.size hF hkf x]
    have hblk : b.block = fun j => block K n m j (K.cg n m j).mult (F.mult j) := by rw [hbeq]
    rw [hblk]
    show block K n m a.j (K.cg n m a.j).mult (F.mult a.j) _ e p q = _
    simp only [block, ← hS]
    rw [Nat.div_div_eq_div_mul, ← h8, ← h7, ← h6, List.getD_eq_getElem _ _ hkE]
    rfl
  · have hlt : idx < b.dim := by rw [← hlen]; exact (List.getElem?_eq_some_iff.1 ha).1
    have hlt' : idx' < b.dim := by rw [← hlen]; exact (List.getElem?_eq_some_iff.1 ha').1
    obtain ⟨j, e, s0, x, -, hjm, he, hs0, hsum, -, hx, -, rfl, h6, h7, h8, -⟩ := key idx hlt
    obtain ⟨j', e', s0', x', -, -, -, hs0', hsum', -, hx', -, rfl, h6', h7', h8', -⟩ := key idx' hlt'
    obtain rfl := Option.some.inj (hx.symm.trans ha)
    obtain rfl := Option.some.inj (hx'.symm.trans ha')
    rw [← hj] at h6' h7' h8' hs0'
    have hee : e = e' := by
      have d1 := Nat.div_add_mod e (F.mult x.j)
      have d2 := Nat.div_add_mod e' (F.mult x.j)
      have d3 := Nat.div_add_mod (e / F.mult x.j) (jJl x.j)
      have d4 := Nat.div_add_mod (e' / F.mult x.j) (jJl x.j)
      rw [← Nat.div_div_eq_div_mul] at h8 h8'
      rw [← h7, ← h8] at d3
      rw [← h7', ← h8', ← hs, ← hk] at d4
      rw [← d1, ← d2, ← d3, ← d4, ← h6, ← h6', hi]
    have hss : s0 = s0' := by
      have := (lookupLast_of_nodup hstk).2 hs0'
      rw [(lookupLast_of_nodup hstk).2 hs0] at this
      exact Option.some.inj this
    omega

/-- **C37** for `WignerEckartBasis`: `basis[idx]` is the `idx`-th item of `iter(basis)`, has `idx` as its index, and its attributes `j`, `i`,
`s`, `k` describe the `idx`-th sampled kernel; two elements differ in one of these attributes. -/
theorem C37_wigner_eckart (K : KGroup G J) (F : FBasis J P A) (m n : J) (hnd : ((K.tensor m n).map Prod.fst).Nodup)
    (hE : ∀ p ∈ K.tensor m n, (K.typ p.1).sizeOk (K.T.size p.1)) (hF : (F.js.map Prod.fst).Nodup) (hA : F.AttrsAgree)
    (b : IBasis J J A) (hb : init K F m n = .ok b) :
    ∃ L, b.iter = .ok L ∧ L.length = b.dim ∧
      (∀ idx, b.dim ≤ idx → b.getItem idx = .error .assertion) ∧
      (∀ idx < b.dim, ∃ a, b.getItem idx = .ok a ∧ L[idx]? = some a ∧ a.idx = idx ∧
        ∃ kf mf, F.js[kf]? = some (a.j, mf) ∧ a.i < mf ∧ a.s < (K.cg n m a.j).mult ∧ F.attrsJ a.j a.i = .ok a.harm ∧
        ∃ E, (K.endo a.j)[a.k]? = some E ∧ ∀ x, ∃ k, b.sample K.T.size F x idx = .ok k ∧ k.rows = K.T.size n ∧ k.cols = K.T.size m ∧
          ∀ p q, k.get p q = ∑ o ∈ Finset.range (K.T.size a.j), (∑ i ∈ Finset.range (K.T.size a.j), (K.cg n m a.j).get p q a.s i * E.get o i) *
            F.sample x (((F.js.take kf).map fun e => K.T.size e.1 * e.2).sum + (a.i * K.T.size a.j + o))) ∧
      ∀ (idx idx' : ℕ) (a a' : IAttr J J A), L[idx]? = some a → L[idx']? = some a' → a.j = a'.j → a.i = a'.i → a.s = a'.s → a.k = a'.k → idx = idx' :=
  (attr_full K F m n hnd hE hF hA b hb).2

end WE

end Escnn
