import Verif.Props.C37_Attributes

/-!
# C37: attributes of `RestrictedWignerEckartBasis`
-/

namespace Escnn

open NpMat

variable {H J J' P A : Type} [DecidableEq J] [DecidableEq J']

namespace RWE

theorem idPos_get (size : J' → ℕ) (j : J') : ∀ (L : List J') (p t : ℕ), t < L.count j →
    ∃ k, L[k]? = some j ∧ (L.take k).count j = t ∧ (idPos size j p L)[t]? = some (p + chanOffset size L k)
  | [], _, t, h => by simp at h
  | i :: L, p, t, h => by
    rw [idPos]
    by_cases hi : i = j
    · rw [if_pos hi]
      cases t with
      | zero => exact ⟨0, by simp [hi], by simp, by simp [chanOffset]⟩
      | succ t =>
        obtain ⟨k, h1, h2, h3⟩ := idPos_get size j L (p + size i) t (by rw [List.count_cons, if_pos (by simpa using hi)] at h; omega)
        exact ⟨k + 1, by simpa using h1, by rw [List.take_succ_cons, List.count_cons, if_pos (by simpa using hi), h2], by
          rw [List.getElem?_cons_succ, h3]; simp [chanOffset, add_assoc]⟩
    · rw [if_neg hi]
      obtain ⟨k, h1, h2, h3⟩ := idPos_get size j L (p + size i) t (by rw [List.count_cons, if_neg (by simpa using hi)] at h; omega)
      exact ⟨k + 1, by simpa using h1, by rw [List.take_succ_cons, List.count_cons, if_neg (by simpa using hi), h2, add_zero], by
        rw [h3]; simp [chanOffset, add_assoc]⟩

theorem attrsFind_eq (K : KGroup H J') (n m : J') (dim : ℕ) : ∀ (L : List (J' × List ℕ)) (e0 : J' × List ℕ) (idx : ℕ) (r : (J' × List ℕ) × ℕ),
    IBasis.locate (fun e => e.2.length * (K.cg n m e.1).mult * (K.typ e.1).sumsq * dim) L idx = some r → attrsFind K n m dim e0 idx L = r
  | [], _, _, _, h => by simp [IBasis.locate] at h
  | e :: L, e0, idx, r, h => by
    rw [IBasis.locate] at h
    rw [attrsFind]
    by_cases hlt : idx < e.2.length * (K.cg n m e.1).mult * (K.typ e.1).sumsq * dim
    · rw [if_pos hlt] at h
      rw [if_neg (by omega)]
      exact Option.some.inj h
    · rw [if_neg hlt] at h
      rw [if_pos (by omega)]
      exact attrsFind_eq K n m dim L e _ r h

theorem coeffs_locate (K : KGroup H J') (n m : J') (inv : NpMat ℝ) : ∀ (L : List (J' × List ℕ)) (d : ℕ) (e : J' × List ℕ) (d' : ℕ),
    IBasis.locate (count K n m) L d = some (e, d') → coeffs K n m inv L d =
      coeff (K.T.size e.1) (K.cg n m e.1) ((K.endo e.1).getD (d' / e.2.length / (K.cg n m e.1).mult) (zeros 0 0)) inv
        (e.2.getD (d' % e.2.length) 0) (d' / e.2.length % (K.cg n m e.1).mult)
  | [], _, _, _, h => by simp [IBasis.locate] at h
  | f :: L, d, e, d', h => by
    rw [IBasis.locate] at h
    rw [coeffs]
    by_cases hd : d < count K n m f
    · rw [if_pos hd] at h ⊢
      obtain ⟨rfl, rfl⟩ := Prod.mk.inj (Option.some.inj h)
      rfl
    · rw [if_neg hd] at h ⊢
      exact coeffs_locate K n m inv L _ e d' h

/-- The items of one pair (harmonic, irrep). -/
theorem attrsBlock_get (j : J) (L : List A) (sub : J') (K S T e : ℕ) (he : e < K * (S * (T * L.length))) :
    ((List.range K).flatMap fun k => (List.range S).flatMap fun s => (List.range T).flatMap fun t =>
      L.zipIdx.map fun a (idx : ℕ) => (⟨idx, j, some sub, a.2, t, s, k, a.1⟩ : IAttr J J' A))[e]? =
    (L[e % L.length]?).map fun a idx => ⟨idx, j, some sub, e % L.length, e / L.length % T, e / (L.length * T) % S, e / (L.length * T * S), a⟩ := by
  have hz : ∀ k s t, (L.zipIdx.map fun e (idx : ℕ) => (⟨idx, j, some sub, e.2, t, s, k, e.1⟩ : IAttr J J' A)).length = L.length := fun k s t => by simp
  have hT : ∀ k s, ((List.range T).flatMap fun t => L.zipIdx.map fun e (idx : ℕ) => (⟨idx, j, some sub, e.2, t, s, k, e.1⟩ : IAttr J J' A)).length = T * L.length :=
    fun k s => flatMap_range_length fun t _ => hz k s t
  have hp : 0 < S * (T * L.length) := by
    rcases Nat.eq_zero_or_pos (S * (T * L.length)) with h | h
    · rw [h, mul_zero] at he; omega
    · exact h
  have hp2 : 0 < T * L.length := by
    rcases Nat.eq_zero_or_pos (T * L.length) with h | h
    · rw [h, mul_zero] at hp; omega
    · exact h
  rw [flatMap_range_get (m := S * (T * L.length)) (fun k _ => flatMap_range_length fun s _ => hT k s) he,
    flatMap_range_get (m := T * L.length) (fun s _ => hT _ s) (Nat.mod_lt _ hp), Nat.mod_mul_left_mod, Nat.mod_mul_left_div_self,
    flatMap_range_get (m := L.length) (fun t _ => hz _ _ t) (Nat.mod_lt _ hp2), Nat.mod_mul_left_mod, Nat.mod_mul_left_div_self,
    List.getElem?_map, List.getElem?_zipIdx]
  rw [mul_comm T L.length, mul_comm S (L.length * T)]
  cases L[e % L.length]? <;> simp

theorem attrsBlock_length (j : J) (L : List A) (sub : J') (K S T : ℕ) :
    ((List.range K).flatMap fun k => (List.range S).flatMap fun s => (List.range T).flatMap fun t =>
      L.zipIdx.map fun a (idx : ℕ) => (⟨idx, j, some sub, a.2, t, s, k, a.1⟩ : IAttr J J' A)).length = K * (S * (T * L.length)) :=
  flatMap_range_length fun k _ => flatMap_range_length fun s _ => flatMap_range_length fun t _ => by simp

/-- The object built by the constructor. -/
theorem init_inv {K : KGroup H J'} {F : FBasis J P A} {Gsize : J → ℕ} {res : J → Rep H J'} {m n : J'} {b : IBasis J J' A} (h : init K F Gsize res m n = .ok b) :
    let jsG := (K.tensor m n).map Prod.fst
    let R := fun j => if F.mult j = 0 then [] else restriction K.T.size jsG (res j)
    let js := (F.js.map Prod.fst).dedup.filter fun j => 0 < (R j).length
    let cnt := fun j => ((R j).map (count K n m)).sum
    let dim := (js.map fun j => cnt j * F.mult j).sum
    let dimH := fun j => if j ∈ js then F.mult j * cnt j else 0
    let sel := IBasis.selectJs js [] F.js
    let start := IBasis.startLoop dimH 0 sel
    b = ⟨dim, K.T.size n, K.T.size m, sel, dimH, fun j => block (Gsize j) (coeffs K n m (res j).cobInv (R j)) (F.mult j),
      attrsJ K F n m start dimH R, attrsIter K F n m start dim dimH R⟩ := by
  rw [init] at h
  simp only at h
  split_ifs at h with h1
  exact (Except.ok.inj h).symm

/-- The attributes of the elements, with what `SteerableKernelBasis` needs of the methods. -/
theorem attr_full (K : KGroup H J') (F : FBasis J P A) (Gsize : J → ℕ) (res : J → Rep H J') (m n : J') (hnd : ((K.tensor m n).map Prod.fst).Nodup)
    (hE : ∀ p ∈ K.tensor m n, (K.typ p.1).sizeOk (K.T.size p.1)) (hF : (F.js.map Prod.fst).Nodup) (hA : F.AttrsAgree)
    (b : IBasis J J' A) (hb : init K F Gsize res m n = .ok b) :
    (b.AttrOk ∧ (∀ j, b.dimH j = 0 → b.attrsIter j = .ok []) ∧ b.js.Nodup ∧ b.dim = (b.js.map b.dimH).sum) ∧
    ∃ L, b.iter = .ok L ∧ L.length = b.dim ∧
      (∀ idx, b.dim ≤ idx → b.getItem idx = .error .assertion) ∧
      (∀ idx < b.dim, ∃ a, b.getItem idx = .ok a ∧ L[idx]? = some a ∧ a.idx = idx ∧
        ∃ kf mf, F.js[kf]? = some (a.j, mf) ∧ a.i < mf ∧ F.attrsJ a.j a.i = .ok a.harm ∧
        ∃ sub, a.sub = some sub ∧ a.s < (K.cg n m sub).mult ∧
        ∃ c, (res a.j).irreps[c]? = some sub ∧ ((res a.j).irreps.take c).count sub = a.t ∧
        ∃ E, (K.endo sub)[a.k]? = some E ∧ ∀ x, ∃ k, b.sample Gsize F x idx = .ok k ∧ k.rows = K.T.size n ∧ k.cols = K.T.size m ∧
          ∀ p q, k.get p q = ∑ y ∈ Finset.range (Gsize a.j), (∑ i ∈ Finset.range (K.T.size sub), ∑ o ∈ Finset.range (K.T.size sub),
              (K.cg n m sub).get p q a.s i * E.get o i * (res a.j).cobInv.get (chanOffset K.T.size (res a.j).irreps c + o) y) *
            F.sample x (((F.js.take kf).map fun e => Gsize e.1 * e.2).sum + (a.i * Gsize a.j + y))) ∧
      ∀ (idx idx' : ℕ) (a a' : IAttr J J' A), L[idx]? = some a → L[idx']? = some a' → a.j = a'.j → a.sub = a'.sub → a.i = a'.i → a.t = a'.t → a.s = a'.s →
        a.k = a'.k → idx = idx' := by
  set R := fun j => if F.mult j = 0 then [] else restriction K.T.size ((K.tensor m n).map Prod.fst) (res j) with hR
  set js := (F.js.map Prod.fst).dedup.filter fun j => 0 < (R j).length with hjs
  set cnt := fun j => ((R j).map (count K n m)).sum with hcnt
  set dimH := fun j => if j ∈ js then F.mult j * cnt j else 0 with hdimHdef
  have hjs' : js = (F.js.map Prod.fst).filter fun j => 0 < (R j).length := by rw [hjs, hF.dedup]
  have hsel : IBasis.selectJs js [] F.js = js := by
    rw [IBasis.selectJs_eq _ _ _ hF (by simp), List.nil_append, hjs']
    refine List.filter_congr fun j hj => ?_
    rw [Bool.eq_iff_iff, decide_eq_true_eq, List.mem_filter]
    exact ⟨fun h => h.2, fun h => ⟨hj, h⟩⟩
  have hbeq : b = ⟨(js.map fun j => cnt j * F.mult j).sum, K.T.size n, K.T.size m, IBasis.selectJs js [] F.js, dimH,
      fun j => block (Gsize j) (coeffs K n m (res j).cobInv (R j)) (F.mult j),
      attrsJ K F n m (IBasis.startLoop dimH 0 (IBasis.selectJs js [] F.js)) dimH R,
      attrsIter K F n m (IBasis.startLoop dimH 0 (IBasis.selectJs js [] F.js)) (js.map fun j => cnt j * F.mult j).sum dimH R⟩ := init_inv hb
  rw [hsel] at hbeq
  set start := IBasis.startLoop dimH 0 js with hstart
  have hselnd : js.Nodup := by rw [hjs']; exact hF.filter _
  have hmem : ∀ j ∈ js, 0 < F.mult j ∧ R j = restriction K.T.size ((K.tensor m n).map Prod.fst) (res j) ∧ R j ≠ [] ∧ dimH j = cnt j * F.mult j := by
    intro j hj
    have hj2 := hj
    rw [hjs', List.mem_filter, decide_eq_true_eq] at hj
    have hne : F.mult j ≠ 0 := by
      intro h
      have hRj : R j = [] := by rw [hR]; exact if_pos h
      rw [hRj] at hj
      exact absurd hj.2 (lt_irrefl 0)
    refine ⟨Nat.pos_of_ne_zero hne, by rw [hR]; exact if_neg hne, fun h => ?_, ?_⟩
    · rw [h] at hj; exact absurd hj.2 (lt_irrefl 0)
    · show (if j ∈ js then F.mult j * cnt j else 0) = _
      rw [if_pos hj2, mul_comm]
  have hRmem : ∀ j ∈ js, ∀ e ∈ R j, ∃ p ∈ K.tensor m n, e = (p.1, idPos K.T.size p.1 0 (res j).irreps) ∧ 0 < e.2.length := by
    intro j hj e he
    rw [(hmem j hj).2.1, restriction, List.mem_filter] at he
    obtain ⟨q, hq, rfl⟩ := List.mem_map.1 he.1
    obtain ⟨p, hp, rfl⟩ := List.mem_map.1 hq
    exact ⟨p, hp, rfl, by simpa using he.2⟩
  have hRnd : ∀ j ∈ js, ((R j).map Prod.fst).Nodup := by
    intro j hj
    rw [(hmem j hj).2.1, restriction]
    refine List.Nodup.sublist (List.filter_sublist.map _) ?_
    rw [List.map_map]
    simpa [Function.comp_def] using hnd
  have hlenE : ∀ j ∈ js, ∀ e ∈ R j, (K.endo e.1).length = (K.typ e.1).sumsq := by
    intro j hj e he
    obtain ⟨p, hp, rfl, -⟩ := hRmem j hj e he
    exact (C18_endo_orthogonal (K.typ p.1) (K.T.size p.1) (hE _ hp)).1
  have hcongr : ∀ (w w' : J' × List ℕ → ℕ) (L : List (J' × List ℕ)), (∀ e ∈ L, w e = w' e) → ∀ d, IBasis.locate w L d = IBasis.locate w' L d := by
    intro w w' L
    induction L with
    | nil => intro _ d; rfl
    | cons a L ih =>
      intro h d
      rw [IBasis.locate, IBasis.locate, h a (by simp), ih (fun e he => h e (by simp [he]))]
  have hdim : b.dim = (b.js.map b.dimH).sum := by
    rw [hbeq]
    refine congrArg _ (List.map_congr_left fun j hj => ?_)
    exact (hmem j hj).2.2.2.symm
  have hjsb : b.js = js := by rw [hbeq]
  have hdHb : b.dimH = dimH := by rw [hbeq]
  have hstk : (start.map Prod.fst).Nodup := by rw [hstart, IBasis.startLoop_keys]; exact hselnd
  have hlist : ∀ j ∈ js, ∃ L, F.attrsIter j = .ok L ∧ L.length = F.mult j ∧ ∀ (i : ℕ) (h : i < L.length), F.attrsJ j i = .ok L[i] := by
    intro j hj
    obtain ⟨L, h1, h2, h3⟩ := hA _ (FBasis.mem_of_mult (hmem j hj).1)
    exact ⟨L, h1, h2, h3⟩
  -- the position of an element inside its harmonic
  have hpos : ∀ j ∈ js, ∀ e < dimH j, ∃ f e', f ∈ R j ∧ IBasis.locate (fun f => count K n m f * F.mult j) (R j) e = some (f, e') ∧ e' < count K n m f * F.mult j ∧
      IBasis.locate (count K n m) (R j) (e / F.mult j) = some (f, e' / F.mult j) ∧ e' % F.mult j = e % F.mult j ∧
      IBasis.locate (fun e => e.2.length * (K.cg n m e.1).mult * (K.typ e.1).sumsq * F.mult j) (R j) e = some (f, e') := by
    intro j hj e he
    rw [(hmem j hj).2.2.2] at he
    have he' : e < ((R j).map fun f => count K n m f * F.mult j).sum := by
      rw [List.sum_map_mul_right]; exact he
    obtain ⟨f, e', hl⟩ := locate_some _ _ _ he'
    obtain ⟨h1, h2, -⟩ := locate_mem _ _ _ _ _ hl
    obtain ⟨h3, h4⟩ := locate_mul (count K n m) (F.mult j) (hmem j hj).1 _ _ _ _ hl
    refine ⟨f, e', h1, hl, h2, h3, h4, ?_⟩
    rw [← hl]
    refine hcongr _ _ _ (fun f hf => ?_) e
    rw [count, hlenE j hj f hf]; ring
  have haJ : ∀ j ∈ js, ∀ s0, (j, s0) ∈ start → ∀ e < dimH j, ∃ f e' a, f ∈ R j ∧ IBasis.locate (fun f => count K n m f * F.mult j) (R j) e = some (f, e') ∧
      e' < count K n m f * F.mult j ∧ F.attrsJ j (e' % F.mult j) = .ok a ∧
      IBasis.locate (count K n m) (R j) (e / F.mult j) = some (f, e' / F.mult j) ∧ e' % F.mult j = e % F.mult j ∧
      attrsJ K F n m start dimH R j e = .ok ⟨s0 + e, j, some f.1, e' % F.mult j, e' / F.mult j % f.2.length,
        e' / (F.mult j * f.2.length) % (K.cg n m f.1).mult, e' / (F.mult j * f.2.length * (K.cg n m f.1).mult), a⟩ := by
    intro j hj s0 hs0 e he
    obtain ⟨f, e', h1, h2, h3, h4, h5, h6⟩ := hpos j hj e he
    obtain ⟨L, g1, g2, g3⟩ := hlist j hj
    have hlt : e' % F.mult j < L.length := by rw [g2]; exact Nat.mod_lt _ (hmem j hj).1
    refine ⟨f, e', _, h1, h2, h3, g3 _ hlt, h4, h5, ?_⟩
    rw [attrsJ, if_neg (not_not.2 he), dictGet_ok.2 ((lookupLast_of_nodup hstk).2 hs0)]
    simp only [bind, Except.bind]
    cases hRj : R j with
    | nil => exact absurd hRj (hmem j hj).2.2.1
    | cons e0 L0 =>
      simp only
      rw [← hRj, attrsFind_eq K n m (F.mult j) (R j) e0 e _ h6, g3 _ hlt]
  have hw : ∀ j ∈ js, ∀ L : List A, L.length = F.mult j → ∀ f ∈ R j, ((List.range (K.typ f.1).sumsq).flatMap fun k => (List.range (K.cg n m f.1).mult).flatMap fun s =>
      (List.range f.2.length).flatMap fun t => L.zipIdx.map fun a (idx : ℕ) => (⟨idx, j, some f.1, a.2, t, s, k, a.1⟩ : IAttr J J' A)).length = count K n m f * F.mult j := by
    intro j hj L hL f hf
    rw [attrsBlock_length, count, hlenE j hj f hf, hL]; ring
  have hAttr : b.AttrOk := by
    intro j hj
    rw [hjsb] at hj
    obtain ⟨hmp, hRj, hRne, hdj⟩ := hmem j hj
    obtain ⟨L, h1, h2, h3⟩ := hlist j hj
    obtain ⟨s0, hs0⟩ : ∃ s0, (j, s0) ∈ start := by
      have : j ∈ start.map Prod.fst := by rw [hstart, IBasis.startLoop_keys]; exact hj
      obtain ⟨e, he, rfl⟩ := List.mem_map.1 this
      exact ⟨e.2, he⟩
    have hs0get : dictGet start j = .ok s0 := dictGet_ok.2 ((lookupLast_of_nodup hstk).2 hs0)
    have hXlen : (attrsLoop K n m j L (R j)).length = dimH j := by
      rw [attrsLoop, flatMap_length (w := fun f => count K n m f * F.mult j) (R j) (hw j hj L h2), hdj, List.sum_map_mul_right]
    have haI : ∃ M, attrsIter K F n m start (js.map fun j => cnt j * F.mult j).sum dimH R j = .ok M ∧ M = (attrsLoop K n m j L (R j)).zipIdx.map fun e => e.1 (s0 + e.2) := by
      by_cases h0 : dimH j = 0
      · refine ⟨[], by rw [attrsIter, if_pos h0], ?_⟩
        rw [List.eq_nil_of_length_eq_zero (hXlen.trans h0)]; rfl
      · refine ⟨_, ?_, rfl⟩
        rw [attrsIter, if_neg h0, hs0get]
        simp only [bind, Except.bind]
        rw [h1]
        simp only
        have hle : s0 + (attrsLoop K n m j L (R j)).length ≤ (js.map fun j => cnt j * F.mult j).sum := by
          rw [hXlen]
          obtain ⟨-, -, hlt⟩ := IBasis.locate_start dimH js 0 s0 (dimH j - 1) j hselnd hs0 (by omega)
          have : (js.map fun j => cnt j * F.mult j).sum = (js.map dimH).sum :=
            congrArg _ (List.map_congr_left fun j hj => (hmem j hj).2.2.2.symm)
          rw [this]
          omega
        rw [if_pos ⟨hXlen, hle⟩]
    obtain ⟨M, hM, hMeq⟩ := haI
    rw [hdHb]
    refine ⟨M, by rw [hbeq]; exact hM, ?_, fun s0' hs0' e he => ?_⟩
    · rw [hMeq, List.length_map, List.length_zipIdx, hXlen]
    · rw [hjsb] at hs0'
      have : s0' = s0 := by
        have := (lookupLast_of_nodup hstk).2 hs0'
        rw [(lookupLast_of_nodup hstk).2 hs0] at this
        exact (Option.some.inj this).symm
      subst this
      obtain ⟨f, e', a, hf, hl, hlt', ha1, -, -, ha2⟩ := haJ j hj s0' hs0 e he
      refine ⟨_, ?_, by rw [hbeq]; exact ha2, rfl, rfl⟩
      have hlt : e' % F.mult j < L.length := by rw [h2]; exact Nat.mod_lt _ hmp
      have ha : L[e' % F.mult j] = a := by
        have := h3 _ hlt
        rw [ha1] at this
        exact (Except.ok.inj this).symm
      rw [hMeq, List.getElem?_map, List.getElem?_zipIdx, attrsLoop, flatMap_locate (w := fun f => count K n m f * F.mult j) (R j) (hw j hj L h2) _ _ _ hl,
        attrsBlock_get j L f.1 _ _ _ e' (by
          rw [count, hlenE j hj f hf] at hlt'
          rw [h2]; calc e' < _ := hlt'
            _ = _ := by ring), h2, List.getElem?_eq_getElem hlt, ha]
      simp
  obtain ⟨L, hL, hlen, hget⟩ := IBasis.attr_spec hdim hAttr
  have key : ∀ idx < b.dim, ∃ j e s0 f e' a, IBasis.locate dimH js idx = some (j, e) ∧ j ∈ js ∧ e < dimH j ∧ (j, s0) ∈ start ∧ s0 + e = idx ∧ b.getItem idx = .ok a ∧
      L[idx]? = some a ∧ a.idx = idx ∧ a.j = j ∧ f ∈ R j ∧ IBasis.locate (fun f => count K n m f * F.mult j) (R j) e = some (f, e') ∧ e' < count K n m f * F.mult j ∧
      IBasis.locate (count K n m) (R j) (e / F.mult j) = some (f, e' / F.mult j) ∧ e' % F.mult j = e % F.mult j ∧
      a.sub = some f.1 ∧ a.i = e' % F.mult j ∧ a.t = e' / F.mult j % f.2.length ∧ a.s = e' / (F.mult j * f.2.length) % (K.cg n m f.1).mult ∧
      a.k = e' / (F.mult j * f.2.length * (K.cg n m f.1).mult) ∧ F.attrsJ j (e' % F.mult j) = .ok a.harm := by
    intro idx hidx
    obtain ⟨j, e, a, h1, h2, h3, h4, h5, h6⟩ := hget idx hidx
    rw [hdHb, hjsb] at h1
    obtain ⟨j', e1, h1', hj, he, s0, hs0, hsum⟩ := IBasis.locate_spec dimH js 0 idx (by rw [hdim, hdHb, hjsb] at hidx; exact hidx)
    obtain ⟨rfl, rfl⟩ := Prod.mk.inj (Option.some.inj (h1.symm.trans h1'))
    obtain ⟨f, e', x, hf, hl, hlt, hx1, hl2, hmod, hx2⟩ := haJ j hj s0 hs0 e he
    have h6' : attrsJ K F n m start dimH R j e = .ok a := by rw [hbeq] at h6; exact h6
    rw [hx2] at h6'
    obtain rfl := Except.ok.inj h6'
    exact ⟨j, e, s0, f, e', _, h1, hj, he, hs0, by omega, h2, h3, h4, rfl, hf, hl, hlt, hl2, hmod, rfl, rfl, rfl, rfl, rfl, hx1⟩
  refine ⟨⟨hAttr, fun j hj => by rw [hbeq] at hj ⊢; exact if_pos hj, by rw [hjsb]; exact hselnd, hdim⟩, L, hL, hlen, fun idx h => ?_, fun idx hidx => ?_, fun idx idx' a a' ha ha' hj hsub hi ht hs hk => ?_⟩
  · rw [IBasis.getItem, if_pos (by omega)]
  · obtain ⟨j, e, s0, f, e', a, hloc, hj, he, hs0, -, h2, h3, h4, rfl, hf, -, hlt, hl2, hmod, h5, h6, h7, h8, h9, h10⟩ := key idx hidx
    obtain ⟨hmp, hRj, hRne, hdj⟩ := hmem a.j hj
    obtain ⟨q, hq, hfe, hflen⟩ := hRmem a.j hj f hf
    obtain ⟨kf, hkf⟩ := List.mem_iff_getElem?.1 (FBasis.mem_of_mult hmp)
    have hEl := hlenE a.j hj f hf
    rw [count, hEl] at hlt
    have hSpos : 0 < (K.cg n m f.1).mult := by
      rcases Nat.eq_zero_or_pos (K.cg n m f.1).mult with h | h
      · rw [h, mul_zero, zero_mul, zero_mul] at hlt; omega
      · exact h
    have hkE : a.k < (K.endo f.1).length := by
      rw [h9, hEl]
      refine Nat.div_lt_of_lt_mul ?_
      calc e' < _ := hlt
        _ = _ := by ring
    have hcount : f.2.length = (res a.j).irreps.count f.1 := by rw [hfe]; exact idPos_length _ _ _ _
    obtain ⟨c, hc1, hc2, hc3⟩ := idPos_get K.T.size f.1 (res a.j).irreps 0 a.t (by rw [← hcount, h7]; exact Nat.mod_lt _ hflen)
    rw [zero_add] at hc3
    have hf2 : f.2 = idPos K.T.size f.1 0 (res a.j).irreps := by rw [hfe]
    rw [← hf2] at hc3
    refine ⟨a, h2, h3, h4, kf, F.mult a.j, hkf, by rw [h6]; exact Nat.mod_lt _ hmp, by rw [h6]; exact h10, f.1, h5, by rw [h8]; exact Nat.mod_lt _ hSpos, c, hc1, hc2,
      _, List.getElem?_eq_getElem hkE, fun x => ?_⟩
    have hsl := IBasis.sampleLoop_eq b (F.asDict Gsize x) (fun j => (dictGet (F.asDict Gsize x) j).toOption.getD fun _ _ => 0) b.js (fun j hj => by
      rw [hjsb] at hj
      obtain ⟨k, hk⟩ := List.mem_iff_getElem?.1 (FBasis.mem_of_mult (hmem j hj).1)
      rw [FBasis.asDict_get Gsize hF hk]; rfl) idx a.j e (by rw [hdHb, hjsb]; exact hloc)
    refine ⟨_, by rw [IBasis.sample, hsl]; rfl, by rw [hbeq], by rw [hbeq], fun p q' => ?_⟩
    rw [FBasis.asDict_get Gsize hF hkf x]
    have hblk : b.block = fun j => block (Gsize j) (coeffs K n m (res j).cobInv (R j)) (F.mult j) := by rw [hbeq]
    rw [hblk]
    show block (Gsize a.j) (coeffs K n m (res a.j).cobInv (R a.j)) (F.mult a.j) _ e p q' = _
    simp only [block]
    rw [← Nat.div_div_eq_div_mul] at h8
    rw [← Nat.div_div_eq_div_mul, ← Nat.div_div_eq_div_mul] at h9
    rw [coeffs_locate K n m _ _ _ _ _ hl2, ← h7, ← hmod, ← h6, ← h8, ← h9, List.getD_eq_getElem _ _ hkE,
      List.getD_eq_getElem?_getD, hc3]
    rfl
  · have hlt : idx < b.dim := by rw [← hlen]; exact (List.getElem?_eq_some_iff.1 ha).1
    have hlt' : idx' < b.dim := by rw [← hlen]; exact (List.getElem?_eq_some_iff.1 ha').1
    obtain ⟨j, e, s0, f, d, x, -, hjm, he, hs0, hsum, -, hx, -, rfl, hf, hl, -, -, -, h5, h6, h7, h8, h9, -⟩ := key idx hlt
    obtain ⟨j', e', s0', f', d', x', -, -, -, hs0', hsum', -, hx', -, rfl, hf', hl', -, -, -, h5', h6', h7', h8', h9', -⟩ := key idx' hlt'
    obtain rfl := Option.some.inj (hx.symm.trans ha)
    obtain rfl := Option.some.inj (hx'.symm.trans ha')
    rw [← hj] at h6' h7' h8' h9' hs0' hf' hl'
    have hff : f = f' := by
      rw [h5, h5'] at hsub
      have hfst : f.1 = f'.1 := Option.some.inj hsub
      obtain ⟨q, -, hq, -⟩ := hRmem x.j hjm f hf
      obtain ⟨q', -, hq', -⟩ := hRmem x.j hjm f' hf'
      rw [hq, hq'] at hfst ⊢
      have hfst : q.1 = q'.1 := hfst
      rw [hfst]
    subst hff
    have hdd : d = d' := by
      have d1 := Nat.div_add_mod d (F.mult x.j)
      have d2 := Nat.div_add_mod d' (F.mult x.j)
      have d3 := Nat.div_add_mod (d / F.mult x.j) f.2.length
      have d4 := Nat.div_add_mod (d' / F.mult x.j) f.2.length
      have d5 := Nat.div_add_mod (d / F.mult x.j / f.2.length) (K.cg n m f.1).mult
      have d6 := Nat.div_add_mod (d' / F.mult x.j / f.2.length) (K.cg n m f.1).mult
      rw [← Nat.div_div_eq_div_mul] at h8 h8'
      rw [← Nat.div_div_eq_div_mul, ← Nat.div_div_eq_div_mul] at h9 h9'
      rw [← h8, ← h9] at d5
      rw [← h8', ← h9', ← hs, ← hk] at d6
      rw [← d5, ← h7] at d3
      rw [← d6, ← h7', ← ht] at d4
      rw [← d1, ← d2, ← d3, ← d4, ← h6, ← h6', hi]
    subst hdd
    -- equal positions come from equal indices
    have hinj : ∀ (w : J' × List ℕ → ℕ) (L : List (J' × List ℕ)), (L.map Prod.fst).Nodup → ∀ a b r, IBasis.locate w L a = some r → IBasis.locate w L b = some r → a = b := by
      intro w L
      induction L with
      | nil => intro _ a b r h; simp [IBasis.locate] at h
      | cons c L ih =>
        intro hn a b r h1 h2
        rw [List.map_cons, List.nodup_cons] at hn
        rw [IBasis.locate] at h1 h2
        have hnot : ∀ d, IBasis.locate w L d = some r → r.1 = c → False := by
          intro d hd hc
          obtain ⟨hm, -, -⟩ := locate_mem w L d r.1 r.2 hd
          rw [hc] at hm
          exact hn.1 (List.mem_map.2 ⟨c, hm, rfl⟩)
        by_cases ha : a < w c
        · rw [if_pos ha] at h1
          obtain rfl := Option.some.inj h1
          by_cases hb : b < w c
          · rw [if_pos hb] at h2
            exact (Prod.mk.inj (Option.some.inj h2)).2.symm
          · rw [if_neg hb] at h2
            exact (hnot _ h2 rfl).elim
        · rw [if_neg ha] at h1
          by_cases hb : b < w c
          · rw [if_pos hb] at h2
            obtain rfl := Option.some.inj h2
            exact (hnot _ h1 rfl).elim
          · rw [if_neg hb] at h2
            have := ih hn.2 _ _ r h1 h2
            omega
    have hee : e = e' := hinj _ _ (hRnd x.j hjm) _ _ _ hl hl'
    have hss : s0 = s0' := by
      have := (lookupLast_of_nodup hstk).2 hs0'
      rw [(lookupLast_of_nodup hstk).2 hs0] at this
      exact Option.some.inj this
    omega

/-- **C37** for `RestrictedWignerEckartBasis`: `basis[idx]` is the `idx`-th item of `iter(basis)`, has `idx` as its index, and its attributes
`j` (harmonic), `_j` (irrep of the subgroup), `t` (copy of `_j` in the restriction of `j`), `i`, `s`, `k` describe the `idx`-th sampled kernel;
two elements differ in one of these attributes. -/
theorem C37_restricted (K : KGroup H J') (F : FBasis J P A) (Gsize : J → ℕ) (res : J → Rep H J') (m n : J') (hnd : ((K.tensor m n).map Prod.fst).Nodup)
    (hE : ∀ p ∈ K.tensor m n, (K.typ p.1).sizeOk (K.T.size p.1)) (hF : (F.js.map Prod.fst).Nodup) (hA : F.AttrsAgree)
    (b : IBasis J J' A) (hb : init K F Gsize res m n = .ok b) :
    ∃ L, b.iter = .ok L ∧ L.length = b.dim ∧
      (∀ idx, b.dim ≤ idx → b.getItem idx = .error .assertion) ∧
      (∀ idx < b.dim, ∃ a, b.getItem idx = .ok a ∧ L[idx]? = some a ∧ a.idx = idx ∧
        ∃ kf mf, F.js[kf]? = some (a.j, mf) ∧ a.i < mf ∧ F.attrsJ a.j a.i = .ok a.harm ∧
        ∃ sub, a.sub = some sub ∧ a.s < (K.cg n m sub).mult ∧
        ∃ c, (res a.j).irreps[c]? = some sub ∧ ((res a.j).irreps.take c).count sub = a.t ∧
        ∃ E, (K.endo sub)[a.k]? = some E ∧ ∀ x, ∃ k, b.sample Gsize F x idx = .ok k ∧ k.rows = K.T.size n ∧ k.cols = K.T.size m ∧
          ∀ p q, k.get p q = ∑ y ∈ Finset.range (Gsize a.j), (∑ i ∈ Finset.range (K.T.size sub), ∑ o ∈ Finset.range (K.T.size sub),
              (K.cg n m sub).get p q a.s i * E.get o i * (res a.j).cobInv.get (chanOffset K.T.size (res a.j).irreps c + o) y) *
            F.sample x (((F.js.take kf).map fun e => Gsize e.1 * e.2).sum + (a.i * Gsize a.j + y))) ∧
      ∀ (idx idx' : ℕ) (a a' : IAttr J J' A), L[idx]? = some a → L[idx']? = some a' → a.j = a'.j → a.sub = a'.sub → a.i = a'.i → a.t = a'.t → a.s = a'.s →
        a.k = a'.k → idx = idx' :=
  (attr_full K F Gsize res m n hnd hE hF hA b hb).2

end RWE

end Escnn
