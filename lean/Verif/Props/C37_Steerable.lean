import Verif.Props.C37_Attributes
import Verif.Props.C37_Restricted
import Verif.Props.C38_SteerableKernelBasis

/-!
# C37: attributes of SteerableKernelBasis
-/

namespace Escnn

open NpMat

/-- The attribute methods of an irrep basis agree. -/
def IBasis.AttrFull {J J' A : Type} (b : IBasis J J' A) : Prop := b.AttrOk ∧ ∀ j, b.dimH j = 0 → b.attrsIter j = .ok []

namespace SKB

variable {J J' P A : Type} [DecidableEq J]

theorem getLoop_eq (dimH : J → ℕ) : ∀ (L : List J) (j0 : J) (e : ℕ) (r : J × ℕ), IBasis.locate dimH L e = some r → getLoop dimH j0 e L = r
  | [], _, _, _, h => by simp [IBasis.locate] at h
  | j :: L, j0, e, r, h => by
    rw [IBasis.locate] at h
    rw [getLoop]
    by_cases hlt : e < dimH j
    · rw [if_pos hlt] at h; rw [if_neg (by omega)]; exact Option.some.inj h
    · rw [if_neg hlt] at h; rw [if_pos (by omega)]; exact getLoop_eq dimH L j _ r h

theorem findCell_eq (idx : ℕ) (j : J) (jIdx : ℕ) : ∀ (cs : List (Cell J J' A)) (rel : ℕ) (c : Cell J J' A) (rel' : ℕ) (a : IAttr J J' A),
    IBasis.locate (fun c => c.basis.dimH j) cs rel = some (c, rel') → c.basis.attrsJ j rel' = .ok a → findCell idx j jIdx rel cs = .ok (some ⟨idx, j, jIdx, c.ii, c.oo, a⟩)
  | [], _, _, _, _, h, _ => by simp [IBasis.locate] at h
  | c0 :: cs, rel, c, rel', a, h, ha => by
    rw [IBasis.locate] at h
    rw [findCell]
    by_cases hlt : rel < c0.basis.dimH j
    · rw [if_pos hlt] at h ⊢
      obtain ⟨rfl, rfl⟩ := Prod.mk.inj (Option.some.inj h)
      rw [ha]; rfl
    · rw [if_neg hlt] at h ⊢
      exact findCell_eq idx j jIdx cs _ c rel' a h ha

theorem locate_congr {α : Type} {w w' : α → ℕ} : ∀ (L : List α), (∀ a ∈ L, w a = w' a) → ∀ e, IBasis.locate w L e = IBasis.locate w' L e
  | [], _, _ => rfl
  | a :: L, h, e => by rw [IBasis.locate, IBasis.locate, h a (by simp), locate_congr L fun a ha => h a (by simp [ha])]

theorem locate_inj {α : Type} {w : α → ℕ} : ∀ (L : List α), L.Nodup → ∀ e e' r, IBasis.locate w L e = some r → IBasis.locate w L e' = some r → e = e'
  | [], _, _, _, _, h, _ => by simp [IBasis.locate] at h
  | a :: L, hn, e, e', r, h, h' => by
    rw [List.nodup_cons] at hn
    rw [IBasis.locate] at h h'
    by_cases h1 : e < w a
    · rw [if_pos h1] at h
      by_cases h2 : e' < w a
      · rw [if_pos h2] at h'
        have := (Option.some.inj h).trans (Option.some.inj h').symm
        exact (Prod.mk.inj this).2
      · rw [if_neg h2] at h'
        obtain ⟨r1, r2⟩ := r
        have := (locate_mem w L _ _ _ h').1
        rw [← (Prod.mk.inj (Option.some.inj h)).1] at this
        exact absurd this hn.1
    · rw [if_neg h1] at h
      by_cases h2 : e' < w a
      · rw [if_pos h2] at h'
        obtain ⟨r1, r2⟩ := r
        have := (locate_mem w L _ _ _ h).1
        rw [← (Prod.mk.inj (Option.some.inj h')).1] at this
        exact absurd this hn.1
      · rw [if_neg h2] at h'
        have := locate_inj L hn.2 _ _ r h h'
        omega

variable {G' : Type} {El : G' → Prop} {Fsize : J → ℕ} {mat : J → G' → NpMat ℝ} {T : IrrepTable G' J'} {F : FBasis J P A} {gen : J' → J' → Except Err (IBasis J J' A)}
  {rin rout : Rep G' J'} {triv : J} {op : G' → G' → G'} {one : G'}

/-- **C37** for `SteerableKernelBasis`: `basis[idx]` is the `idx`-th item of `iter(basis)`, has `idx` as its index and names a pair of irreps and an
element of the basis of this pair (whose attributes it repeats).  The `idx`-th sampled kernel is this element, placed at the rows and
columns of the pair, in the bases of the two representations.  Two elements differ in the pair or in the element. -/
theorem C37_steerable (hT : T.Valid El op one) (hin : rin.WF T El) (hout : rout.WF T El)
    (hgen : ∀ i ∈ rin.irreps, ∀ o ∈ rout.irreps, GenGood El Fsize mat T F i o (gen i o)) (hF : (F.js.map Prod.fst).Nodup)
    (hA : ∀ i ∈ rin.irreps, ∀ o ∈ rout.irreps, ∀ b, gen i o = .ok b → b.AttrFull)
    {s : SKB J J' A} (hs : init T.size triv F gen rin rout = .ok s) :
    ∃ L, s.iter = .ok L ∧ L.length = s.dim ∧ (∀ idx, s.dim ≤ idx → s.getItem idx = .error .assertion) ∧
      (∀ idx < s.dim, ∃ a, s.getItem idx = .ok (some a) ∧ L[idx]? = some a ∧ a.idx = idx ∧
        ∃ i o b, rin.irreps[a.inIdx]? = some i ∧ rout.irreps[a.outIdx]? = some o ∧ gen i o = .ok b ∧ a.base.idx < b.dim ∧ b.getItem a.base.idx = .ok a.base ∧ a.base.j = a.j ∧
        ∀ x, ∃ k k' K, sample Fsize F s x idx = .ok k ∧ b.sample Fsize F x a.base.idx = .ok k' ∧ k ≈ mul (mul rout.cob K) rin.cobInv ∧
          K.rows = rout.size ∧ K.cols = rin.size ∧ ∀ (l : ℕ) r (u : ℕ) t p q, rout.irreps[l]? = some r → rin.irreps[u]? = some t → p < T.size r → q < T.size t →
            K.get (chanOffset T.size rout.irreps l + p) (chanOffset T.size rin.irreps u + q) = if l = a.outIdx ∧ u = a.inIdx then k'.get p q else 0) ∧
      ∀ (idx idx' : ℕ) a a', L[idx]? = some a → L[idx']? = some a' → a.inIdx = a'.inIdx → a.outIdx = a'.outIdx → a.base.idx = a'.base.idx → idx = idx' := by
  classical
  rcases init_spec (triv := triv) hgen hF with ⟨h, -⟩ | ⟨s', hs', -, hrows, hcols, hAi, hB, -, hdim, hjnd, hdH, hsl, hjs, -, hcnd, -, hcell⟩
  · rw [h] at hs; simp at hs
  obtain rfl : s' = s := Except.ok.inj (hs'.symm.trans hs)
  have hAc : ∀ c ∈ s'.cells, c.basis.AttrFull := fun c hc => by
    obtain ⟨i, o, e1, e2, e3, -⟩ := hcell c hc
    exact hA i (List.mem_of_getElem? e1) o (List.mem_of_getElem? e2) _ e3
  have hGc : ∀ c ∈ s'.cells, c.basis.js.Nodup ∧ c.basis.dim = (c.basis.js.map c.basis.dimH).sum ∧ (∀ j ∉ c.basis.js, c.basis.dimH j = 0) ∧ ∀ j ∈ c.basis.js, 0 < F.mult j := fun c hc => by
    obtain ⟨i, o, -, -, -, -, -, -, -, -, -, -, hG⟩ := hcell c hc
    exact ⟨hG.nodup, hG.dim, hG.out, hG.mult⟩
  have hcw : ∀ j, ∀ c ∈ s'.cells, c.basis.dimH j = cw j c := fun j c hc => by
    rw [cw]
    split_ifs with h
    · rfl
    · exact (hGc c hc).2.2.1 j h
  have hcellnd : s'.cells.Nodup := List.Nodup.of_map _ hcnd
  -- the attributes yielded by a cell
  have hM : ∀ c j, ∃ M, c ∈ s'.cells → c.basis.attrsIter j = .ok M ∧ M.length = cw j c ∧ ∀ e < cw j c, ∃ a s0, M[e]? = some a ∧ c.basis.attrsJ j e = .ok a ∧ j ∈ c.basis.js ∧
      (j, s0) ∈ IBasis.startLoop c.basis.dimH 0 c.basis.js ∧ a.idx = s0 + e ∧ a.j = j := by
    intro c j
    by_cases hc : c ∈ s'.cells
    · by_cases hj : j ∈ c.basis.js
      · obtain ⟨M, h1, h2, h3⟩ := (hAc c hc).1 j hj
        have hm : j ∈ (IBasis.startLoop c.basis.dimH 0 c.basis.js).map Prod.fst := by rw [IBasis.startLoop_keys]; exact hj
        obtain ⟨⟨j', s0⟩, hs0, rfl⟩ := List.mem_map.1 hm
        refine ⟨M, fun _ => ⟨h1, by rw [h2, hcw _ c hc], fun e he => ?_⟩⟩
        rw [← hcw _ c hc] at he
        obtain ⟨a, g1, g2, g3, g4⟩ := h3 s0 hs0 e he
        exact ⟨a, s0, g1, g2, hj, hs0, g3, g4⟩
      · refine ⟨[], fun _ => ⟨(hAc c hc).2 j ((hGc c hc).2.2.1 j hj), by simp [cw, hj], fun e he => ?_⟩⟩
        rw [cw, if_neg hj] at he
        omega
    · exact ⟨[], fun h => absurd h hc⟩
  choose M hM using hM
  have hJ : ∀ j, iterJ s'.cells j = .ok (s'.cells.flatMap fun c => (M c j).map fun a => (c, a)) := by
    intro j
    rw [iterJ, mapE_map (g := fun c => (M c j).map fun a => (c, a)) fun c hc => by rw [((hM c j) hc).1]; rfl]
    simp only [bind, Except.bind]
    rw [List.flatMap_def]
  set X := fun j => (s'.cells.flatMap fun c => (M c j).map fun a => (c, a)) with hX
  have hXlen : ∀ j, (X j).length = s'.dimH j := by
    intro j
    rw [hX, flatMap_length (w := cw j) s'.cells fun c hc => by rw [List.length_map]; exact (hM c j hc).2.1, hdH]; rfl
  set Z := s'.js.flatMap fun j => (X j).zipIdx.map fun e => (j, e.2, e.1) with hZ
  have hZlen : Z.length = s'.dim := by
    rw [hZ, flatMap_length (w := s'.dimH) s'.js fun j _ => by rw [List.length_map, List.length_zipIdx]; exact hXlen j, hdim]
  have hiter : s'.iter = .ok (Z.zipIdx.map fun e => ⟨e.2, e.1.1, e.1.2.1, e.1.2.2.1.ii, e.1.2.2.1.oo, e.1.2.2.2⟩) := by
    rw [iter, mapE_map (g := fun j => (X j).zipIdx.map fun e => (j, e.2, e.1)) fun j _ => by rw [hJ j]; rfl]
    simp only [bind, Except.bind]
    rw [← List.flatMap_def, ← hZ, if_pos hZlen.le]
  -- the element at a position
  have key : ∀ idx < s'.dim, ∃ j b c b' a s0, IBasis.locate s'.dimH s'.js idx = some (j, b) ∧ IBasis.locate (cw j) s'.cells b = some (c, b') ∧ c ∈ s'.cells ∧ j ∈ c.basis.js ∧
      b' < c.basis.dimH j ∧ c.basis.attrsJ j b' = .ok a ∧ (j, s0) ∈ IBasis.startLoop c.basis.dimH 0 c.basis.js ∧ a.idx = s0 + b' ∧ a.j = j ∧
      Z[idx]? = some (j, b, c, a) ∧ s'.getItem idx = .ok (some ⟨idx, j, b, c.ii, c.oo, a⟩) ∧
      ∀ x, ∃ Y, dictGet (F.asDict Fsize x) j = .ok Y ∧ sample Fsize F s' x idx = .ok (cobApply s'.Ainv s'.B (placed c s'.rows s'.cols (c.basis.block j Y b'))) := by
    intro idx hidx
    obtain ⟨j, b, c, b', h1, h2, hc, hj, hb', hjs', hx⟩ := sample_spec (Fsize := Fsize) hF hdim hdH hsl (fun c hc => ⟨(hGc c hc).1, (hGc c hc).2.2.2⟩) hidx
    obtain ⟨a, s0, g1, g2, -, g4, g5, g6⟩ := (hM c j hc).2.2 b' (by rw [← hcw j c hc]; exact hb')
    refine ⟨j, b, c, b', a, s0, h1, h2, hc, hj, hb', g2, g4, g5, g6, ?_, ?_, hx⟩
    · rw [hZ, flatMap_locate (w := s'.dimH) s'.js (fun j _ => by rw [List.length_map, List.length_zipIdx]; exact hXlen j) _ _ _ h1, List.getElem?_map, List.getElem?_zipIdx, hX,
        flatMap_locate (w := cw j) s'.cells (fun c hc => by rw [List.length_map]; exact (hM c j hc).2.1) _ _ _ h2, List.getElem?_map, g1]
      simp
    · rw [getItem, if_neg (not_not.2 hidx)]
      cases hjj : s'.js with
      | nil => rw [hjj] at hjs'; simp at hjs'
      | cons j0 L0 =>
        simp only
        rw [← hjj, getLoop_eq s'.dimH s'.js j0 idx _ h1]
        have hb : b < s'.dimH j := (locate_mem _ _ _ _ _ h1).2.1
        rw [if_pos hb]
        exact findCell_eq idx j b s'.cells b c b' a (by rw [locate_congr s'.cells (hcw j)]; exact h2) g2
  refine ⟨_, hiter, by rw [List.length_map, List.length_zipIdx, hZlen], fun idx h => by rw [getItem, if_pos (by omega)], fun idx hidx => ?_, ?_⟩
  · obtain ⟨j, b, c, b', a, s0, h1, h2, hc, hj, hb', h3, h4, h5, h6, h7, h8, hx⟩ := key idx hidx
    obtain ⟨i, o, e1, e2, e3, e4, e5, e6, e7, e8, e9, -, hG⟩ := hcell c hc
    obtain ⟨-, hl, hlt⟩ := IBasis.locate_start c.basis.dimH c.basis.js 0 s0 b' j hG.nodup h4 hb'
    rw [Nat.sub_zero] at hl hlt
    have hlt' : a.idx < c.basis.dim := by rw [h5, hG.dim]; exact hlt
    refine ⟨_, h8, by rw [List.getElem?_map, List.getElem?_zipIdx, h7]; simp, rfl, i, o, c.basis, e1, e2, e3, hlt', ?_, h6, fun x => ?_⟩
    · obtain ⟨L, -, -, hat⟩ := IBasis.attr_spec hG.dim (hAc c hc).1
      obtain ⟨j', e', a', g1, g2, -, -, -, g6⟩ := hat a.idx hlt'
      rw [h5] at g1
      obtain ⟨rfl, rfl⟩ := Prod.mk.inj (Option.some.inj (hl.symm.trans g1))
      rw [h3] at g6
      obtain rfl := Except.ok.inj g6
      exact g2
    · obtain ⟨Y, hY, hsx⟩ := hx x
      have hsl' := IBasis.sampleLoop_eq c.basis (F.asDict Fsize x) (fun j => (dictGet (F.asDict Fsize x) j).toOption.getD fun _ _ => 0) c.basis.js (fun j hj => by
        obtain ⟨k, hk⟩ := List.mem_iff_getElem?.1 (FBasis.mem_of_mult (hG.mult j hj))
        rw [FBasis.asDict_get Fsize hF hk]; rfl) a.idx j b' (by rw [h5]; exact hl)
      rw [hY] at hsl'
      refine ⟨_, ⟨c.basis.rows, c.basis.cols, c.basis.block j Y b'⟩, placed c s'.rows s'.cols (c.basis.block j Y b'), hsx, by rw [IBasis.sample, hsl']; rfl, ?_, hrows, hcols, ?_⟩
      · rw [hAi, hB]
        exact cobApply_eqv (by rw [hout.cob_cols, hout.cob_rows]) (by rw [hin.inv_rows, hin.inv_cols]) (by rw [hout.cob_cols]; exact hrows.symm) (by rw [hin.inv_rows]; exact hcols)
      · intro l r u t p q hl hu hp hq
        have hdisj : ∀ {N : List J'} {k1 k2 : ℕ} {r1 r2 : J'} {y : ℕ}, N[k1]? = some r1 → N[k2]? = some r2 → y < T.size r1 → k1 ≠ k2 →
            ¬ (chanOffset T.size N k2 ≤ chanOffset T.size N k1 + y ∧ chanOffset T.size N k1 + y < chanOffset T.size N k2 + T.size r2) := by
          rintro N k1 k2 r1 r2 y e1 e2 hy hne ⟨g1, g2⟩
          have s1 := chanOffset_succ (sz := T.size) e1
          have s2 := chanOffset_succ (sz := T.size) e2
          rcases Nat.lt_or_gt_of_ne hne with h | h
          · have := chanOffset_mono (sz := T.size) N (show k1 + 1 ≤ k2 from h); omega
          · have := chanOffset_mono (sz := T.size) N (show k2 + 1 ≤ k1 from h); omega
        simp only [placed]
        by_cases h : l = c.oo ∧ u = c.ii
        · obtain ⟨rfl, rfl⟩ := h
          obtain rfl : r = o := by rw [hl] at e2; exact Option.some.inj e2
          obtain rfl : t = i := by rw [hu] at e1; exact Option.some.inj e1
          rw [if_pos ⟨⟨by omega, by omega⟩, by omega, by omega⟩, if_pos ⟨rfl, rfl⟩, e6, e7, Nat.add_sub_cancel_left, Nat.add_sub_cancel_left]
        · rw [if_neg, if_neg h]
          rintro ⟨g1, g2⟩
          rw [e7, e5] at g1
          rw [e6, e4] at g2
          rcases not_and_or.1 h with h | h
          · exact hdisj hl e2 hp h g1
          · exact hdisj hu e1 hq h g2
  · intro idx idx' a a' ha ha' hi ho hb
    have hlt : idx < s'.dim := by
      have := (List.getElem?_eq_some_iff.1 ha).1
      rwa [List.length_map, List.length_zipIdx, hZlen] at this
    have hlt' : idx' < s'.dim := by
      have := (List.getElem?_eq_some_iff.1 ha').1
      rwa [List.length_map, List.length_zipIdx, hZlen] at this
    obtain ⟨j, b, c, b1, x, s0, h1, h2, hc, hj, hb', h3, h4, h5, h6, h7, -⟩ := key idx hlt
    obtain ⟨j', bb, c', b1', x', s0', h1', h2', hc', hj', hb'', h3', h4', h5', h6', h7', -⟩ := key idx' hlt'
    rw [List.getElem?_map, List.getElem?_zipIdx, h7] at ha
    rw [List.getElem?_map, List.getElem?_zipIdx, h7'] at ha'
    simp only [zero_add, Option.map_some, Option.some.injEq] at ha ha'
    subst ha ha'
    simp only at hi ho hb
    obtain rfl : c = c' := by
      obtain ⟨k, hk⟩ := List.mem_iff_getElem?.1 hc
      obtain ⟨k', hk'⟩ := List.mem_iff_getElem?.1 hc'
      obtain ⟨p1, rfl⟩ := List.getElem?_eq_some_iff.1 hk
      obtain ⟨p2, rfl⟩ := List.getElem?_eq_some_iff.1 hk'
      have := (List.Nodup.getElem_inj_iff hcnd (i := k) (j := k') (hi := by rw [List.length_map]; exact p1) (hj := by rw [List.length_map]; exact p2)).1 (by
        simp only [List.getElem_map]; exact Prod.ext hi ho)
      subst this; rfl
    obtain ⟨-, hl, -⟩ := IBasis.locate_start c.basis.dimH c.basis.js 0 s0 b1 j (hGc c hc).1 h4 hb'
    obtain ⟨-, hl', -⟩ := IBasis.locate_start c.basis.dimH c.basis.js 0 s0' b1' j' (hGc c hc).1 h4' hb''
    rw [Nat.sub_zero, ← h5] at hl
    rw [Nat.sub_zero, ← h5', ← hb] at hl'
    obtain ⟨rfl, rfl⟩ := Prod.mk.inj (Option.some.inj (hl.symm.trans hl'))
    obtain rfl := locate_inj s'.cells hcellnd _ _ _ h2 h2'
    exact locate_inj s'.js hjnd _ _ _ h1 h1'

/-- **C37** for `SteerableKernelBasis` over the irreps of SO(2). -/
theorem C37_steerable_so2 (F : FBasis ℕ P A) (rin rout : Rep ℝ ℕ) (hin : rin.WF SO2.table SO2.IsElement) (hout : rout.WF SO2.table SO2.IsElement)
    (hF : (F.js.map Prod.fst).Nodup) (hA : F.AttrsAgree) {s : SKB ℕ ℕ A} (hs : init SO2.irrepSize 0 F (WE.init SO2.kgroup F) rin rout = .ok s) :
    ∃ L, s.iter = .ok L ∧ L.length = s.dim ∧
      (∀ idx < s.dim, ∃ a, s.getItem idx = .ok (some a) ∧ L[idx]? = some a ∧ a.idx = idx ∧
        ∃ i o b, rin.irreps[a.inIdx]? = some i ∧ rout.irreps[a.outIdx]? = some o ∧ WE.init SO2.kgroup F i o = .ok b ∧ b.getItem a.base.idx = .ok a.base ∧ a.base.j = a.j) ∧
      ∀ (idx idx' : ℕ) a a', L[idx]? = some a → L[idx']? = some a' → a.inIdx = a'.inIdx → a.outIdx = a'.outIdx → a.base.idx = a'.base.idx → idx = idx' := by
  have hE : ∀ m n, ∀ p ∈ SO2.kgroup.tensor m n, (SO2.kgroup.typ p.1).sizeOk (SO2.kgroup.T.size p.1) := fun m n p _ => (SO2.C18_so2 p.1 rfl).1
  have hgen : ∀ i ∈ rin.irreps, ∀ o ∈ rout.irreps, GenGood SO2.IsElement SO2.irrepSize SO2.irrepMat SO2.table F i o (WE.init SO2.kgroup F i o) := by
    intro m _ n _
    rcases WE.init_spec SO2.kgroup F m n SO2.table_valid SO2.C18_so2 rfl (fun _ _ => rfl) (SO2.tensor_nodup m n) (SO2.kgroup_cg m n) hF with h | ⟨b, hb, -, hr, hc, -, hG⟩
    · exact .inl h.1
    · exact .inr ⟨b, hb, hr, hc, fun j hj => List.mem_map.2 ⟨_, FBasis.mem_of_mult (hG.mult j hj), rfl⟩, hG⟩
  obtain ⟨L, h1, h2, -, h3, h4⟩ := C37_steerable (T := SO2.table) (triv := 0) SO2.table_valid hin hout hgen hF (fun m _ n _ b hb => by
    obtain ⟨⟨g1, g2, -⟩, -⟩ := WE.attr_full SO2.kgroup F m n (SO2.tensor_nodup m n) (hE m n) hF hA b hb
    exact ⟨g1, g2⟩) hs
  refine ⟨L, h1, h2, fun idx hidx => ?_, h4⟩
  obtain ⟨a, g1, g2, g3, i, o, b, g4, g5, g6, -, g7, g8, -⟩ := h3 idx hidx
  exact ⟨a, g1, g2, g3, i, o, b, g4, g5, g6, g7, g8⟩

theorem demoF_attrs : WE.demoF.AttrsAgree := by
  intro e he
  simp only [WE.demoF, List.mem_cons, List.not_mem_nil, or_false] at he
  rcases he with rfl | rfl
  · exact ⟨[(), ()], rfl, rfl, fun i _ => rfl⟩
  · exact ⟨[()], rfl, rfl, fun i _ => rfl⟩

/-- The four kernels between two copies of the irrep 1 of SO(2) have attributes. -/
example : ∃ b L, WE.init SO2.kgroup WE.demoF 1 1 = .ok b ∧ b.iter = .ok L ∧ L.length = 4 := by
  rcases WE.C35_so2 WE.demoF (fun g x => g + x) 1 1 (by decide) WE.demo_steerable with h | ⟨b, hb, hd, -⟩
  · exact absurd h.2 (by decide)
  · obtain ⟨L, h1, h2, -⟩ := WE.C37_wigner_eckart SO2.kgroup WE.demoF 1 1 (SO2.tensor_nodup 1 1) (fun p _ => (SO2.C18_so2 p.1 rfl).1) (by decide) demoF_attrs b hb
    exact ⟨b, L, hb, h1, h2.trans (hd.trans (by decide))⟩

/-- Four kernels also for `C_4`, with the filters of SO(2). -/
example : ∃ b L, RWE.init (Cyclic.kgroup 4) WE.demoF SO2.irrepSize (irrepRep (Cyclic.table 4) "" ∅) 1 1 = .ok b ∧ b.iter = .ok L ∧ L.length = 4 := by
  obtain ⟨b, hb, hd, -⟩ := RWE.demo_init
  obtain ⟨L, h1, h2, -⟩ := RWE.C37_restricted (Cyclic.kgroup 4) WE.demoF SO2.irrepSize (irrepRep (Cyclic.table 4) "" ∅) 1 1 (by decide)
    (fun p hp => ((Cyclic.C18_cyclic 4 (by norm_num)).1 p.1 (Cyclic.kgroup_cg 4 (by norm_num) 1 1 (by norm_num) (by norm_num) p hp).1).1) (by decide) demoF_attrs b hb
  exact ⟨b, L, hb, h1, h2.trans hd⟩

/-- The ten kernels of `demoRep`. -/
example : ∃ s L, init SO2.irrepSize 0 WE.demoF (WE.init SO2.kgroup WE.demoF) demoRep demoRep = .ok s ∧ s.iter = .ok L ∧ L.length = 10 := by
  rcases C38_so2 WE.demoF demoRep demoRep demoRep_wf demoRep_wf (by decide) WE.demo_steerable with h | ⟨s, hs, -, -, hd, -⟩
  · exfalso
    have hcg : ∀ m ∈ demoRep.irreps, ∀ n ∈ demoRep.irreps, ((SO2.kgroup.tensor m n).map Prod.fst).Nodup ∧ ∀ p ∈ SO2.kgroup.tensor m n, SO2.kgroup.T.ok p.1 = true ∧
        (SO2.kgroup.cg n m p.1).mult = p.2 ∧ ∀ g, SO2.IsElement g → Intertwines (SO2.kgroup.T.mat n g) (SO2.kgroup.T.mat m g) (SO2.kgroup.T.mat p.1 g) (SO2.kgroup.cg n m p.1) :=
      fun m _ n _ => ⟨SO2.tensor_nodup m n, fun p hp => ⟨rfl, SO2.kgroup_cg m n p hp⟩⟩
    rcases C38_wigner_eckart SO2.kgroup WE.demoF demoRep demoRep 0 SO2.table_valid SO2.C18_so2 demoRep_wf demoRep_wf hcg (by decide) (fun _ _ => rfl) WE.demo_steerable with h' | ⟨s, hs, -⟩
    · rcases WE.C35_so2 WE.demoF (fun g x => g + x) 1 1 (by decide) WE.demo_steerable with g | ⟨b, hb, -⟩
      · exact absurd g.2 (by decide)
      · rw [h'.2 1 (by simp [demoRep]) 1 (by simp [demoRep])] at hb
        simp at hb
    · have hs' : init SO2.irrepSize 0 WE.demoF (WE.init SO2.kgroup WE.demoF) demoRep demoRep = .ok s := hs
      rw [h] at hs'; simp at hs'
  · obtain ⟨L, h1, h2, -⟩ := C37_steerable_so2 WE.demoF demoRep demoRep demoRep_wf demoRep_wf (by decide) demoF_attrs hs
    exact ⟨s, L, hs, h1, h2.trans (hd.trans (by decide))⟩

end SKB

namespace Union

variable {P α : Type}

/-- The attribute methods and the samples of a basis belong together: `iter` yields `dim` attributes and `basis[i]` is the `i`-th. -/
def Agree (b : KB P α) : Prop := ∃ L, b.iter = .ok L ∧ L.length = b.dim ∧ ∀ i < b.dim, ∃ a, L[i]? = some a ∧ b.getItem i = .ok a

theorem getLoop_eq : ∀ (bs : List (KB P α)) (n r : ℕ) (b : KB P α) (k r' : ℕ) (a : α), IBasis.locate (fun e => e.1.dim) (bs.zipIdx n) r = some ((b, k), r') → b.getItem r' = .ok a →
    getLoop n r bs = .ok (k, a)
  | [], _, _, _, _, _, _, h, _ => by simp [IBasis.locate] at h
  | b0 :: bs, n, r, b, k, r', a, h, ha => by
    rw [List.zipIdx_cons, IBasis.locate] at h
    rw [getLoop]
    by_cases hlt : r < b0.dim
    · rw [if_pos hlt] at h ⊢
      obtain ⟨h1, rfl⟩ := Prod.mk.inj (Option.some.inj h)
      obtain ⟨rfl, rfl⟩ := Prod.mk.inj h1
      rw [ha]; rfl
    · rw [if_neg hlt] at h ⊢
      exact getLoop_eq bs _ _ b k r' a h ha

theorem sample_eq (x : P) : ∀ (bs : List (KB P α)) (n e : ℕ) (b : KB P α) (k e' : ℕ), IBasis.locate (fun e => e.1.dim) (bs.zipIdx n) e = some ((b, k), e') → sample x e bs = b.sample x e'
  | [], _, _, _, _, _, h => by simp [IBasis.locate] at h
  | b0 :: bs, n, e, b, k, e', h => by
    rw [List.zipIdx_cons, IBasis.locate] at h
    rw [sample]
    by_cases hlt : e < b0.dim
    · rw [if_pos hlt] at h ⊢
      obtain ⟨h1, rfl⟩ := Prod.mk.inj (Option.some.inj h)
      obtain ⟨rfl, rfl⟩ := Prod.mk.inj h1
      rfl
    · rw [if_neg hlt] at h ⊢
      exact sample_eq x bs _ _ b k e' h

/-- **C37** for `UnionBasis`: the attributes name a member and an element of it; the sampled matrix is that element; two elements differ in one of these. -/
theorem C37_union (bs : List (KB P α)) (hA : ∀ b ∈ bs, Agree b) (u : KB P (UAttr α)) (hu : init bs = .ok u) :
    (∀ b ∈ bs, b.rows = u.rows ∧ b.cols = u.cols) ∧ u.dim = (bs.map KB.dim).sum ∧ 0 < u.dim ∧
    ∃ L, u.iter = .ok L ∧ L.length = u.dim ∧ (∀ idx, u.dim ≤ idx → u.getItem idx = .error .assertion) ∧
      ∀ idx < u.dim, ∃ a, u.getItem idx = .ok a ∧ L[idx]? = some a ∧ a.idx = idx ∧ ∃ b i, bs[a.basisId]? = some b ∧ i < b.dim ∧ b.getItem i = .ok a.base ∧
        idx = ((bs.take a.basisId).map KB.dim).sum + i ∧ ∀ x, u.sample x idx = b.sample x i := by
  cases bs with
  | nil => rw [init] at hu; simp at hu
  | cons b0 bs =>
    rw [init] at hu
    simp only at hu
    split_ifs at hu with h1 h2
    obtain rfl := Except.ok.inj hu
    refine ⟨fun b hb => ?_, rfl, Nat.pos_of_ne_zero h2, ?_⟩
    · simpa using List.all_eq_true.1 h1 b hb
    set B := b0 :: bs with hB
    have hex : ∀ b, ∃ L, b ∈ B → b.iter = .ok L ∧ L.length = b.dim ∧ ∀ i < b.dim, ∃ a, L[i]? = some a ∧ b.getItem i = .ok a := by
      intro b
      by_cases hb : b ∈ B
      · obtain ⟨L, hL⟩ := hA b hb
        exact ⟨L, fun _ => hL⟩
      · exact ⟨[], fun h => absurd h hb⟩
    choose M hM using hex
    have hmem : ∀ e ∈ B.zipIdx, e.1 ∈ B := fun e he => by
      obtain ⟨b, k⟩ := e
      exact (List.mem_zipIdx he).2.2 ▸ List.getElem_mem _
    set Z := B.zipIdx.flatMap fun e => (M e.1).map fun a => (e.2, a) with hZ
    have hlen : ∀ e ∈ B.zipIdx, ((M e.1).map fun a => (e.2, a)).length = e.1.dim := fun e he => by rw [List.length_map]; exact (hM e.1 (hmem e he)).2.1
    have hsum : (B.zipIdx.map fun e => e.1.dim).sum = (B.map KB.dim).sum := by
      have : (B.zipIdx.map fun e => e.1.dim) = (B.zipIdx.map Prod.fst).map KB.dim := by rw [List.map_map]; rfl
      rw [this, List.zipIdx_map_fst]
    have hZlen : Z.length = (B.map KB.dim).sum := by rw [hZ, flatMap_length (w := fun e => e.1.dim) _ hlen, hsum]
    refine ⟨Z.zipIdx.map fun e => ⟨e.2, e.1.1, e.1.2⟩, ?_, by rw [List.length_map, List.length_zipIdx, hZlen], fun idx h => if_pos (by simpa using h), fun idx hidx => ?_⟩
    · show (mapE _ B.zipIdx >>= _) = _
      rw [mapE_map (g := fun e => (M e.1).map fun a => (e.2, a)) fun e he => by rw [(hM e.1 (hmem e he)).1]; rfl]
      simp only [bind, Except.bind]
      rw [← List.flatMap_def, ← hZ, if_pos hZlen.le]
    · change idx < (B.map KB.dim).sum at hidx
      obtain ⟨⟨b, k⟩, i, hloc⟩ := locate_some (fun e : KB P α × ℕ => e.1.dim) B.zipIdx idx (hsum ▸ hidx)
      obtain ⟨hbm, hi, -⟩ := locate_mem _ _ _ _ _ hloc
      obtain ⟨a, ha1, ha2⟩ := (hM b (hmem _ hbm)).2.2 i hi
      have hk : B[k]? = some b := by simpa [List.mk_mem_zipIdx_iff_getElem?] using hbm
      refine ⟨⟨idx, k, a⟩, ?_, ?_, rfl, b, i, hk, hi, ha2, ?_, fun x => sample_eq x B 0 idx b k i hloc⟩
      · show (if ¬ idx < (B.map KB.dim).sum then _ else _) = _
        rw [if_neg (not_not.2 hidx), getLoop_eq B 0 idx b k i a hloc ha2]
        rfl
      · rw [List.getElem?_map, List.getElem?_zipIdx, hZ, flatMap_locate (w := fun e => e.1.dim) _ hlen _ _ _ hloc, List.getElem?_map, ha1]
        simp
      · have key : ∀ (C : List (KB P α)) (n r : ℕ), IBasis.locate (fun e => e.1.dim) (C.zipIdx n) r = some ((b, k), i) → n ≤ k ∧ r = ((C.take (k - n)).map KB.dim).sum + i := by
          intro C
          induction C with
          | nil => intro n r h; simp [IBasis.locate] at h
          | cons c C ih =>
            intro n r h
            rw [List.zipIdx_cons, IBasis.locate] at h
            by_cases hlt : r < c.dim
            · rw [if_pos hlt] at h
              obtain ⟨h1, rfl⟩ := Prod.mk.inj (Option.some.inj h)
              obtain ⟨rfl, rfl⟩ := Prod.mk.inj h1
              simp
            · rw [if_neg hlt] at h
              obtain ⟨g1, g2⟩ := ih _ _ h
              change r - c.dim = _ at g2
              refine ⟨by omega, ?_⟩
              rw [show k - n = (k - (n + 1)) + 1 by omega, List.take_succ_cons, List.map_cons, List.sum_cons]
              omega
        have := (key B 0 idx hloc).2
        rw [Nat.sub_zero] at this
        exact this

/-- A union of a basis with two elements and one with one element. -/
example : ∃ u L, init [(⟨2, 1, 1, fun x i => .ok (of1 (x + i)), fun i => .ok i, .ok [0, 1]⟩ : KB ℝ ℕ), ⟨1, 1, 1, fun x _ => .ok (of1 x), fun i => .ok i, .ok [0]⟩] = .ok u ∧
    u.dim = 3 ∧ u.iter = .ok L ∧ L.length = 3 := by
  refine ⟨_, _, rfl, rfl, rfl, rfl⟩

end Union

end Escnn
