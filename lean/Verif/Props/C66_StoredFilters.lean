import Verif.Props.C65_O2
import Verif.Lemmas.ExRel

/-!
# C66: sampled filters which are reused are those which would be computed

`block_basisexpansion` stores the sampled filters in a global dictionary whose keys are compared with `==`.  This is correct as long as equal bases have the same reflection axis.  It is not correct
in general: `==` of `CircularShellsBasis` ignores the axis.
-/

namespace Escnn

open NpMat Real

section
variable {H J' : Type} [DecidableEq J']

/-- The same filters at `S` points: the same shape, attributes and mask, and the same values. -/
structure SBlock.Same {A : Type} (S : ℕ) (a b : SBlock A) : Prop where
  out : a.outSize = b.outSize
  inp : a.inSize = b.inSize
  attrs : a.attrs = b.attrs
  mask : a.mask = b.mask
  vals : List.Forall₂ (fun K K' : ℕ → ℕ → ℕ → ℝ => ∀ o < b.outSize, ∀ i < b.inSize, ∀ p < S, K o i p = K' o i p) a.sampled b.sampled

theorem SBlock.Same.refl {A : Type} (S : ℕ) (a : SBlock A) : a.Same S a := ⟨rfl, rfl, rfl, rfl, List.forall₂_same.2 fun _ _ _ _ _ _ _ _ => rfl⟩

/-- The same result: the same filters or the same exception. -/
def SameBlocks {A : Type} (S : ℕ) : Except Err (SBlock A) → Except Err (SBlock A) → Prop := ExRel (SBlock.Same S)

theorem SameBlocks.refl {A : Type} (S : ℕ) (r : Except Err (SBlock A)) : SameBlocks S r r := ExRel.refl (SBlock.Same.refl S) r

/-- Everything in the dictionary was built for its key. -/
theorem Stored.run_inv (hist : List (ExpCall H J')) : ∀ (d : Stored H J') (e : StoredKey H J' × PlaneBlock J'), e ∈ Stored.run d hist →
    e ∈ d ∨ ∃ b ∈ hist, e.1.basis = b.basis ∧ e.1.points = b.points ∧ b.basis.mask b.filter = .ok e.1.mask ∧ e.1.build = .ok e.2 := by
  induction hist with
  | nil => exact fun d e h => .inl h
  | cons c L ih =>
    intro d e h
    rcases ih _ e h with h' | ⟨b, hb, h'⟩
    · unfold Stored.expansion at h'
      cases hm : c.basis.mask c.filter with
      | error x => rw [hm] at h'; exact .inl h'
      | ok m =>
        rw [hm] at h'
        simp only [Stored.get] at h'
        by_cases hr : c.recompute = true
        · rw [if_pos hr] at h'; exact .inl h'
        rw [if_neg hr] at h'
        cases hf : d.find ⟨c.basis, m, c.points⟩ with
        | some v => rw [hf] at h'; exact .inl h'
        | none =>
          rw [hf] at h'
          simp only at h'
          cases hv : StoredKey.build ⟨c.basis, m, c.points⟩ with
          | error x => rw [hv] at h'; exact .inl h'
          | ok v =>
            rw [hv] at h'
            rcases List.mem_append.1 h' with h' | h'
            · exact .inl h'
            · obtain rfl := List.mem_singleton.1 h'
              exact .inr ⟨c, by simp, rfl, rfl, hm, hv⟩
    · exact .inr ⟨b, List.mem_cons_of_mem _ hb, h'⟩

/-- **C66** A call which does not read the dictionary returns the expansion of the sampled basis restricted to the elements accepted by the filter (all of them without a filter). -/
theorem C66_mask (c : ExpCall H J') {L} (hL : c.basis.skb.iter = .ok L) (hlen : L.length = c.basis.skb.dim) :
    (Stored.expansion [] { c with recompute := true }).1 = (do
      let kb ← c.basis.skb.kbasis O2.table.size c.basis.filters c.points
      SBlock.ofFilter c.points.length kb c.filter) := by
  obtain ⟨b, pts, f, r⟩ := c
  simp only at hL hlen ⊢
  have hk : ∀ kb, b.skb.kbasis O2.table.size b.filters pts = .ok kb → kb.attrs = L.map (SAttr.toAttr b.skb.rows) := by
    intro kb h
    unfold SKB.kbasis at h
    rw [hL] at h
    obtain ⟨L', e, h⟩ := ExRel.bind_ok h
    obtain rfl := Except.ok.inj e
    obtain ⟨_, -, h⟩ := ExRel.bind_ok h
    obtain rfl := Except.ok.inj h
    rfl
  cases f with
  | none =>
    simp only [Stored.expansion, PlaneBasis.mask, Stored.get, if_true, StoredKey.build]
    cases hb : b.skb.kbasis O2.table.size b.filters pts with
    | error e => rfl
    | ok kb =>
      show SBlock.init _ kb _ = SBlock.init _ kb _
      rw [hk kb hb, List.map_map, ← hlen]
      congr 1
      simp
  | some f =>
    simp only [Stored.expansion, PlaneBasis.mask, hL, bind, Except.bind, Stored.get, if_true, StoredKey.build]
    cases hb : b.skb.kbasis O2.table.size b.filters pts with
    | error e => rfl
    | ok kb =>
      show SBlock.init _ kb _ = SBlock.init _ kb _
      rw [hk kb hb, List.map_map]
      rfl

/-- **C66** For every history: if equal keys would build the same filters, a call returns the filters which it would compute with an empty dictionary. -/
theorem C66_reuse (hist : List (ExpCall H J')) (c : ExpCall H J')
    (h : ∀ b ∈ hist, ∀ m m', b.basis.mask b.filter = .ok m → c.basis.mask c.filter = .ok m' → StoredKey.PyEq ⟨b.basis, m, b.points⟩ ⟨c.basis, m', c.points⟩ →
      SameBlocks c.points.length (StoredKey.build ⟨b.basis, m, b.points⟩) (StoredKey.build ⟨c.basis, m', c.points⟩)) :
    SameBlocks c.points.length ((Stored.run [] hist).expansion c).1 (Stored.expansion [] { c with recompute := true }).1 := by
  unfold Stored.expansion
  cases hm : c.basis.mask c.filter with
  | error x => exact SameBlocks.refl _ _
  | ok m =>
    simp only [Stored.get, if_true]
    by_cases hr : c.recompute = true
    · rw [if_pos hr]; exact SameBlocks.refl _ _
    rw [if_neg hr]
    cases hf : (Stored.run [] hist).find ⟨c.basis, m, c.points⟩ with
    | none =>
      simp only
      cases hv : StoredKey.build ⟨c.basis, m, c.points⟩ <;> exact SameBlocks.refl _ _
    | some v =>
      simp only
      unfold Stored.find at hf
      obtain ⟨e, he, rfl⟩ := Option.map_eq_some_iff.1 hf
      have he0 := List.find?_some he
      have he1 : e.1.PyEq ⟨c.basis, m, c.points⟩ := @of_decide_eq_true _ (Classical.propDecidable _) he0
      rcases Stored.run_inv hist [] e (List.mem_of_find?_eq_some he) with h' | ⟨b, hb, h1, h2, h3, h4⟩
      · simp at h'
      · have := h b hb e.1.mask m h3 hm (by rw [← h1, ← h2]; exact he1)
        rw [← h1, ← h2] at this
        rwa [show StoredKey.build ⟨e.1.basis, e.1.mask, e.1.points⟩ = .ok e.2 from h4] at this

theorem SKB.sample_congr {Ainv B A' B' : NpMat ℝ} (dim rows cols : ℕ) (js : List (ℕ × ℕ)) (dimH : ℕ × ℕ → ℕ) (cells : List (Cell (ℕ × ℕ) J' (Option StAttr)))
    (slices : List (Cell (ℕ × ℕ) J' (Option StAttr) × List ((ℕ × ℕ) × ℕ × ℕ))) (F : FBasis (ℕ × ℕ) (ℝ × ℝ) (Option StAttr)) (hA : Ainv ≈ A') (hB : B ≈ B')
    (hAs : Ainv.rows = Ainv.cols) (hBs : B.rows = B.cols) (hAr : cols = Ainv.rows) (hBc : B.cols = rows) (x : ℝ × ℝ) (e : ℕ) :
    ExRel (fun M N : NpMat ℝ => M ≈ N ∧ N.rows = rows ∧ N.cols = cols) (SKB.sample O2.table.size F ⟨dim, rows, cols, js, dimH, cells, slices, Ainv, B⟩ x e)
      (SKB.sample O2.table.size F ⟨dim, rows, cols, js, dimH, cells, slices, A', B'⟩ x e) := by
  unfold SKB.sample
  refine ExRel.bind (ExRel.refl (R := Eq) (fun _ => rfl) _) ?_
  rintro out _ rfl
  refine ExRel.bind (ExRel.refl (R := Eq) (fun _ => rfl) _) ?_
  rintro r _ rfl
  have h1 := SKB.cobApply_eqv (K := ⟨rows, cols, out r.1 r.2⟩) hBs hAs hBc hAr
  have h2 := SKB.cobApply_eqv (K := ⟨rows, cols, out r.1 r.2⟩) (hB.1.symm.trans (hBs.trans hB.2.1)) (hA.1.symm.trans (hAs.trans hA.2.1)) (hB.2.1.symm.trans hBc) (hAr.trans hA.1)
  have h3 : mul (mul B ⟨rows, cols, out r.1 r.2⟩) Ainv ≈ mul (mul B' ⟨rows, cols, out r.1 r.2⟩) A' :=
    mul_congr (mul_congr_left _ hB hBc) hA hAr
  refine ⟨h1.trans (h3.trans h2.symm), h2.1.trans ?_, h2.2.1.trans ?_⟩
  · show B'.rows = rows
    rw [← hB.1, hBs, hBc]
  · show A'.cols = cols
    rw [← hA.2.1, ← hAs, hAr]

theorem SBlock.sq_congr {o i S : ℕ} {K K' : ℕ → ℕ → ℕ → ℝ} (h : ∀ a < o, ∀ c < i, ∀ p < S, K a c p = K' a c p) : sq o i S K = sq o i S K' :=
  Finset.sum_congr rfl fun a ha => Finset.sum_congr rfl fun c hc => Finset.sum_congr rfl fun p hp => by
    rw [h a (Finset.mem_range.1 ha) c (Finset.mem_range.1 hc) p (Finset.mem_range.1 hp)]

theorem SBlock.normalize_congr {o i S size : ℕ} {K K' : ℕ → ℕ → ℕ → ℝ} (h : ∀ a < o, ∀ c < i, ∀ p < S, K a c p = K' a c p) :
    ∀ a < o, ∀ c < i, ∀ p < S, normalize o i S size K a c p = normalize o i S size K' a c p := by
  intro a ha c hc p hp
  unfold normalize
  rw [sq_congr h, h a ha c hc p hp]

/-- The same kernels, sampled at `S` points. -/
def SameK (o i S : ℕ) (K K' : ℕ → ℕ → ℕ → ℝ) : Prop := ∀ a < o, ∀ c < i, ∀ p < S, K a c p = K' a c p

theorem SBlock.init_congr {A : Type} {S o i : ℕ} {attrs : List (Attr A)} {K K' : List (ℕ → ℕ → ℕ → ℝ)} {mask : List Bool} (h : List.Forall₂ (SameK o i S) K K') :
    SameBlocks S (SBlock.init S ⟨o, i, attrs, K⟩ mask) (SBlock.init S ⟨o, i, attrs, K'⟩ mask) := by
  have hn : ∀ L : List (Attr A), List.Forall₂ (SameK o i S) (List.zipWith (fun a K => normalize o i S a.shape0 K) L K) (List.zipWith (fun a K => normalize o i S a.shape0 K) L K') := by
    induction h with
    | nil => intro L; simp
    | cons h1 _ ih =>
      intro L
      cases L with
      | nil => simp
      | cons a L => exact List.Forall₂.cons (normalize_congr h1) (ih L)
  have hm : ∀ (m : List Bool) {M M' : List (ℕ → ℕ → ℕ → ℝ)}, List.Forall₂ (SameK o i S) M M' →
      List.zipWith (fun b K => b && @decide (1e-2 < sq o i S K) (Classical.propDecidable _)) m M = List.zipWith (fun b K => b && @decide (1e-2 < sq o i S K) (Classical.propDecidable _)) m M' := by
    intro m M M' hM
    induction hM generalizing m with
    | nil => simp
    | cons h1 _ ih =>
      cases m with
      | nil => rfl
      | cons b m => rw [List.zipWith_cons_cons, List.zipWith_cons_cons, ih, sq_congr h1]
  have hz : ∀ (m : List Bool) {M M' : List (ℕ → ℕ → ℕ → ℝ)}, List.Forall₂ (SameK o i S) M M' →
      List.Forall₂ (SameK o i S) (((M.zip m).filter Prod.snd).map Prod.fst) (((M'.zip m).filter Prod.snd).map Prod.fst) := by
    intro m M M' hM
    induction hM generalizing m with
    | nil => simp
    | cons h1 _ ih =>
      cases m with
      | nil => simp
      | cons b m =>
        cases b
        · simpa using ih m
        · exact List.Forall₂.cons h1 (ih m)
  unfold SBlock.init
  simp only [h.length_eq, hm mask (hn attrs)]
  split_ifs
  · exact rfl
  · exact rfl
  · exact ⟨rfl, rfl, rfl, rfl, hz _ (hn attrs)⟩
  · exact rfl
  · exact rfl

/-- The object is the one which the generator of kernel bases returns for its arguments: `gen` is the solver for the class and the subgroup. -/
def PlaneBasis.Built (size : J' → ℕ) (gen : Option (Option ℝ × ℤ) → FBasis (ℕ × ℕ) (ℝ × ℝ) (Option StAttr) → J' → J' → Except Err (IBasis (ℕ × ℕ) J' (Option StAttr))) (junk : ℕ → ℝ)
    (a : PlaneBasis H J') : Prop :=
  ∃ b, Shells.init ShellKind.circ O2.table.size a.L a.radii.length (a.filt.map Prod.snd) = .ok b ∧ a.filters = circularBasis junk b a.radii a.sigma a.axis ∧
    SKB.init size (0, 0) a.filters (gen a.sg a.filters) a.rin a.rout = .ok a.skb

theorem SKB.init_two {size : J' → ℕ} {F : FBasis (ℕ × ℕ) (ℝ × ℝ) (Option StAttr)} {gen : J' → J' → Except Err (IBasis (ℕ × ℕ) J' (Option StAttr))} {rin rout rin' rout' : Rep H J'}
    {s s' : SKB (ℕ × ℕ) J' (Option StAttr)} (h : SKB.init size (0, 0) F gen rin rout = .ok s) (h' : SKB.init size (0, 0) F gen rin' rout' = .ok s') (hi : rin.irreps = rin'.irreps)
    (ho : rout.irreps = rout'.irreps) :
    ∃ dim js dimH cells slices, s = ⟨dim, rout.size, rin.size, js, dimH, cells, slices, rin.cobInv, rout.cob⟩ ∧
      s' = ⟨dim, rout'.size, rin'.size, js, dimH, cells, slices, rin'.cobInv, rout'.cob⟩ := by
  unfold SKB.init at h h'
  rw [hi, ho] at h
  obtain ⟨cells, hc, h⟩ := ExRel.bind_ok h
  obtain ⟨cells', hc', h'⟩ := ExRel.bind_ok h'
  rw [hc] at hc'
  obtain rfl := Except.ok.inj hc'
  simp only at h h'
  split_ifs at h h'
  exact ⟨_, _, _, _, _, (Except.ok.inj h).symm, (Except.ok.inj h').symm⟩

/-- Equal bases with the same axis build the same filters. -/
theorem StoredKey.build_same {size : J' → ℕ} {gen : Option (Option ℝ × ℤ) → FBasis (ℕ × ℕ) (ℝ × ℝ) (Option StAttr) → J' → J' → Except Err (IBasis (ℕ × ℕ) J' (Option StAttr))}
    {junk : ℕ → ℝ} {a b : PlaneBasis H J'} (ha : a.Built size gen junk) (hb : b.Built size gen junk) (hax : a.axis = b.axis) (hfi : a.filt = b.filt) (hE : a.PyEq b)
    (hai : IsInv a.rin.cob a.rin.cobInv) (hbi : IsInv b.rin.cob b.rin.cobInv) (hao : IsInv a.rout.cob a.rout.cobInv) (m : List Bool) (pts : List (ℝ × ℝ)) :
    SameBlocks pts.length (StoredKey.build ⟨a, m, pts⟩) (StoredKey.build ⟨b, m, pts⟩) := by
  obtain ⟨hsg, ⟨⟨hr, hs⟩, hL, -⟩, hin, hout, -⟩ := hE
  obtain ⟨sa, hsa, hfa, hka⟩ := ha
  obtain ⟨sb, hsb, hfb, hkb⟩ := hb
  rw [hL, hr, hfi, hsb] at hsa
  obtain rfl := Except.ok.inj hsa
  have hF : a.filters = b.filters := by rw [hfa, hfb, hr, hs, hax]
  rw [hsg, hF] at hka
  obtain ⟨dim, js, dimH, cells, slices, hka, hkb⟩ := SKB.init_two hka hkb hin.2.2.1 hout.2.2.1
  have hri : a.rin.size = b.rin.size := hin.2.1.1
  have hro : a.rout.size = b.rout.size := hout.2.1.1
  rw [hri, hro] at hka
  have hA : a.rin.cobInv ≈ b.rin.cobInv := IsInv.unique (hai.congr hin.2.1 (Eqv.refl _)) hbi
  unfold StoredKey.build SKB.kbasis
  simp only [hka, hkb, hF]
  refine ExRel.bind (R := fun x y => x.outSize = y.outSize ∧ x.inSize = y.inSize ∧ x.attrs = y.attrs ∧ List.Forall₂ (SameK y.outSize y.inSize pts.length) x.sampled y.sampled) ?_ ?_
  · refine ExRel.bind (ExRel.refl (R := Eq) (fun _ => rfl) _) ?_
    rintro L _ rfl
    refine ExRel.bind (ExRel.mapE fun e _ => ExRel.mapE fun x _ => SKB.sample_congr dim b.rout.size b.rin.size js dimH cells slices b.filters hA hout.2.1 ?_ ?_ ?_ ?_ x e) ?_
    · exact hai.symm.1
    · exact hao.1
    · rw [← hri]; exact hai.2.1.symm
    · exact hao.1.symm.trans hro
    · intro M N h
      refine ⟨rfl, rfl, rfl, ?_⟩
      induction h with
      | nil => exact List.Forall₂.nil
      | @cons X Y _ _ h1 _ ih =>
        refine List.Forall₂.cons ?_ ih
        intro o ho i hi p hp
        simp only
        have hl := List.Forall₂.length_eq h1
        by_cases hpX : p < X.length
        · have hpY : p < Y.length := hl ▸ hpX
          rw [List.getElem?_eq_getElem hpX, List.getElem?_eq_getElem hpY]
          obtain ⟨e1, e2, e3⟩ := (List.forall₂_iff_get.1 h1).2 p hpX hpY
          exact e1.2.2 o i (by rw [e1.1]; exact ho.trans_eq e2.symm) (by rw [e1.2.1]; exact hi.trans_eq e3.symm)
        · rw [List.getElem?_eq_none (not_lt.1 hpX), List.getElem?_eq_none (not_lt.1 (hl ▸ hpX))]
  · rintro ⟨o, i, at1, K⟩ ⟨_, _, _, K'⟩ ⟨rfl, rfl, rfl, h⟩
    exact SBlock.init_congr h

theorem C66_built {size : J' → ℕ} {gen : Option (Option ℝ × ℤ) → FBasis (ℕ × ℕ) (ℝ × ℝ) (Option StAttr) → J' → J' → Except Err (IBasis (ℕ × ℕ) J' (Option StAttr))}
    {junk : ℕ → ℝ} (hist : List (ExpCall H J')) (c : ExpCall H J') (hb : ∀ b ∈ c :: hist, b.basis.Built size gen junk) (hax : ∀ b ∈ hist, b.basis.PyEq c.basis → b.basis.axis = c.basis.axis ∧ b.basis.filt = c.basis.filt)
    (hi : ∀ b ∈ c :: hist, IsInv b.basis.rin.cob b.basis.rin.cobInv ∧ IsInv b.basis.rout.cob b.basis.rout.cobInv) :
    SameBlocks c.points.length ((Stored.run [] hist).expansion c).1 (Stored.expansion [] { c with recompute := true }).1 := by
  refine C66_reuse hist c fun b hbm m m' _ _ hE => ?_
  obtain ⟨hE, hm, hp⟩ := hE
  simp only at hE hm hp
  rw [hm, hp]
  have hbm' := List.mem_cons_of_mem c hbm
  exact StoredKey.build_same (hb b hbm') (hb c (by simp)) (hax b hbm hE).1 (hax b hbm hE).2 hE (hi b hbm').1 (hi c (by simp)).1 (hi b hbm').2 m' c.points

theorem PlaneBasis.subgroup_built {sg : Option ℝ × ℤ} {K : KGroup H J'} {res : ℕ × ℕ → Rep H J'} {rin rout : Rep H J'} {radii sigma : List ℝ} {L : ℕ} {axis : ℝ} {filt : Option (ℕ × (ℕ × ℕ → ℕ → Bool))} {junk : ℕ → ℝ}
    {a : PlaneBasis H J'} (h : PlaneBasis.subgroup sg K res rin rout radii sigma L axis filt junk = .ok a)
    {gen : Option (Option ℝ × ℤ) → FBasis (ℕ × ℕ) (ℝ × ℝ) (Option StAttr) → J' → J' → Except Err (IBasis (ℕ × ℕ) J' (Option StAttr))}
    (hg : ∀ F, gen (some sg) F = RWE.init K F O2.table.size res) : a.Built K.T.size gen junk ∧ a.axis = axis ∧ a.filt = filt ∧ a.rin = rin ∧ a.rout = rout := by
  unfold PlaneBasis.subgroup kernelsO2Subgroup at h
  obtain ⟨r, hr, h⟩ := ExRel.bind_ok h
  split_ifs at hr
  obtain ⟨b, hb, hr⟩ := ExRel.bind_ok hr
  obtain ⟨s, hs, hr⟩ := ExRel.bind_ok hr
  cases hr
  cases h
  refine ⟨⟨b, hb, rfl, ?_⟩, rfl, rfl, rfl, rfl⟩
  show SKB.init K.T.size (0, 0) _ (gen (some sg) _) rin rout = .ok s
  rw [hg]
  exact hs

theorem PlaneBasis.same_filt {a b : PlaneBasis H J'} {axis : ℝ} (hE : a.PyEq b)
    (hf : ∀ t, a.filt.map Prod.fst = some t → b.filt.map Prod.fst = some t → a.filt = b.filt ∧ a.axis = b.axis) (ha : a.filt = none → a.axis = axis) (hb : b.filt = none → b.axis = axis) :
    a.axis = b.axis ∧ a.filt = b.filt := by
  have h := hE.2.1.2.2
  cases hx : a.filt.map Prod.fst with
  | none =>
    rw [hx] at h
    have h1 := Option.map_eq_none_iff.1 hx
    have h2 := Option.map_eq_none_iff.1 h.symm
    exact ⟨(ha h1).trans (hb h2).symm, h1.trans h2.symm⟩
  | some t =>
    rw [hx] at h
    exact (hf t hx h.symm).symm

/-- The arguments of the generators of kernel bases. -/
structure PlaneArgs (H J' : Type) where
  rin : Rep H J'
  rout : Rep H J'
  radii : List ℝ
  sigma : List ℝ
  L : ℕ
  axis : ℝ
  filt : Option (ℕ × (ℕ × ℕ → ℕ → Bool))

/-- **C66** for subgroups of O(2): in every history of calls for bases with one axis (those with a filter may have any axis; `hf` says that a tensor belongs to one basis) (for several subgroups `sg`), a call returns the filters which it would compute.

The full statement would be for any axes; it is false, see `C66_axis_violated`. -/
theorem C66_subgroup_partial (size : J' → ℕ) (K : Option ℝ × ℤ → KGroup H J') (hK : ∀ sg, (K sg).T.size = size) (res : Option ℝ × ℤ → ℕ × ℕ → Rep H J') (axis : ℝ) (junk : ℕ → ℝ)
    (hist : List (ExpCall H J')) (c : ExpCall H J')
    (hf : ∀ b ∈ c :: hist, ∀ b' ∈ c :: hist, ∀ t, b.basis.filt.map Prod.fst = some t → b'.basis.filt.map Prod.fst = some t →
      b.basis.filt = b'.basis.filt ∧ b.basis.axis = b'.basis.axis)
    (hb : ∀ b ∈ c :: hist, ∃ (sg : Option ℝ × ℤ) (A : PlaneArgs H J'), PlaneBasis.subgroup sg (K sg) (res sg) A.rin A.rout A.radii A.sigma A.L A.axis A.filt junk = .ok b.basis ∧ (A.filt = none → A.axis = axis) ∧
      IsInv A.rin.cob A.rin.cobInv ∧ IsInv A.rout.cob A.rout.cobInv) :
    SameBlocks c.points.length ((Stored.run [] hist).expansion c).1 (Stored.expansion [] { c with recompute := true }).1 := by
  let gen : Option (Option ℝ × ℤ) → FBasis (ℕ × ℕ) (ℝ × ℝ) (Option StAttr) → J' → J' → Except Err (IBasis (ℕ × ℕ) J' (Option StAttr)) :=
    fun sg F => RWE.init (K (sg.getD (none, 0))) F O2.table.size (res (sg.getD (none, 0)))
  have key : ∀ b ∈ c :: hist, b.basis.Built size gen junk ∧ (b.basis.filt = none → b.basis.axis = axis) ∧ IsInv b.basis.rin.cob b.basis.rin.cobInv ∧ IsInv b.basis.rout.cob b.basis.rout.cobInv := by
    intro b hbm
    obtain ⟨sg, A, h, h0, h1, h2⟩ := hb b hbm
    obtain ⟨h3, h4, h7, h5, h6⟩ := PlaneBasis.subgroup_built (gen := gen) h fun F => rfl
    rw [h5, h6, h4, h7]
    exact ⟨hK sg ▸ h3, h0, h1, h2⟩
  exact C66_built hist c (fun b hbm => (key b hbm).1) (fun b hbm hE => PlaneBasis.same_filt hE (hf b (List.mem_cons_of_mem _ hbm) c (by simp))
    (key b (List.mem_cons_of_mem _ hbm)).2.1 (key c (by simp)).2.1) fun b hbm => (key b hbm).2.2

end

theorem PlaneBasis.o2_built {K : KGroup O2.Elem (ℕ × ℕ)} {rin rout : Rep O2.Elem (ℕ × ℕ)} {radii sigma : List ℝ} {L : ℕ} {axis : ℝ} {filt : Option (ℕ × (ℕ × ℕ → ℕ → Bool))} {junk : ℕ → ℝ}
    {a : PlaneBasis O2.Elem (ℕ × ℕ)} (h : PlaneBasis.o2 K rin rout radii sigma L axis filt junk = .ok a) :
    a.Built K.T.size (fun _ F => WE.init K F) junk ∧ a.axis = axis ∧ a.filt = filt ∧ a.rin = rin ∧ a.rout = rout := by
  unfold PlaneBasis.o2 kernelsO2 at h
  obtain ⟨r, hr, h⟩ := ExRel.bind_ok h
  split_ifs at hr
  obtain ⟨b, hb, hr⟩ := ExRel.bind_ok hr
  obtain ⟨s, hs, hr⟩ := ExRel.bind_ok hr
  cases hr
  cases h
  exact ⟨⟨b, hb, rfl, hs⟩, rfl, rfl, rfl, rfl⟩

/-- **C66** for O(2): in every history of calls for bases with one axis (those with a filter may have any axis; `hf` says that a tensor belongs to one basis), a call returns the filters which it would compute.

The full statement would be for any axes; it is false, see `C66_axis_violated`. -/
theorem C66_o2_partial (K : KGroup O2.Elem (ℕ × ℕ)) (axis : ℝ) (junk : ℕ → ℝ) (hist : List (ExpCall O2.Elem (ℕ × ℕ))) (c : ExpCall O2.Elem (ℕ × ℕ))
    (hf : ∀ b ∈ c :: hist, ∀ b' ∈ c :: hist, ∀ t, b.basis.filt.map Prod.fst = some t → b'.basis.filt.map Prod.fst = some t →
      b.basis.filt = b'.basis.filt ∧ b.basis.axis = b'.basis.axis)
    (hb : ∀ b ∈ c :: hist, ∃ A : PlaneArgs O2.Elem (ℕ × ℕ), PlaneBasis.o2 K A.rin A.rout A.radii A.sigma A.L A.axis A.filt junk = .ok b.basis ∧ (A.filt = none → A.axis = axis) ∧
      IsInv A.rin.cob A.rin.cobInv ∧ IsInv A.rout.cob A.rout.cobInv) :
    SameBlocks c.points.length ((Stored.run [] hist).expansion c).1 (Stored.expansion [] { c with recompute := true }).1 := by
  have key : ∀ b ∈ c :: hist, b.basis.Built K.T.size (fun _ F => WE.init K F) junk ∧ (b.basis.filt = none → b.basis.axis = axis) ∧ IsInv b.basis.rin.cob b.basis.rin.cobInv ∧
      IsInv b.basis.rout.cob b.basis.rout.cobInv := by
    intro b hbm
    obtain ⟨A, h, h0, h1, h2⟩ := hb b hbm
    obtain ⟨h3, h4, h7, h5, h6⟩ := PlaneBasis.o2_built h
    rw [h5, h6, h4, h7]
    exact ⟨h3, h0, h1, h2⟩
  exact C66_built hist c (fun b hbm => (key b hbm).1) (fun b hbm hE => PlaneBasis.same_filt hE (hf b (List.mem_cons_of_mem _ hbm) c (by simp))
    (key b (List.mem_cons_of_mem _ hbm)).2.1 (key c (by simp)).2.1) fun b hbm => (key b hbm).2.2

/-! ## Two axes -/


noncomputable def demoShells : Shells := ⟨.circ, 1, 1, none, none, none, [((0, 0), 1), ((1, 1), 1)], 0⟩
noncomputable def demoFilters (axis : ℝ) (junk : ℕ → ℝ) := circularBasis junk demoShells [1] [1] axis
noncomputable def demoIn : Rep O2.Elem (ℕ × ℕ) := irrepRep O2.table "irrep_0,0" ∅ (0, 0)
noncomputable def demoOut : Rep O2.Elem (ℕ × ℕ) := irrepRep O2.table "irrep_1,1" ∅ (1, 1)

theorem demoShells_init : Shells.init ShellKind.circ O2.table.size 1 1 none = .ok demoShells := rfl

theorem demoF_iter (axis junk) : (demoFilters axis junk).attrsIter (1, 1) = .ok [some ⟨1, 0, (1, 1), some 0⟩] := rfl
theorem demoWE (axis junk) : ∃ b, WE.init demoO2 (demoFilters axis junk) (0, 0) (1, 1) = .ok b ∧ b.dim = 1 ∧ b.js = [(1, 1)] ∧ b.dimH (1, 1) = 1 ∧
   b.block (1,1) = WE.block demoO2 (1,1) (0,0) (1,1) 1 1 ∧ b.attrsIter (1, 1) = WE.attrsIter demoO2 (demoFilters axis junk) [((1, 1), 0)] b.dimH (fun _ => 1) (1, 1) := by
  refine ⟨_, rfl, rfl, rfl, rfl, rfl, rfl⟩
theorem demoWE' (axis junk) : ∃ b, WE.init demoO2 (demoFilters axis junk) (0, 0) (1, 1) = .ok b ∧ b.dim = 1 ∧ b.js = [(1, 1)] ∧ b.dimH (1, 1) = 1 ∧
   b.block (1,1) = WE.block demoO2 (1,1) (0,0) (1,1) 1 1 ∧ b.attrsIter (1, 1) = .ok [⟨0, (1, 1), none, 0, 0, 0, 0, some ⟨1, 0, (1, 1), some 0⟩⟩] := by
  obtain ⟨b, h1, h2, h3, h4, h5, h6⟩ := demoWE axis junk
  refine ⟨b, h1, h2, h3, h4, h5, ?_⟩
  rw [h6, WE.attrsIter, h4, if_neg one_ne_zero, demoF_iter]
  simp [dictGet, FType.lookupLast, bind, Except.bind, WE.attrsLoop, demoO2, IrrType.sumsq]

theorem demoSKB (axis : ℝ) (junk : ℕ → ℝ) : ∃ b s, SKB.init O2.table.size (0, 0) (demoFilters axis junk) (WE.init demoO2 (demoFilters axis junk)) demoIn demoOut = .ok s ∧
    b.js = [(1, 1)] ∧ b.block (1, 1) = WE.block demoO2 (1, 1) (0, 0) (1, 1) 1 1 ∧
    s.cells = [⟨0, 0, 0, 1, 0, 2, b⟩] ∧ s.dim = 1 ∧ s.rows = 2 ∧ s.cols = 1 ∧
    s.iter = .ok [⟨0, (1, 1), 0, 0, 0, ⟨0, (1, 1), none, 0, 0, 0, 0, some ⟨1, 0, (1, 1), some 0⟩⟩⟩] ∧
    ∀ x, ∃ M, SKB.sample O2.table.size (demoFilters axis junk) s x 0 = .ok M ∧ ∀ o < 2, M.get o 0 = (demoFilters axis junk).sample x (1 + o) := by
  obtain ⟨b, h1, h2, h3, h4, h5, h6⟩ := demoWE' axis junk
  obtain ⟨s, hs⟩ : ∃ s, SKB.init O2.table.size (0, 0) (demoFilters axis junk) (WE.init demoO2 (demoFilters axis junk)) demoIn demoOut = .ok s := ⟨_, rfl⟩
  have hs' := hs
  unfold SKB.init at hs'
  obtain ⟨cells, hc, hs'⟩ := ExRel.bind_ok hs'
  have hcells : cells = [⟨0, 0, 0, 1, 0, 2, b⟩] := by
    have : SKB.cellsIn O2.table.size (WE.init demoO2 (demoFilters axis junk)) demoOut.irreps 0 0 demoIn.irreps =
      SKB.cellsIn O2.table.size (WE.init demoO2 (demoFilters axis junk)) [(1, 1)] 0 0 [(0, 0)] := rfl
    rw [this] at hc
    simp only [SKB.cellsIn, SKB.cellsOut, h1, SKB.tryBasis, bind, Except.bind, Except.ok.injEq, List.append_nil] at hc
    exact hc.symm
  subst hcells
  simp only [List.map_cons, List.map_nil, List.sum_cons, List.sum_nil, h2, add_zero, if_neg one_ne_zero] at hs'
  have hs1 := Except.ok.inj hs'
  have e1 : s.cells = [⟨0, 0, 0, 1, 0, 2, b⟩] := by rw [← hs1]
  have e2 : s.js = [(1, 1)] := by
    rw [← hs1, show (demoFilters axis junk).js = [((0, 0), 1), ((1, 1), 1)] from rfl]
    simp [h3, SKB.orderJs]
  have e3 : s.dim = 1 := by rw [← hs1]
  have e4 : s.rows = 2 := by rw [← hs1]; rfl
  have e5 : s.cols = 1 := by rw [← hs1]; rfl
  have e6 : s.slices = [(⟨0, 0, 0, 1, 0, 2, b⟩, [((1, 1), 0, 1)])] := by rw [← hs1]; simp [SKB.slicesLoop, SKB.cellSlices, h3, h4]
  have e7 : s.dimH (1, 1) = 1 := by rw [← hs1]; simp [SKB.dimHarm, h3, h4]
  have e8 : s.Ainv = eye 1 := by rw [← hs1]; rfl
  have e9 : s.B = eye 2 := by rw [← hs1]; rfl
  refine ⟨b, s, hs, h3, h5, e1, e3, e4, e5, ?_, ?_⟩
  · unfold SKB.iter
    simp [e1, e2, e3, SKB.iterJ, mapE, bind, Except.bind, h6]
  · intro x
    have hd : ∃ Y, dictGet ((demoFilters axis junk).asDict O2.table.size x) (1, 1) = .ok Y ∧ ∀ c < 2, Y 0 c = (demoFilters axis junk).sample x (1 + c) := by
      refine ⟨_, rfl, fun c hc => ?_⟩
      show (demoFilters axis junk).sample x _ = _
      congr 1
      simp [O2.table, O2.irrepSize]
    obtain ⟨Y, hY, hY'⟩ := hd
    refine ⟨SKB.cobApply (eye 1) (eye 2) ⟨2, 1, SKB.writeBlock (fun _ _ _ _ => 0) (⟨0, 0, 0, 1, 0, 2, b⟩ : Cell (ℕ × ℕ) (ℕ × ℕ) (Option StAttr)) (1, 1) 0 1 (b.block (1, 1) Y) (1, 1) 0⟩, ?_, ?_⟩
    · unfold SKB.sample
      simp [e2, e4, e5, e6, e7, e8, e9, SKB.directSum, SKB.writeCell, SKB.entry, hY, bind, Except.bind]
    · intro o ho
      have hA : (eye 1 : NpMat ℝ) ≈ eye (eye 1 : NpMat ℝ).rows := Eqv.refl _
      have hB : (eye 2 : NpMat ℝ) ≈ eye (eye 2 : NpMat ℝ).rows := Eqv.refl _
      rw [SKB.cobApply, if_neg (by tauto), if_neg (by tauto), if_neg (by tauto)]
      simp only
      rw [SKB.writeBlock, if_pos (by simpa using ho), h5, ← hY' o ho]
      simp only [Nat.sub_zero]
      have hE : (demoO2.endo (1, 1)).getD (0 / 1 / 1) (zeros 0 0) = eye 2 := rfl
      rw [WE.block, hE]
      show ∑ c ∈ Finset.range 2, (∑ i ∈ Finset.range 2, (if o = i then 1 else 0) * (eye 2 : NpMat ℝ).get c i) * Y 0 c = _
      interval_cases o <;> simp [Finset.sum_range_succ, eye]

theorem demoF_sample (axis : ℝ) (junk : ℕ → ℝ) (φ : ℝ) {o : ℕ} (ho : o < 2) :
    (demoFilters axis junk).sample (cos φ, sin φ) (1 + o) = if o = 0 then cos (φ - axis) else sin (φ - axis) := by
  have hn : norm2 (cos φ, sin φ) = 1 := by
    have := norm2_mk 1 φ
    simpa using this
  obtain ⟨-, h⟩ := Shells.C40_steerable ShellKind.circ_ok demoShells_init 1 le_rfl
  obtain ⟨a, -, -, -, -, ha, -, -, h⟩ := h 0 (by decide)
  have ha0 : a.radialIdx = 0 := by omega
  have h1 := h o (by simpa [ShellKind.circ] using ho) junk (gaussian [1] [1] (norm2 (cos φ, sin φ))) (circularAt axis (cos φ, sin φ))
  have h2 := circularAt_polar axis 1 φ zero_le_one 1 o (by simpa [ShellKind.circ] using ho)
  rw [one_mul, one_mul, if_neg one_ne_zero, if_pos (by norm_num)] at h2
  rw [h2, ha0, hn] at h1
  have e : ((demoShells.js.take 1).map fun e => O2.irrepSize e.1.1 e.1.2 * e.2).sum + (0 * ShellKind.circ.dim 1 + o) = 1 + o := by
    simp [demoShells, O2.irrepSize]
  rw [e] at h1
  refine Eq.trans (b := demoShells.sample junk (gaussian [1] [1] 1) (circularAt axis (cos φ, sin φ)) (1 + o)) ?_ ?_
  · show demoShells.sample junk (gaussian [1] [1] (norm2 (cos φ, sin φ))) _ _ = _
    rw [hn]
  · rw [h1]
    simp [gaussian]

theorem demo_o2 (axis : ℝ) (junk : ℕ → ℝ) : ∃ s, SKB.init O2.table.size (0, 0) (demoFilters axis junk) (WE.init demoO2 (demoFilters axis junk)) demoIn demoOut = .ok s ∧
    PlaneBasis.o2 demoO2 demoIn demoOut [1] [1] 1 axis none junk = .ok ⟨none, [1], [1], 1, axis, none, demoIn, demoOut, s, demoFilters axis junk⟩ := by
  obtain ⟨_, s, hs, -⟩ := demoSKB axis junk
  refine ⟨s, hs, ?_⟩
  have h : kernelsO2 demoO2 demoIn demoOut [1] [1] 1 axis none junk = .ok (s, demoFilters axis junk) := by
    unfold kernelsO2
    rw [if_neg (by simp), if_neg (by simp)]
    show (Shells.init ShellKind.circ O2.table.size 1 1 none >>= fun b => (SKB.init demoO2.T.size (0, 0) (circularBasis junk b [1] [1] axis)
      (WE.init demoO2 (circularBasis junk b [1] [1] axis)) demoIn demoOut >>= fun s => Except.ok (s, circularBasis junk b [1] [1] axis))) = _
    rw [demoShells_init]
    show (SKB.init O2.table.size (0, 0) (demoFilters axis junk) (WE.init demoO2 (demoFilters axis junk)) demoIn demoOut >>= fun s => Except.ok (s, demoFilters axis junk)) = _
    rw [hs]
    rfl
  unfold PlaneBasis.o2
  rw [Option.map_none, h]
  rfl

/-- The attributes of the single filter. -/
def demoAttr : SAttr (ℕ × ℕ) (ℕ × ℕ) (Option StAttr) := ⟨0, (1, 1), 0, 0, 0, ⟨0, (1, 1), none, 0, 0, 0, 0, some ⟨1, 0, (1, 1), some 0⟩⟩⟩

/-- The two points which the reflection of the second space exchanges. -/
noncomputable def demoPts : List (ℝ × ℝ) := [(1, 0), (-1, 0)]

/-- The sampled filter. -/
theorem demo_build (axis : ℝ) (junk : ℕ → ℝ) (s : SKB (ℕ × ℕ) (ℕ × ℕ) (Option StAttr))
    (hs : SKB.init O2.table.size (0, 0) (demoFilters axis junk) (WE.init demoO2 (demoFilters axis junk)) demoIn demoOut = .ok s) :
    ∃ v K, StoredKey.build ⟨⟨none, [1], [1], 1, axis, none, demoIn, demoOut, s, demoFilters axis junk⟩, [true], demoPts⟩ = .ok v ∧ v.sampled = [K] ∧
      K 0 0 0 = cos axis ∧ K 1 0 0 = -sin axis ∧ K 0 0 1 = -cos axis ∧ K 1 0 1 = sin axis := by
  obtain ⟨b, s', hs', h3, h5, e1, e3, e4, e5, e6, e7⟩ := demoSKB axis junk
  rw [hs] at hs'
  obtain rfl := Except.ok.inj hs'
  obtain ⟨M, hM, hM'⟩ := e7 (1, 0)
  obtain ⟨N, hN, hN'⟩ := e7 (-1, 0)
  have m : ∀ o < 2, M.get o 0 = if o = 0 then cos (0 - axis) else sin (0 - axis) := fun o ho => by
    rw [hM' o ho, ← demoF_sample axis junk 0 ho, cos_zero, sin_zero]
  have n : ∀ o < 2, N.get o 0 = if o = 0 then cos (π - axis) else sin (π - axis) := fun o ho => by
    rw [hN' o ho, ← demoF_sample axis junk π ho, cos_pi, sin_pi]
  have m0 : M.get 0 0 = cos axis := by rw [m 0 (by omega)]; simp
  have m1 : M.get 1 0 = -sin axis := by rw [m 1 (by omega)]; simp
  have n0 : N.get 0 0 = -cos axis := by rw [n 0 (by omega)]; simp [cos_pi_sub]
  have n1 : N.get 1 0 = sin axis := by rw [n 1 (by omega)]; simp [sin_pi_sub]
  let K : ℕ → ℕ → ℕ → ℝ := fun a c p => (([M, N] : List (NpMat ℝ))[p]?.getD (zeros 0 0)).get a c
  have hsq : SBlock.sq 2 1 2 K = 2 := by
    simp only [SBlock.sq, Finset.sum_range_succ, Finset.sum_range_zero, zero_add]
    show M.get 0 0 ^ 2 + N.get 0 0 ^ 2 + (M.get 1 0 ^ 2 + N.get 1 0 ^ 2) = 2
    rw [m0, m1, n0, n1]
    nlinarith [sin_sq_add_cos_sq axis]
  have hnorm : SBlock.normalize 2 1 2 2 K = K := by
    unfold SBlock.normalize
    rw [hsq]
    funext a c p
    norm_num
  refine ⟨⟨2, 1, [SAttr.toAttr 2 demoAttr], [true], [K]⟩, K, ?_, rfl, m0, m1, n0, n1⟩
  unfold StoredKey.build SKB.kbasis
  simp only [e6, e3, e4, e5, bind, Except.bind, List.range_one, mapE, demoPts, hM, hN, List.map_cons, List.map_nil, List.length_cons, List.length_nil, zero_add]
  show SBlock.init 2 ⟨2, 1, [SAttr.toAttr 2 demoAttr], [K]⟩ [true] = _
  unfold SBlock.init
  rw [if_neg (by simp), if_neg (by simp), if_neg (by simp)]
  have hz : List.zipWith (fun (a : Attr (SAttr (ℕ × ℕ) (ℕ × ℕ) (Option StAttr))) K => SBlock.normalize 2 1 2 a.shape0 K)
      [SAttr.toAttr 2 demoAttr] [K] = [K] := congrArg (fun k => [k]) hnorm
  simp only [hz]
  have hd : (1e-2 : ℝ) < SBlock.sq 2 1 2 K := by rw [hsq]; norm_num
  simp [hd]

/-- A filter which rejects the elements of order 1 rejects the single element. -/
example (axis : ℝ) (junk : ℕ → ℝ) : ∃ b, PlaneBasis.o2 demoO2 demoIn demoOut [1] [1] 1 axis none junk = .ok b ∧
    (Stored.expansion [] ⟨b, demoPts, some fun a => a.data.j ≠ (1, 1), true⟩).1 = (do
      let kb ← b.skb.kbasis O2.table.size b.filters demoPts
      SBlock.ofFilter demoPts.length kb (some fun a => a.data.j ≠ (1, 1))) := by
  obtain ⟨s, hs, h⟩ := demo_o2 axis junk
  obtain ⟨b, s', hs', h3, h5, e1, e3, e4, e5, e6, e7⟩ := demoSKB axis junk
  rw [hs] at hs'
  obtain rfl := Except.ok.inj hs'
  exact ⟨_, h, C66_mask ⟨_, demoPts, some fun a => a.data.j ≠ (1, 1), false⟩ e6 (by simp [e3, e4, e5])⟩

/-- The kernel constraint for the reflection `(1, 0)`, between the two points. -/
def ReflectionConstraint (K : ℕ → ℕ → ℕ → ℝ) : Prop :=
  ∀ o < 2, K o 0 1 * (demoIn.mat (1, 0)).get 0 0 = ∑ o' ∈ Finset.range 2, (demoOut.mat (1, 0)).get o o' * K o' 0 0

/-- **C66** is violated when the axes differ: after a call for the axis `0`, the call for the axis `π/2` (with everything else equal, as when `flipRot2dOnR2(-1, axis=…)` is used with two axes)
returns the filters of the axis `0`.  The computed filters satisfy the kernel constraint for the reflection, which exchanges the two points; the returned ones do not. -/
theorem C66_axis_violated (junk : ℕ → ℝ) : ∃ (a b : PlaneBasis O2.Elem (ℕ × ℕ)) (R : Rep O2.Elem (ℕ × ℕ)) (v w : PlaneBlock (ℕ × ℕ)) (K W : ℕ → ℕ → ℕ → ℝ),
    PlaneBasis.o2 demoO2 demoIn demoOut [1] [1] 1 0 none junk = .ok a ∧ PlaneBasis.o2 demoO2 demoIn demoOut [1] [1] 1 (π / 2) none junk = .ok b ∧
    circularAction [] "StandardAction" (π / 2) = .ok R ∧ moveBy (R.mat (1, 0)) (1, 0) = (-1, 0) ∧ O2.IsElement (1, 0) ∧
    ((Stored.run [] [(⟨a, [(1, 0), (-1, 0)], none, false⟩ : ExpCall O2.Elem (ℕ × ℕ))]).expansion ⟨b, [(1, 0), (-1, 0)], none, false⟩).1 = .ok v ∧
    (Stored.expansion [] ⟨b, [(1, 0), (-1, 0)], none, false⟩).1 = .ok w ∧
    v.sampled = [K] ∧ w.sampled = [W] ∧ ReflectionConstraint W ∧ ¬ ReflectionConstraint K := by
  obtain ⟨s0, hs0, h0⟩ := demo_o2 0 junk
  obtain ⟨s1, hs1, h1⟩ := demo_o2 (π / 2) junk
  obtain ⟨v, K, hv, hvK, k00, k10, k01, k11⟩ := demo_build 0 junk s0 hs0
  obtain ⟨w, W, hw, hwW, w00, w10, w01, w11⟩ := demo_build (π / 2) junk s1 hs1
  obtain ⟨R, hR, -, -, -, hRr⟩ := C39_action [] "StandardAction" (by simp) (π / 2)
  have hel : O2.IsElement (1, 0) := ⟨.inr rfl, le_rfl, by positivity⟩
  have hmv : moveBy (R.mat (1, 0)) (1, 0) = (-1, 0) := by
    have := hRr 0 1 0 hel
    simpa [mul_div_cancel₀] using this
  obtain ⟨b0, s0', hs0', q3, q5, e1, e3, e4, e5, e6, -⟩ := demoSKB 0 junk
  obtain ⟨b1, s1', hs1', r3, r5, f1, f3, f4, f5, f6, -⟩ := demoSKB (π / 2) junk
  rw [hs0] at hs0'
  rw [hs1] at hs1'
  obtain rfl := Except.ok.inj hs0'
  obtain rfl := Except.ok.inj hs1'
  have hE : StoredKey.PyEq ⟨⟨none, [1], [1], 1, 0, none, demoIn, demoOut, s0, demoFilters 0 junk⟩, [true], demoPts⟩
      ⟨⟨none, [1], [1], 1, π / 2, none, demoIn, demoOut, s1, demoFilters (π / 2) junk⟩, [true], demoPts⟩ := by
    refine ⟨⟨rfl, ⟨⟨rfl, rfl⟩, rfl, rfl⟩, ⟨rfl, Eqv.refl _, rfl, rfl⟩, ⟨rfl, Eqv.refl _, rfl, rfl⟩, ?_⟩, rfl, rfl⟩
    simp only [e1, f1]
    refine List.Forall₂.cons ⟨⟨rfl, rfl⟩, q3.trans r3.symm, fun j hj => ?_⟩ List.Forall₂.nil
    simp only [q3, List.mem_singleton] at hj
    rw [hj]
    exact q5.trans r5.symm
  have hm0 : PlaneBasis.mask (⟨none, [1], [1], 1, 0, none, demoIn, demoOut, s0, demoFilters 0 junk⟩ : PlaneBasis O2.Elem (ℕ × ℕ)) none = .ok [true] := by simp [PlaneBasis.mask, e3]
  have hm1 : PlaneBasis.mask (⟨none, [1], [1], 1, π / 2, none, demoIn, demoOut, s1, demoFilters (π / 2) junk⟩ : PlaneBasis O2.Elem (ℕ × ℕ)) none = .ok [true] := by simp [PlaneBasis.mask, f3]
  have hr : Stored.run [] [(⟨⟨none, [1], [1], 1, 0, none, demoIn, demoOut, s0, demoFilters 0 junk⟩, demoPts, none, false⟩ : ExpCall O2.Elem (ℕ × ℕ))] =
      [(⟨⟨none, [1], [1], 1, 0, none, demoIn, demoOut, s0, demoFilters 0 junk⟩, [true], demoPts⟩, v)] := by
    simp [Stored.run, Stored.expansion, hm0, Stored.get, Stored.find, hv]
  refine ⟨_, _, R, v, w, K, W, h0, h1, hR, hmv, hel, ?_, ?_, hvK, hwW, ?_, ?_⟩
  · show ((Stored.run [] [(⟨⟨none, [1], [1], 1, 0, none, demoIn, demoOut, s0, demoFilters 0 junk⟩, demoPts, none, false⟩ : ExpCall O2.Elem (ℕ × ℕ))]).expansion
      ⟨⟨none, [1], [1], 1, π / 2, none, demoIn, demoOut, s1, demoFilters (π / 2) junk⟩, demoPts, none, false⟩).1 = _
    rw [hr]
    simp [Stored.expansion, hm1, Stored.get, Stored.find, hE]
  · show (Stored.expansion [] (⟨⟨none, [1], [1], 1, π / 2, none, demoIn, demoOut, s1, demoFilters (π / 2) junk⟩, demoPts, none, false⟩ : ExpCall O2.Elem (ℕ × ℕ))).1 = _
    simp [Stored.expansion, hm1, Stored.get, Stored.find, hw]
  · intro o ho
    show W o 0 1 * (O2.irrepMat 0 0 (1, 0)).get 0 0 = ∑ o' ∈ Finset.range 2, (O2.irrepMat 1 1 (1, 0)).get o o' * W o' 0 0
    interval_cases o <;> simp [Finset.sum_range_succ, O2.irrepMat, eye, psichi, of2, sgnR, w00, w10, w01, w11]
  · intro h
    have : K 0 0 1 * (O2.irrepMat 0 0 (1, 0)).get 0 0 = ∑ o' ∈ Finset.range 2, (O2.irrepMat 1 1 (1, 0)).get 0 o' * K o' 0 0 := h 0 (by omega)
    simp [Finset.sum_range_succ, O2.irrepMat, eye, psichi, of2, sgnR, k00, k10, k01, k11] at this
    norm_num at this

/-- A history in which the second call finds the filters of the first: it meets the hypotheses of `C66_o2_partial`. -/
example (axis : ℝ) (junk : ℕ → ℝ) : ∃ a, PlaneBasis.o2 demoO2 demoIn demoOut [1] [1] 1 axis none junk = .ok a ∧
    SameBlocks 2 ((Stored.run [] [(⟨a, demoPts, none, false⟩ : ExpCall O2.Elem (ℕ × ℕ))]).expansion ⟨a, demoPts, none, false⟩).1
      (Stored.expansion [] (⟨a, demoPts, none, true⟩ : ExpCall O2.Elem (ℕ × ℕ))).1 := by
  obtain ⟨s, -, h⟩ := demo_o2 axis junk
  refine ⟨_, h, C66_o2_partial demoO2 axis junk [⟨_, demoPts, none, false⟩] ⟨_, demoPts, none, false⟩ (fun b hb b' hb' t ht => ?_) fun b hb => ?_⟩
  · simp only [List.mem_cons, List.not_mem_nil, or_false, or_self] at hb
    rw [hb] at ht
    simp at ht
  refine ⟨⟨demoIn, demoOut, [1], [1], 1, axis, none⟩, ?_, fun _ => rfl, IsInv.eye 1, IsInv.eye 2⟩
  simp only [List.mem_cons, List.not_mem_nil, or_false, or_self] at hb
  rw [hb]
  exact h

/-- The basis with a filter which accepts the elements of order 1 only. -/
theorem demo_filtered (axis : ℝ) (t : ℕ) (junk : ℕ → ℝ) : ∃ a, PlaneBasis.o2 demoO2 demoIn demoOut [1] [1] 1 axis (some (t, fun j _ => decide (j = (1, 1)))) junk = .ok a ∧
    a.filt.map Prod.fst = some t ∧ a.axis = axis := by
  have h : ∃ r, kernelsO2 demoO2 demoIn demoOut [1] [1] 1 axis (some fun j _ => decide (j = (1, 1))) junk = .ok r := by
    unfold kernelsO2
    rw [if_neg (by simp), if_neg (by simp)]
    exact ⟨_, rfl⟩
  obtain ⟨r, h⟩ := h
  refine ⟨⟨none, [1], [1], 1, axis, some (t, fun j _ => decide (j = (1, 1))), demoIn, demoOut, r.1, r.2⟩, ?_, rfl, rfl⟩
  unfold PlaneBasis.o2
  rw [Option.map_some, h]
  rfl

/-- A history with a basis without filter and one with a filter (whose tensor has the address 7) and another axis; the last call finds the filters of the second. -/
example (junk : ℕ → ℝ) : ∃ a b, PlaneBasis.o2 demoO2 demoIn demoOut [1] [1] 1 0 none junk = .ok a ∧
    PlaneBasis.o2 demoO2 demoIn demoOut [1] [1] 1 (π / 2) (some (7, fun j _ => decide (j = (1, 1)))) junk = .ok b ∧
    SameBlocks 2 ((Stored.run [] [(⟨a, demoPts, none, false⟩ : ExpCall O2.Elem (ℕ × ℕ)), ⟨b, demoPts, none, false⟩]).expansion ⟨b, demoPts, none, false⟩).1
      (Stored.expansion [] (⟨b, demoPts, none, true⟩ : ExpCall O2.Elem (ℕ × ℕ))).1 := by
  obtain ⟨s, -, ha⟩ := demo_o2 0 junk
  obtain ⟨b, hb, ht, hx⟩ := demo_filtered (π / 2) 7 junk
  refine ⟨_, b, ha, hb, C66_o2_partial demoO2 0 junk [⟨_, demoPts, none, false⟩, ⟨b, demoPts, none, false⟩] ⟨b, demoPts, none, false⟩ (fun c hc c' hc' t h h' => ?_) fun c hc => ?_⟩
  · simp only [List.mem_cons, List.not_mem_nil, or_false] at hc hc'
    have e : ∀ d : ExpCall O2.Elem (ℕ × ℕ), (d = ⟨b, demoPts, none, false⟩ ∨ d = ⟨⟨none, [1], [1], 1, 0, none, demoIn, demoOut, s, demoFilters 0 junk⟩, demoPts, none, false⟩ ∨
        d = ⟨b, demoPts, none, false⟩) → d.basis.filt.map Prod.fst = some t → d.basis = b := by
      rintro d (rfl | rfl | rfl) h
      · rfl
      · simp at h
      · rfl
    rw [e c hc h, e c' hc' h']
    exact ⟨rfl, rfl⟩
  · simp only [List.mem_cons, List.not_mem_nil, or_false] at hc
    rcases hc with rfl | rfl | rfl
    · exact ⟨⟨demoIn, demoOut, [1], [1], 1, π / 2, some (7, _)⟩, hb, fun h => by simp at h, IsInv.eye 1, IsInv.eye 2⟩
    · exact ⟨⟨demoIn, demoOut, [1], [1], 1, 0, none⟩, ha, fun _ => rfl, IsInv.eye 1, IsInv.eye 2⟩
    · exact ⟨⟨demoIn, demoOut, [1], [1], 1, π / 2, some (7, _)⟩, hb, fun h => by simp at h, IsInv.eye 1, IsInv.eye 2⟩

end Escnn
