import Verif.Props.C28_Modules

/-!
# C28: merging, multiple modules, and equivariance
-/

namespace Escnn

open NpMat

variable {B P S R C L G Id : Type} {T : IrrepTable G Id} {El : G → Prop} {op : G → G → G} {one : G} {sz : R → ℕ}

/-- `y` holds the channels of the tensors `os`, one after the other. -/
structure IsConcat (os : List (GTensor B P S R C)) (y : FTensor B P) : Prop where
  chans : y.chans = (os.map fun o => o.tensor.chans).sum
  data : ∀ (k : ℕ) (o : GTensor B P S R C), os[k]? = some o → ∀ b c p, c < o.tensor.chans →
    y.get b (((os.take k).map fun o => o.tensor.chans).sum + c) p = o.tensor.get b c p

theorem IsConcat.unique {os : List (GTensor B P S R C)} {y y' : FTensor B P} (h : IsConcat os y) (h' : IsConcat os y') : y ≈ y' := by
  refine ⟨h.chans.trans h'.chans.symm, fun b c p hc => ?_⟩
  rw [h.chans] at hc
  obtain ⟨k, r, o, h1, h2, rfl⟩ := exists_field (sz := fun o : GTensor B P S R C => o.tensor.chans) hc
  exact (h.data k r h1 b o p h2).trans (h'.data k r h1 b o p h2).symm

theorem IsConcat.congr {os os' : List (GTensor B P S R C)} {y y' : FTensor B P} (h : IsConcat os y) (h' : IsConcat os' y')
    (he : List.Forall₂ (fun o o' : GTensor B P S R C => o.tensor ≈ o'.tensor) os os') : y ≈ y' := by
  refine h.unique ⟨?_, fun k o hk b c p hc => ?_⟩
  · rw [h'.chans]
    clear h h'
    induction he with
    | nil => rfl
    | cons h1 _ ih => simp only [List.map_cons, List.sum_cons, ih, h1.1]
  · have hk' := (List.getElem?_eq_some_iff.1 hk).1
    have hk'' : k < os'.length := by rw [← he.length_eq]; exact hk'
    have e := (List.forall₂_iff_get.1 he).2 k hk' hk''
    simp only [List.get_eq_getElem] at e
    rw [(List.getElem?_eq_some_iff.1 hk).2] at e
    have hs : ((os.take k).map fun o => o.tensor.chans).sum = ((os'.take k).map fun o => o.tensor.chans).sum := by
      have he' := List.forall₂_take k he
      generalize os.take k = A at he'
      generalize os'.take k = A' at he'
      induction he' with
      | nil => rfl
      | cons h1 _ ih => simp only [List.map_cons, List.sum_cons, ih, h1.1]
    rw [hs, h'.data k os'[k] (List.getElem?_eq_getElem hk'') b c p (by rw [← e.1]; exact hc)]
    exact (e.2 b c p hc).symm

theorem IsConcat.chanCat (os : List (GTensor B P S R C)) : IsConcat os (GTensor.chanCat (os.map fun o => o.tensor)) := by
  induction os with
  | nil => exact ⟨rfl, fun k o h => by simp at h⟩
  | cons a os ih =>
    have e : GTensor.chanCat ((a :: os).map fun o => o.tensor) = GTensor.chanCat2 a.tensor (GTensor.chanCat (os.map fun o => o.tensor)) := rfl
    rw [e]
    refine ⟨by simp [GTensor.chanCat2, ih.chans], fun k o hk b c p hc => ?_⟩
    cases k with
    | zero =>
      simp only [List.getElem?_cons_zero, Option.some.injEq] at hk
      subst hk
      simp [GTensor.chanCat2, hc]
    | succ k =>
      simp only [GTensor.chanCat2, List.take_succ_cons, List.map_cons, List.sum_cons]
      rw [if_neg (by omega), Nat.add_assoc, Nat.add_sub_cancel_left]
      exact ih.data k o (by simpa using hk) b c p hc

/-! ## the merging loop -/

section merge

variable [LinearOrder L] [DecidableEq C]

/-- The outputs of the submodules. -/
def Outputs (d : List (L × GTensor B P S R C)) (ms : List (EMod B P S R C × List L)) (os : List (GTensor B P S R C)) : Prop :=
  List.Forall₂ (fun ml o => ∃ xs, List.Forall₂ (fun l x => FType.lookupLast d l = some x) ml.2 xs ∧ ml.1.forward xs = .ok o) ms os

/-- What every module of the library guarantees: its outputs have its output type, and `evaluate_output_shape` its size. -/
def EMod.Sound (sz : R → ℕ) (m : EMod B P S R C) : Prop :=
  ∀ xs o, m.forward xs = .ok o → o.type = m.outType ∧ o.tensor.chans = m.outType.size sz ∧
    m.outChans (xs.map fun x => x.tensor.chans) = .ok (m.outType.size sz)

theorem mapE_dictGet {d : List (L × GTensor B P S R C)} {ls : List L} {xs : List (GTensor B P S R C)} :
    mapE (dictGet d) ls = .ok xs ↔ List.Forall₂ (fun l x => FType.lookupLast d l = some x) ls xs := by
  rw [mapE_ok_iff]
  constructor <;> exact fun h => h.imp fun _ _ h => by simpa [dictGet_ok] using h

theorem loop_spec {d : List (L × GTensor B P S R C)} {ms : List (EMod B P S R C × List L)} {os : List (GTensor B P S R C)}
    (hs : ∀ m ∈ ms, m.1.Sound sz) (ho : Outputs d ms os) (c : C) : ∀ (out : FTensor B P) (last : ℕ) (o0 : Option (GTensor B P S R C)),
    (∀ o ∈ o0, o.coords = c) → (o0 = none → ∀ o ∈ os.head?, o.coords = c) →
    last + (ms.map fun m => m.1.outType.size sz).sum ≤ out.chans →
    ((∃ r, Merge.loop sz d out last o0 ms = .ok r) ↔ ∀ o ∈ os, o.coords = c) ∧
    ∀ r, Merge.loop sz d out last o0 ms = .ok r → r.1.chans = out.chans ∧ (∀ o ∈ r.2, o.coords = c) ∧ (ms ≠ [] → r.2 ≠ none) ∧
      (∀ b ch p, ch < last → r.1.get b ch p = out.get b ch p) ∧
      ∀ (k : ℕ) (o : GTensor B P S R C), os[k]? = some o → ∀ b ch p, ch < o.tensor.chans →
        r.1.get b (last + ((os.take k).map fun o => o.tensor.chans).sum + ch) p = o.tensor.get b ch p := by
  induction ho with
  | nil =>
    intro out last o0 h1 _ _
    refine ⟨by simp [Merge.loop], fun r hr => ?_⟩
    simp only [Merge.loop, Except.ok.injEq] at hr
    subst hr
    exact ⟨rfl, h1, by simp, fun _ _ _ _ => rfl, fun k o h => by simp at h⟩
  | cons h1 h2 ih =>
    rename_i ml o ms os
    intro out last o0 hc0 hc1 hle
    obtain ⟨xs, hx1, hx2⟩ := h1
    obtain ⟨hs1, hs2, hs3⟩ := hs ml (by simp) xs o hx2
    simp only [List.map_cons, List.sum_cons] at hle
    have hcd : (o0.getD o).coords = c := by
      cases o0 with
      | none => exact hc1 rfl o (by simp)
      | some o' => exact hc0 o' (by simp)
    have hset : setSlice out last (ml.1.outType.size sz) o.tensor = .ok
        ⟨out.chans, fun b ch p => if last ≤ ch ∧ ch < last + ml.1.outType.size sz then o.tensor.get b (ch - last) p else out.get b ch p⟩ := by
      unfold setSlice
      simp only
      rw [Nat.min_eq_left (by omega), Nat.min_eq_left (by omega), if_pos (by omega)]
    have hloop : Merge.loop sz d out last o0 (ml :: ms) = if (o0.getD o).coords = o.coords then
        Merge.loop sz d ⟨out.chans, fun b ch p => if last ≤ ch ∧ ch < last + ml.1.outType.size sz then o.tensor.get b (ch - last) p else out.get b ch p⟩
          (last + ml.1.outType.size sz) (some (o0.getD o)) ms else .error .assertion := by
      obtain ⟨m, ls⟩ := ml
      rw [Merge.loop, mapE_dictGet.2 hx1]
      simp only [bind, Except.bind]
      rw [hx2]
      simp only
      rw [hset]
    rw [hloop]
    by_cases hcc : o.coords = c
    · rw [if_pos (hcd.trans hcc.symm)]
      obtain ⟨g1, g2⟩ := ih (fun m hm => hs m (List.mem_cons_of_mem _ hm))
        ⟨out.chans, fun b ch p => if last ≤ ch ∧ ch < last + ml.1.outType.size sz then o.tensor.get b (ch - last) p else out.get b ch p⟩
        (last + ml.1.outType.size sz) (some (o0.getD o)) (by simpa using hcd) (by simp) (by simp only; omega)
      refine ⟨by rw [g1]; simp [hcc], fun r hr => ?_⟩
      obtain ⟨e1, e2, e3, e4, e5⟩ := g2 r hr
      refine ⟨e1, e2, fun _ => ?_, fun b ch p hch => ?_, ?_⟩
      · by_cases hms : ms = []
        · subst hms
          simp only [Merge.loop, Except.ok.injEq] at hr
          subst hr
          simp
        · exact e3 hms
      · rw [e4 b ch p (by omega)]
        simp only
        rw [if_neg (by omega)]
      · intro k o' hk b ch p hch
        cases k with
        | zero =>
          simp only [List.getElem?_cons_zero, Option.some.injEq] at hk
          subst hk
          simp only [List.take_zero, List.map_nil, List.sum_nil, Nat.add_zero]
          rw [e4 b _ p (by omega)]
          simp only
          rw [if_pos (by omega), Nat.add_sub_cancel_left]
        | succ k =>
          have := e5 k o' (by simpa using hk) b ch p hch
          rw [← this]
          congr 1
          simp only [List.take_succ_cons, List.map_cons, List.sum_cons]
          omega
    · have : ¬ (o0.getD o).coords = o.coords := fun h => hcc (by rw [← h, hcd])
      rw [if_neg this]
      refine ⟨⟨fun ⟨r, hr⟩ => by simp at hr, fun h => absurd (h o (by simp)) hcc⟩, fun r hr => by simp at hr⟩

theorem loop_outputs {d : List (L × GTensor B P S R C)} (ms : List (EMod B P S R C × List L)) : ∀ (out : FTensor B P) (last : ℕ)
    (o0 : Option (GTensor B P S R C)) (r : FTensor B P × Option (GTensor B P S R C)), Merge.loop sz d out last o0 ms = .ok r → ∃ os, Outputs d ms os := by
  induction ms with
  | nil => intro _ _ _ _ _; exact ⟨[], List.Forall₂.nil⟩
  | cons ml ms ih =>
    obtain ⟨m, ls⟩ := ml
    intro out last o0 r hr
    rw [Merge.loop] at hr
    simp only [bind, Except.bind] at hr
    split at hr
    · cases hr
    · rename_i xs hxs
      split at hr
      · cases hr
      · rename_i o ho
        split_ifs at hr
        split at hr
        · cases hr
        · obtain ⟨os, hos⟩ := ih _ _ _ _ hr
          exact ⟨o :: os, List.Forall₂.cons ⟨xs, mapE_dictGet.1 hxs, ho⟩ hos⟩

theorem forward_outputs {m : Merge B P S R C L} {d : List (L × GTensor B P S R C)} {junk : B → ℕ → P → ℝ} {y : GTensor B P S R C}
    (h : m.forward sz junk d = .ok y) : ∃ os, Outputs d m.modules os := by
  unfold Merge.forward at h
  simp only [bind, Except.bind] at h
  split at h
  · cases h
  · split_ifs at h
    split at h
    · cases h
    · rename_i r hr
      exact loop_outputs _ _ _ _ _ hr

theorem outChans_spec {m : Merge B P S R C L} {d : List (L × GTensor B P S R C)} {os : List (GTensor B P S R C)}
    (hs : ∀ ml ∈ m.modules, ml.1.Sound sz) (ho : Outputs d m.modules os) (hne : m.modules ≠ []) :
    m.outChans d = .ok (m.modules.map fun ml => ml.1.outType.size sz).sum := by
  have h1 : mapE (fun ml : EMod B P S R C × List L => do
      let xs ← mapE (dictGet d) ml.2
      ml.1.outChans (xs.map fun x => x.tensor.chans)) m.modules = .ok (m.modules.map fun ml => ml.1.outType.size sz) := by
    refine mapE_map fun ml hml => ?_
    obtain ⟨k, hk, rfl⟩ := List.getElem_of_mem hml
    have := (List.forall₂_iff_get.1 ho).2 k hk (by rw [← ho.length_eq]; exact hk)
    obtain ⟨xs, hx1, hx2⟩ := this
    simp only [List.get_eq_getElem] at hx1 hx2
    rw [mapE_dictGet.2 hx1]
    exact (hs _ hml xs _ hx2).2.2
  unfold Merge.outChans
  rw [h1]
  obtain ⟨a, rest, e⟩ := List.exists_cons_of_ne_nil hne
  rw [e]
  simp only [List.map_cons, bind, Except.bind, List.sum_cons]
  congr 1
  have : ∀ (L : List ℕ) (a : ℕ), L.foldl (· + ·) a = a + L.sum := by
    intro L
    induction L with
    | nil => simp
    | cons b L ih => intro a; simp only [List.foldl_cons, List.sum_cons, ih]; omega
  exact this _ _

/-- **C28** `MergeModule` concatenates the outputs of its submodules in the order of the submodules, whatever `torch.empty` contains;
the output has the declared type.  It rejects outputs with different coordinates. -/
theorem C28_merge [DecidableEq S] (ms : List (EMod B P S R C × List L)) (m : Merge B P S R C L) (hm : Merge.init ms = .ok m) (hs : ∀ ml ∈ ms, ml.1.Sound sz)
    (d : List (L × GTensor B P S R C)) (hd : d ≠ []) (os : List (GTensor B P S R C)) (ho : Outputs d ms os) (junk : B → ℕ → P → ℝ) :
    m.outType.reprs = ms.flatMap (fun ml => ml.1.outType.reprs) ∧
    (∀ ml ∈ ms, ∀ t ∈ ml.1.inType.all, t.gspace = m.outType.gspace) ∧
    ((∃ y, m.forward sz junk d = .ok y) ↔ ∃ c, ∀ o ∈ os, o.coords = c) ∧
    ∀ y, m.forward sz junk d = .ok y → y.type = m.outType ∧ (∀ o ∈ os, o.coords = y.coords) ∧ IsConcat os y.tensor := by
  have hm' : ms ≠ [] ∧ m.modules = ms ∧ m.outType.reprs = ms.flatMap (fun ml => ml.1.outType.reprs) ∧
      (∀ ml ∈ ms, ∀ t ∈ ml.1.inType.all, t.gspace = m.outType.gspace) := by
    unfold Merge.init at hm
    cases ms with
    | nil => cases hm
    | cons m0 rest =>
      simp only at hm
      cases hi : m0.1.inType with
      | tuple _ => rw [hi] at hm; cases hm
      | single t0 =>
        rw [hi] at hm
        simp only at hm
        split_ifs at hm with hall
        cases hmk : FType.mk' t0.gspace ((m0 :: rest).flatMap fun ml => ml.1.outType.reprs) with
        | error e => rw [hmk] at hm; cases hm
        | ok u =>
          rw [hmk] at hm
          obtain ⟨-, rfl⟩ := FType.mk'_ok_iff.1 hmk
          cases hm
          exact ⟨by simp, rfl, rfl, hall⟩
  obtain ⟨hne, rfl, h1, h2⟩ := hm'
  refine ⟨h1, h2, ?_⟩
  have hch := outChans_spec hs ho hne
  obtain ⟨o, os', hos⟩ : ∃ o os', os = o :: os' := by
    cases os with
    | nil => exact absurd (List.forall₂_nil_right_iff.1 ho) hne
    | cons o os' => exact ⟨o, os', rfl⟩
  obtain ⟨g1, g2⟩ := loop_spec hs ho o.coords ⟨(m.modules.map fun ml => ml.1.outType.size sz).sum, junk⟩ 0 none (by simp) (by simp [hos]) (by simp)
  have hsum : (os.map fun o => o.tensor.chans).sum = (m.modules.map fun ml => ml.1.outType.size sz).sum := by
    clear g1 g2 hch hos h1 h2 hne hm
    generalize m.modules = A at *
    induction ho with
    | nil => rfl
    | cons a _ ih =>
      obtain ⟨xs, -, hx⟩ := a
      simp only [List.map_cons, List.sum_cons]
      rw [ih fun ml h => hs ml (List.mem_cons_of_mem _ h), (hs _ (by simp) xs _ hx).2.1]
  have hsize : (m.modules.map fun ml => ml.1.outType.size sz).sum = m.outType.size sz := by
    rw [FType.size_eq, h1, List.map_flatMap, List.flatMap_def, List.sum_flatten, List.map_map]
    refine congrArg _ (List.map_congr_left fun ml _ => ?_)
    rw [FType.size_eq]
    rfl
  have hf : ∀ r, Merge.loop sz d ⟨(m.modules.map fun ml => ml.1.outType.size sz).sum, junk⟩ 0 none m.modules = .ok r →
      m.forward sz junk d = .ok ⟨r.1, m.outType, o.coords⟩ := by
    intro r hr
    obtain ⟨e1, e2, e3, e4, e5⟩ := g2 r hr
    unfold Merge.forward
    rw [hch]
    simp only [bind, Except.bind]
    rw [if_neg hd, hr]
    simp only
    cases hr2 : r.2 with
    | none => exact absurd hr2 (e3 hne)
    | some o0 =>
      simp only
      rw [e2 o0 (by rw [hr2]; simp)]
      refine GTensor.mk'_ok_iff.2 ⟨?_, rfl⟩
      rw [e1, ← FType.size_eq, ← hsize]
  have hall : (∃ c, ∀ o ∈ os, o.coords = c) ↔ ∀ o' ∈ os, o'.coords = o.coords := by
    constructor
    · rintro ⟨c, hc⟩ o' ho'
      rw [hc o' ho', hc o (by rw [hos]; simp)]
    · intro h; exact ⟨_, h⟩
  have hinv : ∀ y, m.forward sz junk d = .ok y → ∃ r, Merge.loop sz d ⟨(m.modules.map fun ml => ml.1.outType.size sz).sum, junk⟩ 0 none m.modules = .ok r := by
    intro y hy
    unfold Merge.forward at hy
    rw [hch] at hy
    simp only [bind, Except.bind] at hy
    rw [if_neg hd] at hy
    cases hl : Merge.loop sz d ⟨(m.modules.map fun ml => ml.1.outType.size sz).sum, junk⟩ 0 none m.modules with
    | error e => rw [hl] at hy; cases hy
    | ok r => exact ⟨r, rfl⟩
  refine ⟨?_, fun y hy => ?_⟩
  · rw [hall, ← g1]
    constructor
    · rintro ⟨y, hy⟩; exact hinv y hy
    · rintro ⟨r, hr⟩; exact ⟨_, hf r hr⟩
  · obtain ⟨r, hr⟩ := hinv y hy
    rw [hf r hr] at hy
    cases hy
    obtain ⟨e1, e2, e3, e4, e5⟩ := g2 r hr
    refine ⟨rfl, g1.1 ⟨r, hr⟩, by rw [e1, hsum], fun k o' hk b c p hc => ?_⟩
    have := e5 k o' hk b c p hc
    rwa [Nat.zero_add] at this

/-- **C28** `MultipleModule` is the composition: the fields with each label go to the branch of that label, in the declared type, and
the outputs of the submodules are concatenated. -/
theorem C28_multiple [DecidableEq S] {eqR : R → R → Prop} (hsz : ∀ r r', eqR r r' → sz r = sz r') (t : FType S R) (hne : t.reprs ≠ [])
    (hpos : ∀ r ∈ t.reprs, 0 < sz r) (labels : List L) (k : ℕ) (ms : List (EMod B P S R C × MLabel L)) (hs : ∀ m ∈ ms, m.1.Sound sz)
    (M : Multiple B P S R C L) (hM : Multiple.init eqR sz t labels ms k = .ok M) :
    (∀ l, l ∈ labels ↔ ∃ m ∈ ms, l ∈ m.2.toList) ∧ M.merging.outType.reprs = ms.flatMap (fun m => m.1.outType.reprs) ∧
    ∃ I : L → List ℕ, (∀ l ∈ labels, (I l).Perm (labelled labels l)) ∧
      ∀ (junk : B → ℕ → P → ℝ) (x : GTensor B P S R C), x.tensor.chans = x.type.size sz →
        (¬ x.type.PyEq eqR t → M.forward eqR sz junk x = .error .assertion) ∧
        (x.type.PyEq eqR t → ∃ d : List (L × GTensor B P S R C), (∀ l ∈ labels, ∃ y, FType.lookupLast d l = some y ∧
            IsSelection sz ⟨x.tensor, t, x.coords⟩ (I l) y) ∧
          (∀ l, l ∉ labels → FType.lookupLast d l = none) ∧
          (∀ y, M.forward eqR sz junk x = .ok y → ∃ os, Outputs d (ms.map fun m => (m.1, m.2.toList)) os) ∧
          ∀ os, Outputs d (ms.map fun m => (m.1, m.2.toList)) os →
            ((∃ y, M.forward eqR sz junk x = .ok y) ↔ ∃ c, ∀ o ∈ os, o.coords = c) ∧
            ∀ y, M.forward eqR sz junk x = .ok y → y.type = M.merging.outType ∧ (∀ o ∈ os, o.coords = y.coords) ∧ IsConcat os y.tensor) := by
  unfold Multiple.init at hM
  split_ifs at hM with hlab
  cases hb : Branching.init sz t labels k with
  | error e => rw [hb] at hM; cases hM
  | ok br =>
    rw [hb] at hM
    simp only [bind, Except.bind] at hM
    split at hM
    · cases hM
    · split at hM
      · cases hM
      · rename_i mg hmg
        cases hM
        have hkl : k < 3 ∧ labels.length = t.reprs.length := by
          by_contra hn
          rw [(C28_branching (B := B) (P := P) (C := C) hsz t hne hpos labels k).1 hn] at hb
          cases hb
        obtain ⟨m, hm1, hm2, hm3, I, hI, hx⟩ := (C28_branching (B := B) (P := P) (C := C) hsz t hne hpos labels k).2 hkl.1 hkl.2
        rw [hb] at hm1
        cases hm1
        have hsound : ∀ ml ∈ ms.map (fun m => (m.1, m.2.toList)), ml.1.Sound sz := by
          intro ml hml
          obtain ⟨m, hm, rfl⟩ := List.mem_map.1 hml
          exact hs m hm
        have hreprs : mg.outType.reprs = ms.flatMap (fun m => m.1.outType.reprs) := by
          unfold Merge.init at hmg
          cases ms with
          | nil => cases hmg
          | cons m0 rest =>
            simp only [List.map_cons] at hmg
            split at hmg
            · cases hmg
            · split_ifs at hmg with hall
              simp only [bind, Except.bind] at hmg
              split at hmg
              · cases hmg
              · rename_i u hu
                obtain ⟨-, rfl⟩ := FType.mk'_ok_iff.1 hu
                cases hmg
                simp [List.flatMap_map]
        refine ⟨?_, hreprs, I, fun l hl => (hI l hl).1, fun junk x hxc => ⟨fun hn => by rw [Multiple.forward, if_neg hn], fun hxt => ?_⟩⟩
        · intro l
          constructor
          · intro hl
            obtain ⟨m, hm, hl'⟩ := List.mem_flatMap.1 (hlab.2 l hl)
            exact ⟨m, hm, hl'⟩
          · rintro ⟨m, hm, hl⟩
            exact hlab.1 l (List.mem_flatMap.2 ⟨m, hm, hl⟩)
        · obtain ⟨d, hd1, hd2, hd3⟩ := (hx x hxc).1 hxt
          have hmods : mg.modules = ms.map (fun m => (m.1, m.2.toList)) := by
            unfold Merge.init at hmg
            split at hmg
            · cases hmg
            · split at hmg
              · cases hmg
              · split_ifs at hmg
                simp only [bind, Except.bind] at hmg
                split at hmg
                · cases hmg
                · cases hmg; rfl
          have hfw : Multiple.forward eqR sz junk ⟨t, br, mg⟩ x = mg.forward sz junk d := by
            rw [Multiple.forward, if_pos hxt, hd1]
            rfl
          refine ⟨d, fun l hl => ?_, fun l hl => ?_, fun y hy => ?_, fun os hos => ?_⟩
          · obtain ⟨y, h1, -, h3⟩ := hd3 l hl
            exact ⟨y, h1, h3⟩
          · rw [FType.lookupLast]
            have : d.filter (fun p => p.1 = l) = [] := by
              rw [List.filter_eq_nil_iff]
              intro p hp hpl
              have hpl : p.1 = l := by simpa using hpl
              exact hl ((hd2 l).1 (List.mem_map.2 ⟨p, hp, hpl⟩))
            rw [this]
            rfl
          · rw [hfw] at hy
            rw [← hmods]
            exact forward_outputs hy
          · have hdne : d ≠ [] := by
              intro h0
              have hlen : 0 < labels.length := by rw [hkl.2]; exact List.length_pos_of_ne_nil hne
              have := (hd2 labels[0]).2 (List.getElem_mem _)
              rw [h0] at this
              simp at this
            rw [hfw]
            exact (C28_merge _ mg hmg hsound d hdne os hos junk).2.2

end merge

/-! ## equivariance -/

theorem chanMul_cat (A A' : NpMat ℝ) (x y : FTensor B P) (h : A.cols = x.chans) :
    chanMul (diag2 A A') (GTensor.chanCat2 x y) ≈ GTensor.chanCat2 (chanMul A x) (chanMul A' y) := by
  refine ⟨rfl, fun b o p ho => ?_⟩
  simp only [chanMul, GTensor.chanCat2, diag2_cols]
  rw [Finset.sum_range_add]
  have e0 : ∀ r c, (diag2 A A').get r c = if r < A.rows then (if c < A.cols then A.get r c else 0)
    else (if c < A.cols then 0 else A'.get (r - A.rows) (c - A.cols)) := fun r c => rfl
  change _ = if o < A.rows then ∑ i ∈ Finset.range A.cols, A.get o i * x.get b i p else ∑ i ∈ Finset.range A'.cols, A'.get (o - A.rows) i * y.get b i p
  by_cases ho' : o < A.rows
  · rw [if_pos ho', Finset.sum_eq_zero (s := Finset.range A'.cols), add_zero]
    · refine Finset.sum_congr rfl fun i hi => ?_
      rw [Finset.mem_range] at hi
      rw [e0, if_pos ho', if_pos hi, if_pos (by omega)]
    · intro i _
      rw [e0, if_pos ho', if_neg (by omega), zero_mul]
  · rw [if_neg ho', Finset.sum_eq_zero (s := Finset.range A.cols), zero_add]
    · refine Finset.sum_congr rfl fun i hi => ?_
      rw [e0, if_neg ho', if_neg (by omega), if_neg (by omega)]
      congr 2 <;> omega
    · intro i hi
      rw [Finset.mem_range] at hi
      rw [e0, if_neg ho', if_pos hi, zero_mul]

theorem chanCat2_congr {x x' y y' : FTensor B P} (h : x ≈ x') (h' : y ≈ y') : GTensor.chanCat2 x y ≈ GTensor.chanCat2 x' y' := by
  refine ⟨by simp only [GTensor.chanCat2]; rw [h.1, h'.1], fun b c p hc => ?_⟩
  simp only [GTensor.chanCat2] at hc ⊢
  rw [← h.1]
  split_ifs with h0
  · exact h.2 b c p h0
  · exact h'.2 b _ p (by omega)

/-- The action on a concatenation is the concatenation of the actions. -/
theorem concat_transform (hT : T.Valid El op one) {os os' : List (GTensor B P S (Rep G Id) C)} {y : GTensor B P S (Rep G Id) C}
    (hwf : ∀ o ∈ os, o.WF T El) (hy : y.type.reprs = os.flatMap fun o => o.type.reprs) (hc : IsConcat os y.tensor) {g : G} (hg : El g)
    (ho : List.Forall₂ (fun o o' => o.transformFibers g = .ok o') os os') :
    ∃ y', y.transformFibers g = .ok y' ∧ y'.type = y.type ∧ y'.coords = y.coords ∧ IsConcat os' y'.tensor := by
  have hywf : y.WF T El := by
    refine ⟨?_, fun r hr => ?_⟩
    · rw [hc.chans, FType.size_eq, hy, List.map_flatMap, List.flatMap_def, List.sum_flatten, List.map_map]
      refine congrArg _ (List.map_congr_left fun o ho => ?_)
      rw [(hwf o ho).chans, FType.size_eq]
      rfl
    · rw [hy] at hr
      obtain ⟨o, ho, hr⟩ := List.mem_flatMap.1 hr
      exact (hwf o ho).reps r hr
  refine ⟨_, GTensor.transformFibers_ok hT hywf hg, rfl, rfl, ?_⟩
  have hcat : y.tensor ≈ GTensor.chanCat (os.map fun o => o.tensor) := hc.unique (IsConcat.chanCat os)
  have key : chanMul (y.type.fiberRep g) (GTensor.chanCat (os.map fun o => o.tensor)) ≈ GTensor.chanCat (os'.map fun o => o.tensor) := by
    rw [FType.fiberRep, hy]
    clear hy hc hcat hywf
    induction ho with
    | nil => exact ⟨rfl, fun _ _ _ h => absurd h (by simp [chanMul, blockDiag, zeros])⟩
    | cons h1 _ ih =>
      rename_i o o' os os' _
      have hwo := hwf o (by simp)
      rw [GTensor.transformFibers_ok hT hwo hg] at h1
      cases h1
      have e1 : GTensor.chanCat ((o :: os).map fun o => o.tensor) = GTensor.chanCat2 o.tensor (GTensor.chanCat (os.map fun o => o.tensor)) := rfl
      rw [e1, List.flatMap_cons, List.map_append]
      have hcols : (blockDiag (o.type.reprs.map fun r => r.mat g)).cols = o.tensor.chans := (fiberRep_shape hwo.reps hT hg).2.trans hwo.chans.symm
      refine (chanMul_congr (blockDiag_append _ _) (FTensor.Eqv.refl _) ?_).trans
        ((chanMul_cat _ _ _ _ hcols).trans (chanCat2_congr (FTensor.Eqv.refl _) (ih fun o h => hwf o (List.mem_cons_of_mem _ h))))
      rw [(blockDiag_append _ _).2.1, diag2_cols, hcols]
      simp only [GTensor.chanCat2]
      congr 1
      have h3 := (IsConcat.chanCat os).chans
      rw [h3, blockDiag_cols, List.map_map, List.map_flatMap, List.flatMap_def, List.sum_flatten, List.map_map]
      refine congrArg _ (List.map_congr_left fun o ho => ?_)
      have hwo := hwf o (List.mem_cons_of_mem _ ho)
      rw [hwo.chans, ← (fiberRep_shape hwo.reps hT hg).2, FType.fiberRep, blockDiag_cols, List.map_map]
      rfl
  have hm : chanMul (y.type.fiberRep g) y.tensor ≈ GTensor.chanCat (os'.map fun o => o.tensor) :=
    (chanMul_congr (Eqv.refl _) hcat ((fiberRep_shape hywf.reps hT hg).2.trans hywf.chans.symm)).trans key
  have hcc := IsConcat.chanCat os'
  refine ⟨by rw [← hcc.chans]; exact hm.1, fun k o hk b c p hlt => ?_⟩
  rw [← hcc.data k o hk b c p hlt]
  refine hm.2 b _ p ?_
  rw [show (chanMul (y.type.fiberRep g) y.tensor).chans = _ from hm.1, hcc.chans]
  exact chanOffset_lt (sz := fun o : GTensor B P S (Rep G Id) C => o.tensor.chans) hk hlt

/-- A module commutes with the action on the fibres: acting on the inputs gives, up to equality of the entries, the action on the output. -/
def EMod.Equivariant (T : IrrepTable G Id) (El : G → Prop) (m : EMod B P S (Rep G Id) C) : Prop :=
  ∀ g, El g → ∀ xs xs', List.Forall₂ (fun x x' => x.WF T El ∧ ∃ x'', x.transformFibers g = .ok x'' ∧ x' ≈ x'') xs xs' →
    ∀ o, m.forward xs = .ok o → o.WF T El ∧ ∃ o' o'', m.forward xs' = .ok o' ∧ o.transformFibers g = .ok o'' ∧ o' ≈ o''

/-- **C28** `ReshuffleModule` commutes with the action. -/
theorem C28_reshuffle_equivariant (hT : T.Valid El op one) (t : FType S (Rep G Id)) (hne : t.reprs ≠ []) (ht : ∀ r ∈ t.reprs, r.WF T El) (perm : List ℤ)
    (m : Reshuffle S (Rep G Id)) (hm : Reshuffle.init Rep.size t perm = .ok m) (x : GTensor B P S (Rep G Id) C) (hx : x.WF T El)
    (hxt : x.type.PyEq Rep.PyEq t) (g : G) (hg : El g) :
    ∃ y y' x' z, m.forward Rep.PyEq Rep.size x = .ok y ∧ y.transformFibers g = .ok y' ∧ x.transformFibers g = .ok x' ∧
      m.forward Rep.PyEq Rep.size x' = .ok z ∧ z ≈ y' := by
  have hsz : ∀ r r' : Rep G Id, r.PyEq r' → r.size = r'.size := fun r r' h => h.2.1.1
  obtain ⟨y, h1, h2, h3⟩ := (((C28_reshuffle (B := B) (P := P) (C := C) hsz t hne perm).2 m hm).2 x hx.chans).1 hxt
  have hx0 : GTensor.WF T El (⟨x.tensor, t, x.coords⟩ : GTensor B P S (Rep G Id) C) := ⟨by rw [hx.chans, hxt.size], ht⟩
  obtain ⟨x', x0', e1, e2, e3, e4, e5, e6⟩ := GTensor.transform_congr hT hx hx0 hxt rfl (FTensor.Eqv.refl _) hg
  obtain ⟨x0'', y', f1, f2, f3⟩ := h3.transform hT hx0 hg
  rw [e2] at f1
  cases f1
  have hx' := hx.transform hT hg e1
  obtain ⟨z, g1, g2, g3⟩ := (((C28_reshuffle (B := B) (P := P) (C := C) hsz t hne perm).2 m hm).2 x' hx'.chans).1 (by rw [e3]; exact hxt)
  refine ⟨y, y', x', z, h1, f2, e1, g1, (g3.congr_left ?_ ⟨e4.symm, e5, e6⟩).unique f3⟩
  rw [hx'.chans, e3, ← FType.size_eq]
  exact hxt.size

/-- The selections of the transformed tensor are the transformed selections, also when the type is only equal to `t`. -/
theorem select_transform (hT : T.Valid El op one) {t : FType S (Rep G Id)} (ht : ∀ r ∈ t.reprs, r.WF T El) {x y x' z : GTensor B P S (Rep G Id) C}
    (hx : x.WF T El) (hxt : x.type.PyEq Rep.PyEq t) {g : G} (hg : El g) {I : List ℕ} (h : IsSelection Rep.size ⟨x.tensor, t, x.coords⟩ I y)
    (hx' : x.transformFibers g = .ok x') (h' : IsSelection Rep.size ⟨x'.tensor, t, x'.coords⟩ I z) :
    y.WF T El ∧ ∃ y', y.transformFibers g = .ok y' ∧ z ≈ y' := by
  have hx0 : GTensor.WF T El (⟨x.tensor, t, x.coords⟩ : GTensor B P S (Rep G Id) C) := ⟨by rw [hx.chans, hxt.size], ht⟩
  obtain ⟨x'', x0', e1, e2, e3, e4, e5, e6⟩ := GTensor.transform_congr hT hx hx0 hxt rfl (FTensor.Eqv.refl _) hg
  rw [hx'] at e1
  cases e1
  obtain ⟨x0'', y', f1, f2, f3⟩ := h.transform hT hx0 hg
  rw [e2] at f1
  cases f1
  have hxw := hx.transform hT hg hx'
  refine ⟨h.wf hx0, y', f2, (h'.congr_left ?_ ⟨e4.symm, e5, e6⟩).unique f3⟩
  rw [hxw.chans, e3, ← FType.size_eq]
  exact hxt.size

/-- **C28** `BranchingModule` commutes with the action: the branches of the transformed input are the transformed branches. -/
theorem C28_branching_equivariant [LinearOrder L] (hT : T.Valid El op one) (t : FType S (Rep G Id)) (hne : t.reprs ≠ []) (ht : ∀ r ∈ t.reprs, r.WF T El)
    (hpos : ∀ r ∈ t.reprs, 0 < r.size) (labels : List L) (k : ℕ) (m : Branching L S (Rep G Id)) (hm : Branching.init Rep.size t labels k = .ok m)
    (x : GTensor B P S (Rep G Id) C) (hx : x.WF T El) (hxt : x.type.PyEq Rep.PyEq t) (g : G) (hg : El g) :
    ∃ d x' d', m.forward Rep.PyEq Rep.size x = .ok d ∧ x.transformFibers g = .ok x' ∧ m.forward Rep.PyEq Rep.size x' = .ok d' ∧
      ∀ l ∈ labels, ∃ y y' z, FType.lookupLast d l = some y ∧ y.transformFibers g = .ok y' ∧ FType.lookupLast d' l = some z ∧ z ≈ y' := by
  have hsz : ∀ r r' : Rep G Id, r.PyEq r' → r.size = r'.size := fun r r' h => h.2.1.1
  have hC := C28_branching (B := B) (P := P) (C := C) hsz t hne hpos labels k
  have hkl : k < 3 ∧ labels.length = t.reprs.length := by
    by_contra hn
    rw [hC.1 hn] at hm
    cases hm
  obtain ⟨m', hm1, hm2, hm3, I, hI, hfw⟩ := hC.2 hkl.1 hkl.2
  rw [hm] at hm1
  cases hm1
  obtain ⟨d, hd1, hd2, hd3⟩ := (hfw x hx.chans).1 hxt
  have hx' := GTensor.transformFibers_ok hT hx hg
  obtain ⟨d', hd1', hd2', hd3'⟩ := (hfw _ (hx.transform hT hg hx').chans).1 (by exact hxt)
  refine ⟨d, _, d', hd1, hx', hd1', fun l hl => ?_⟩
  obtain ⟨y, h1, -, h3⟩ := hd3 l hl
  obtain ⟨z, h1', -, h3'⟩ := hd3' l hl
  obtain ⟨-, y', h4, h5⟩ := select_transform hT ht hx hxt hg h3 hx' h3'
  exact ⟨y, y', z, h1, h4, h1', h5⟩

/-- **C28** `MultipleModule` with equivariant submodules commutes with the action. -/
theorem C28_multiple_equivariant [LinearOrder L] [DecidableEq C] [DecidableEq S] (hT : T.Valid El op one) (t : FType S (Rep G Id)) (hne : t.reprs ≠ [])
    (ht : ∀ r ∈ t.reprs, r.WF T El) (hpos : ∀ r ∈ t.reprs, 0 < r.size) (labels : List L) (k : ℕ)
    (ms : List (EMod B P S (Rep G Id) C × MLabel L)) (hs : ∀ m ∈ ms, m.1.Sound Rep.size) (he : ∀ m ∈ ms, m.1.Equivariant T El)
    (M : Multiple B P S (Rep G Id) C L) (hM : Multiple.init Rep.PyEq Rep.size t labels ms k = .ok M) (junk junk' : B → ℕ → P → ℝ)
    (x y : GTensor B P S (Rep G Id) C) (hx : x.WF T El) (hy : M.forward Rep.PyEq Rep.size junk x = .ok y) (g : G) (hg : El g) :
    ∃ x' y' z, x.transformFibers g = .ok x' ∧ y.transformFibers g = .ok y' ∧ M.forward Rep.PyEq Rep.size junk' x' = .ok z ∧ z ≈ y' := by
  have hsz : ∀ r r' : Rep G Id, r.PyEq r' → r.size = r'.size := fun r r' h => h.2.1.1
  obtain ⟨hl1, hrep, I, hI, hfw⟩ := C28_multiple hsz t hne hpos labels k ms hs M hM
  have hxt : x.type.PyEq Rep.PyEq t := by
    by_contra hn
    rw [(hfw junk x hx.chans).1 hn] at hy
    cases hy
  obtain ⟨d, hd1, hd2, hd3, hd4⟩ := (hfw junk x hx.chans).2 hxt
  have hx' := GTensor.transformFibers_ok hT hx hg
  obtain ⟨d', hd1', hd2', hd3', hd4'⟩ := (hfw junk' _ (hx.transform hT hg hx').chans).2 (by exact hxt)
  obtain ⟨os, hos⟩ := hd3 y hy
  obtain ⟨hok, hout⟩ := hd4 os hos
  obtain ⟨hy1, hy2, hy3⟩ := hout y hy
  -- the outputs for the transformed input
  have hdd : ∀ l ∈ labels, ∃ y z, FType.lookupLast d l = some y ∧ FType.lookupLast d' l = some z ∧ y.WF T El ∧
      ∃ y'', y.transformFibers g = .ok y'' ∧ z ≈ y'' := by
    intro l hl
    obtain ⟨u, h1, h2⟩ := hd1 l hl
    obtain ⟨v, h1', h2'⟩ := hd1' l hl
    obtain ⟨h3, w, h4, h5⟩ := select_transform hT ht hx hxt hg h2 hx' h2'
    exact ⟨u, v, h1, h1', h3, w, h4, h5⟩
  have hl2 : ∀ m ∈ ms, ∀ l ∈ m.2.toList, l ∈ labels := fun m hm l hl => (hl1 l).2 ⟨m, hm, hl⟩
  have hargs : ∀ (ls : List L) (xs : List (GTensor B P S (Rep G Id) C)), (∀ l ∈ ls, l ∈ labels) →
      List.Forall₂ (fun l x => FType.lookupLast d l = some x) ls xs → ∃ xs', List.Forall₂ (fun l x => FType.lookupLast d' l = some x) ls xs' ∧
        List.Forall₂ (fun x x' => x.WF T El ∧ ∃ x'', x.transformFibers g = .ok x'' ∧ x' ≈ x'') xs xs' := by
    intro ls xs hls h
    induction h with
    | nil => exact ⟨[], List.Forall₂.nil, List.Forall₂.nil⟩
    | cons h1 _ ih =>
      rename_i l u _ _ _
      obtain ⟨xs', e1, e2⟩ := ih fun l hl => hls l (List.mem_cons_of_mem _ hl)
      obtain ⟨u', v, f1, f2, f3, f4⟩ := hdd l (hls l (by simp))
      rw [h1] at f1
      cases f1
      exact ⟨v :: xs', List.Forall₂.cons f2 e1, List.Forall₂.cons ⟨f3, f4⟩ e2⟩
  have houts : ∃ os' os'', Outputs d' (ms.map fun m => (m.1, m.2.toList)) os' ∧ (∀ o ∈ os, o.WF T El) ∧
      List.Forall₂ (fun o o'' => o.transformFibers g = .ok o'') os os'' ∧ List.Forall₂ (fun o' o'' : GTensor B P S (Rep G Id) C => o' ≈ o'') os' os'' := by
    clear hok hout hy3 hy2 hd3 hd4 hd4' hd3' hrep hl1 hM hy hy1 hs hfw
    unfold Outputs at hos ⊢
    rw [List.forall₂_map_left_iff] at hos
    simp only [List.forall₂_map_left_iff]
    induction hos with
    | nil => exact ⟨[], [], List.Forall₂.nil, by simp, List.Forall₂.nil, List.Forall₂.nil⟩
    | cons h1 _ ih =>
      rename_i m o _ _ _
      obtain ⟨os', os'', e1, e2, e3, e4⟩ := ih (fun m hm => he m (List.mem_cons_of_mem _ hm)) fun m hm => hl2 m (List.mem_cons_of_mem _ hm)
      obtain ⟨xs, a1, a2⟩ := h1
      obtain ⟨xs', b1, b2⟩ := hargs _ xs (hl2 m (by simp)) a1
      obtain ⟨c1, o', o'', c2, c3, c4⟩ := he m (by simp) g hg xs xs' b2 o a2
      refine ⟨o' :: os', o'' :: os'', List.Forall₂.cons ⟨xs', b1, c2⟩ e1, ?_, List.Forall₂.cons c3 e3, List.Forall₂.cons c4 e4⟩
      intro u hu
      rcases List.mem_cons.1 hu with rfl | hu
      · exact c1
      · exact e2 u hu
  obtain ⟨os', os'', ho1, ho2, ho3, ho4⟩ := houts
  have hcoords : ∀ o' ∈ os', o'.coords = y.coords := by
    intro o' ho'
    obtain ⟨j, hj⟩ := List.mem_iff_getElem?.1 ho'
    have hj' := (List.getElem?_eq_some_iff.1 hj).1
    have hj'' : j < os''.length := by rw [← ho4.length_eq]; exact hj'
    have hj0 : j < os.length := by rw [ho3.length_eq]; exact hj''
    have g1 := (List.forall₂_iff_get.1 ho4).2 j hj' hj''
    have g2 := (List.forall₂_iff_get.1 ho3).2 j hj0 hj''
    simp only [List.get_eq_getElem] at g1 g2
    rw [GTensor.transformFibers_ok hT (ho2 _ (List.getElem_mem hj0)) hg] at g2
    rw [← (List.getElem?_eq_some_iff.1 hj).2, g1.2.1, ← Except.ok.inj g2]
    exact hy2 os[j] (List.getElem_mem hj0)
  obtain ⟨hok', hout'⟩ := hd4' os' ho1
  obtain ⟨z, hz⟩ := hok'.2 ⟨_, hcoords⟩
  obtain ⟨hz1, hz2, hz3⟩ := hout' z hz
  have hrepr : y.type.reprs = os.flatMap fun o => o.type.reprs := by
    rw [hy1, hrep]
    unfold Outputs at hos
    rw [List.forall₂_map_left_iff] at hos
    clear hrep hok hout hy3 hy2 hd3 hd4 hM hl1 hy hl2 ho1 ho2 ho3 he hd4' hok' hout' hd3' hfw
    induction hos with
    | nil => rfl
    | cons h1 _ ih =>
      obtain ⟨xs, -, a2⟩ := h1
      rw [List.flatMap_cons, List.flatMap_cons, ih fun m hm => hs m (List.mem_cons_of_mem _ hm), (hs _ (by simp) xs _ a2).1]
  obtain ⟨y', f1, f2, f3, f4⟩ := concat_transform hT ho2 hrepr hy3 hg ho3
  refine ⟨_, y', z, hx', f1, hz, ?_, ?_, ?_⟩
  · rw [hz1, f2, hy1]
  · rw [f3]
    have hne' : os' ≠ [] := by
      rintro rfl
      have h0 := ho1
      unfold Outputs at h0
      have h0 := List.forall₂_nil_right_iff.1 h0
      have : ms = [] := by simpa using h0
      subst this
      obtain ⟨l, hl⟩ : ∃ l, l ∈ labels := by
        have hlen : labels.length = t.reprs.length := by
          by_contra hn
          unfold Multiple.init at hM
          split_ifs at hM
          rw [(C28_branching (B := B) (P := P) (C := C) hsz t hne hpos labels k).1 (fun h => hn h.2)] at hM
          cases hM
        have : 0 < labels.length := by rw [hlen]; exact List.length_pos_of_ne_nil hne
        exact ⟨labels[0], List.getElem_mem _⟩
      obtain ⟨m, hm, -⟩ := (hl1 l).1 hl
      simp at hm
    obtain ⟨o', ho'⟩ := List.exists_mem_of_ne_nil _ hne'
    rw [← hz2 o' ho', hcoords o' ho']
  · exact hz3.congr f4 (ho4.imp fun _ _ h => h.2.2)

/-! ## what the constructors also accept or reject -/

/-- `ReshuffleModule` compares sets, so that a list with repetitions is accepted although it is not a permutation. -/
theorem C28_reshuffle_repeated : (∃ m, Reshuffle.init (fun n : ℕ => n + 1) (⟨(), [0, 1]⟩ : FType Unit ℕ) [0, 0, 1] = .ok m ∧ m.outType.reprs = [0, 0, 1]) ∧
    ¬ ([0, 0, 1] : List ℤ).Perm [0, 1] := by
  refine ⟨⟨_, rfl, rfl⟩, ?_⟩
  intro h
  simpa using h.length_eq

/-- `MergeModule` raises `AttributeError` when its first submodule takes several inputs. -/
theorem C28_merge_tuple_first [DecidableEq S] (m : EMod B P S R C) (ls : List L) (ts : List (FType S R)) (h : m.inType = .tuple ts)
    (rest : List (EMod B P S R C × List L)) : Merge.init ((m, ls) :: rest) = .error .attribute := by
  unfold Merge.init
  simp only [h]

/-! ## examples -/

/-- The identity module of a field type. -/
def idMod (sz : R → ℕ) (t : FType S R) : EMod B P S R C where
  inType := .single t
  outType := t
  outChans := fun cs => match cs with | [c] => .ok c | _ => .error .type
  forward := fun xs => match xs with | [x] => GTensor.mk' sz x.tensor t x.coords | _ => .error .type

theorem idMod_sound (t : FType S R) : (idMod sz t : EMod B P S R C).Sound sz := by
  intro xs o h
  simp only [idMod] at h
  split at h
  · rename_i x
    obtain ⟨h1, rfl⟩ := GTensor.mk'_ok_iff.1 h
    rw [← FType.size_eq] at h1
    exact ⟨rfl, h1, by simp [idMod, h1]⟩
  · cases h

example : ∃ m, Branching.init (fun n : ℕ => n + 1) (⟨(), [1, 0, 1]⟩ : FType Unit ℕ) [2, 1, 2] 2 = .ok m := by
  obtain ⟨m, hm, -⟩ := (C28_branching (B := Unit) (P := Unit) (C := Unit) (sz := fun n : ℕ => n + 1) (eqR := Eq) (fun r r' h => by rw [h])
    (⟨(), [1, 0, 1]⟩ : FType Unit ℕ) (by simp) (by simp) [2, 1, 2] 2).2 (by omega) rfl
  exact ⟨m, hm⟩

example : ∃ M : Merge Unit Unit Unit ℕ Unit ℕ, Merge.init [(idMod (fun n => n + 1) ⟨(), [1]⟩, [0]), (idMod (fun n => n + 1) ⟨(), [0, 2]⟩, [1])] = .ok M ∧
    M.outType.reprs = [1, 0, 2] := ⟨_, rfl, rfl⟩

example : Outputs (B := Unit) (P := Unit) (C := Unit) [(0, ⟨⟨2, fun _ c _ => (c : ℝ)⟩, ⟨(), [1]⟩, ()⟩)]
    [((idMod (fun n : ℕ => n + 1) ⟨(), [1]⟩ : EMod Unit Unit Unit ℕ Unit), [(0 : ℕ)])] [⟨⟨2, fun _ c _ => (c : ℝ)⟩, ⟨(), [1]⟩, ()⟩] :=
  List.Forall₂.cons ⟨_, List.Forall₂.cons rfl List.Forall₂.nil, rfl⟩ List.Forall₂.nil

end Escnn
