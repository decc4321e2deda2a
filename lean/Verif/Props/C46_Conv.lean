import Verif.Lemmas.Export
import Verif.Props.C43_Plane
import Verif.Props.C59_Pool
import Verif.Props.C47_NormMax

/-!
# C46: exported convolutions and poolings
-/

namespace Escnn

open NdArr

variable {n : ℕ} {B S G Id A : Type}

namespace RdConv

/-- `eval()` keeps the parameters which `forward` uses. -/
theorem eval_current {R : Type} {l : RdConv n S R A} {p : Kern × Option (ℕ → ℝ)} (hp : l.current = .ok p) :
    ∃ l', l.train false = .ok l' ∧ l'.current = .ok p ∧ l'.training = false ∧ l'.inType = l.inType ∧ l'.outType = l.outType ∧ l'.mode = l.mode ∧ (∀ F b (x : FMap n B), l'.convolve F b x = l.convolve F b x) := by
  by_cases ht : l.training = true
  · have he : l.expandParameters = .ok p := by rw [current, if_neg (by simp [ht])] at hp; exact hp
    refine ⟨{ l with filter := some p.1, expandedBias := some p.2, training := false }, ?_, ?_, rfl, rfl, rfl, rfl, fun _ _ _ => rfl⟩
    · rw [train, if_neg (by simp), if_pos ht, he]
      rfl
    · rw [current, if_pos (by simp)]
  · refine ⟨{ l with training := false }, ?_, ?_, rfl, rfl, rfl, rfl, fun _ _ _ => rfl⟩
    · rw [train, if_neg (by simp), if_neg ht]
    · rw [current, if_pos (by simp)]
      rw [current, if_pos ht] at hp
      exact hp

theorem convolve_chans {R : Type} {l : RdConv n S R A} {F : Kern} {b : Option (ℕ → ℝ)} {x y : FMap n B} (h : l.convolve F b x = .ok y) :
    y.chans = F.rows ∧ 0 < l.groups ∧ F.rows % l.groups = 0 ∧ x.chans = l.groups * F.cols := by
  have hv : ∀ {z : FMap n B}, convValid F l.kernelSize l.stride l.dilation l.groups b z = .ok y → y.chans = F.rows ∧ 0 < l.groups ∧ F.rows % l.groups = 0 ∧ z.chans = l.groups * F.cols := by
    intro z hz
    unfold convValid at hz
    split_ifs at hz with hc
    cases hz
    exact ⟨rfl, hc.2.2.2.1, hc.2.2.2.2.1, hc.2.2.2.2.2.1⟩
  have hpad : ∀ {m : PadMode} {q : Fin n → ℕ} {z w : FMap n B}, padMap m q z = .ok w → w.chans = z.chans := by
    intro m q z w hz
    unfold padMap at hz
    split_ifs at hz
    cases hz
    rfl
  unfold convolve at h
  split_ifs at h
  · obtain ⟨z, h1, h2⟩ := bind_ok h
    rw [← hpad h1]
    exact hv h2
  · obtain ⟨z, h1, h2⟩ := bind_ok h
    obtain ⟨z', h3, h4⟩ := bind_ok h2
    rw [← hpad h1, ← hpad h3]
    exact hv h4

/-- What `export` returns, for all padding modes. -/
theorem export_spec {l : RdConv n S (Rep G Id) A} {p : Kern × Option (ℕ → ℝ)} (hp : l.current = .ok p) (hr : p.1.rows = l.outType.size Rep.size) (hg : 0 < l.groups)
    (hc : l.inType.size Rep.size = l.groups * p.1.cols) (hmod : p.1.rows % l.groups = 0) (hb : p.2.isSome = l.biasExpansion.isSome) :
    ∃ l' c, l.export' Rep.size = .ok (l', c) ∧ l'.training = false ∧ (∀ (x : FMap n B), c.forward x = convNd p.1 l.kernelSize l.stride l.axes l.dilation l.groups p.2 x) ∧
      ∀ (x : GMap n B S (Rep G Id)), x.type = l.inType → l'.forward x = (l.convolve p.1 p.2 x.map >>= fun y => GMap.mk' Rep.size y l.outType) := by
  obtain ⟨l', h1, h2, h3, h4, h5, h6, h7⟩ := eval_current (B := B) hp
  have hbias : exportBias l.biasExpansion p.2 = .ok p.2 := by
    unfold exportBias
    cases hbe : l.biasExpansion with
    | none =>
      rw [hbe] at hb
      rw [if_neg (by simp)]
      congr 1
      exact (Option.not_isSome_iff_eq_none.1 (by rw [hb]; simp)).symm
    | some M =>
      rw [hbe] at hb
      rw [if_pos (by simp)]
      obtain ⟨v, hv⟩ := Option.isSome_iff_exists.1 (hb.trans rfl)
      rw [hv]
  refine ⟨l', ⟨l.kernelSize, l.stride, l.axes, l.dilation, l.groups, p.1, p.2⟩, ?_, h3, fun _ => rfl, fun x hx => ?_⟩
  · unfold export'
    simp only [h1, h2, bind, Except.bind, hbias]
    rw [if_pos]
    exact ⟨hg, by rw [hc]; simp, by rw [← hr]; exact hmod⟩
  · unfold forward
    rw [if_neg (by rw [hx, h4]; simp), h2, h5]
    show (l'.convolve p.1 p.2 x.map >>= _) = _
    rw [h7]

/-- **C46** Convolutions.  (Missing: the padding modes other than `'zeros'`, see `C46_circular_violated`.)  For each state of a module with zero padding whose filter fits its types, in training mode or not:
`export` succeeds and sets the module to evaluation mode, and the module and the exported one compute the same on all inputs: the same shape and the same entries, or both raise an exception. -/
theorem C46_conv_partial (l : RdConv n S (Rep G Id) A) (hm : l.mode = .zeros) {p : Kern × Option (ℕ → ℝ)} (hp : l.current = .ok p) (hr : p.1.rows = l.outType.size Rep.size) (hg : 0 < l.groups)
    (hc : l.inType.size Rep.size = l.groups * p.1.cols) (hmod : p.1.rows % l.groups = 0) (hb : p.2.isSome = l.biasExpansion.isSome) :
    ∃ l' c, l.export' Rep.size = .ok (l', c) ∧ l'.training = false ∧
      SameFunction (HoldsMap l.inType) (HoldsMap l.outType) (fun x : GMap n B S (Rep G Id) => l'.forward x) c.forward := by
  obtain ⟨l', c, h1, h2, h3, h4⟩ := export_spec (B := B) hp hr hg hc hmod hb
  refine ⟨l', c, h1, h2, wrap_same (k := fun x => l.convolve p.1 p.2 x) h4 (fun x z hxz _ => ?_) fun x y _ hy => (convolve_chans hy).1.trans hr⟩
  rw [h3]
  have e : l.convolve p.1 p.2 x = convNd p.1 l.kernelSize l.stride l.axes l.dilation l.groups p.2 x := if_pos hm
  rw [e]
  exact convNd_congr _ _ _ _ _ _ _ hxz

/-- **C46** The same for a module in training mode, with any weights, which works on at least one input (C43 gives this for all the modules built by the constructor). -/
theorem C46_conv_trained_partial (l : RdConv n S (Rep G Id) A) (hm : l.mode = .zeros) (ht : l.training = true) {x0 : FMap n B} {y0 : GMap n B S (Rep G Id)} (hx0 : x0.chans = l.inType.size Rep.size)
    (h0 : l.forward ⟨x0, l.inType⟩ = .ok y0) :
    ∃ l' c, l.export' Rep.size = .ok (l', c) ∧ l'.training = false ∧
      SameFunction (HoldsMap l.inType) (HoldsMap l.outType) (fun x : GMap n B S (Rep G Id) => l'.forward x) c.forward := by
  unfold forward at h0
  rw [if_neg (not_not.2 rfl)] at h0
  obtain ⟨p, hp, h0⟩ := bind_ok h0
  obtain ⟨y, hy, h0⟩ := bind_ok h0
  obtain ⟨-, hc⟩ := GMap.mk'_ok h0
  obtain ⟨e1, e2, e3, e4⟩ := convolve_chans hy
  have e4' : x0.chans = l.groups * p.1.cols := e4
  refine C46_conv_partial l hm hp (e1.symm.trans hc) e2 (hx0.symm.trans e4') e3 ?_
  rw [current, if_neg (by simp [ht])] at hp
  unfold expandParameters at hp
  obtain ⟨F, -, hp⟩ := bind_ok hp
  obtain rfl := Except.ok.inj hp
  simp

/-- **C46** With `padding_mode='circular'` the exported module pads with zeros: for every module with kernels of size 3, padding 1 and stride 1, in which the first entry of the filter is not 0, the two modules
compute different values on some input of the size 3 × … × 3. -/
theorem C46_circular_violated (l : RdConv n S (Rep G Id) A) (hn : 0 < n) (hm : l.mode = .circular) {p : Kern × Option (ℕ → ℝ)} (hp : l.current = .ok p) (hr : p.1.rows = l.outType.size Rep.size) (hro : 0 < p.1.rows)
    (hk : l.kernelSize = 3) (hs : l.stride = 1) (hd : l.dilation = 1) (hax : l.axes = fun _ => 1) (hg : l.groups = 1)
    (hc : l.inType.size Rep.size = p.1.cols) (hco : 0 < p.1.cols) (hb : p.2.isSome = l.biasExpansion.isSome) (hF : p.1.get 0 0 0 ≠ 0) :
    ∃ l' c, l.export' Rep.size = .ok (l', c) ∧ ∃ (x : FMap n Unit) (y z : FMap n Unit), x.chans = l.inType.size Rep.size ∧ l'.forward ⟨x, l.inType⟩ = .ok ⟨y, l.outType⟩ ∧ c.forward x = .ok z ∧
      y.shape = z.shape ∧ y.get () 0 (fun _ => 0) ≠ z.get () 0 fun _ => 0 := by
  obtain ⟨l', c, h1, h2, h3, h4⟩ := export_spec (B := Unit) hp hr (by omega) (by rw [hg, one_mul]; exact hc) (by rw [hg]; exact Nat.mod_one _) hb
  refine ⟨l', c, h1, ?_⟩
  let x : FMap n Unit := ⟨p.1.cols, fun _ => 3, fun _ ch k => if ch = 0 ∧ ∀ i, k i = 2 then 1 else 0⟩
  have hpad : ∀ m : PadMode, m = .zeros ∨ m = .circular → ∀ i, padOk m (x.shape i) 1 := by
    rintro m (rfl | rfl) i
    · trivial
    · simp [padOk, x]
  obtain ⟨xz, hz, hzs, hzc, hzg⟩ : ∃ y, padMap .zeros (fun _ => 1) x = .ok y ∧ (∀ i, y.shape i = 5) ∧ y.chans = p.1.cols ∧
      ∀ b ch k, y.get b ch k = if ∀ i, (padIndex .zeros 3 ((k i : ℤ) - 1)).isSome then x.get b ch fun i => (padIndex .zeros 3 ((k i : ℤ) - 1)).getD 0 else 0 :=
    ⟨_, if_pos (hpad _ (.inl rfl)), fun _ => rfl, rfl, fun _ _ _ => rfl⟩
  obtain ⟨xc, hcc, hcs, hcch, hcg⟩ : ∃ y, padMap .circular (fun _ => 1) x = .ok y ∧ (∀ i, y.shape i = 5) ∧ y.chans = p.1.cols ∧
      ∀ b ch k, y.get b ch k = if ∀ i, (padIndex .circular 3 ((k i : ℤ) - 1)).isSome then x.get b ch fun i => (padIndex .circular 3 ((k i : ℤ) - 1)).getD 0 else 0 :=
    ⟨_, if_pos (hpad _ (.inr rfl)), fun _ => rfl, rfl, fun _ _ _ => rfl⟩
  obtain ⟨xc', hcc', hcs'⟩ : ∃ y, padMap .zeros (fun _ => 0) xc = .ok y ∧ y ≈ xc := padMap_zero
  have hval : ∀ w : FMap n Unit, (∀ i, w.shape i = 5) → w.chans = p.1.cols → ∃ y, convValid p.1 3 1 1 1 p.2 w = .ok y ∧ y.chans = p.1.rows ∧ (∀ i, y.shape i = 3) ∧
      y.get () 0 (fun _ => 0) = ∑ ch ∈ Finset.range p.1.cols, ∑ u : Fin n → Fin 3, p.1.get 0 ch (flatIndex 3 u) * w.get () ch (fun i => u i) + Linear.biasAt p.2 0 := by
    intro w h5 hw
    refine ⟨_, if_pos ⟨by norm_num, by norm_num, by norm_num, by norm_num, Nat.mod_one _, by rw [hw, one_mul], fun i => by rw [h5 i]; norm_num⟩, rfl, fun i => by simp only [h5 i], ?_⟩
    simp [Nat.div_eq_of_lt hro]
  obtain ⟨yz, f1, f2, f3, f4⟩ := hval xz hzs hzc
  obtain ⟨yc, g1, g2, g3, g4⟩ := hval xc' (fun i => by rw [hcs'.2.1]; exact hcs i) (hcs'.1.trans hcch)
  refine ⟨x, yc, yz, hc.symm, ?_, ?_, by funext i; rw [f3, g3], ?_⟩
  · rw [h4 _ rfl, convolve, if_neg (by rw [hm]; decide), hm, hax, hk, hs, hd, hg]
    simp only [bind, Except.bind, hcc, convNd, hcc', g1]
    rw [GMap.mk', if_pos (g2.trans hr)]
  · rw [h3, hax, hk, hs, hd, hg, convNd]
    simp only [bind, Except.bind, hz, f1]
  · rw [f4, g4]
    have hzero : ∀ ch (u : Fin n → Fin 3), xz.get () ch (fun i => u i) = 0 := by
      intro ch u
      rw [hzg]
      split_ifs with hsome
      · simp only [x]
        rw [if_neg]
        rintro ⟨-, h⟩
        have h0 := h ⟨0, hn⟩
        have := (u ⟨0, hn⟩).isLt
        have h' := hsome ⟨0, hn⟩
        simp only [padIndex] at h0 h'
        split_ifs at h0 h' with hq
        · simp only [Option.getD_some] at h0
          omega
        · simp at h'
      · rfl
    have hone : ∀ ch < p.1.cols, ∀ (u : Fin n → Fin 3), xc'.get () ch (fun i => u i) = if ch = 0 ∧ u = fun _ => 0 then 1 else 0 := by
      intro ch hch u
      rw [hcs'.2.2 () ch (by rw [hcs'.1, hcch]; exact hch) _ (fun i => by rw [hcs'.2.1, hcs]; have := (u i).isLt; show (u i : ℕ) < 5; omega), hcg, if_pos (by intro i; simp [padIndex])]
      have hu : (∀ i, (padIndex .circular 3 (((u i : ℕ) : ℤ) - 1)).getD 0 = 2) ↔ u = fun _ => 0 := by
        constructor
        · intro h
          funext i
          have h1 := h i
          have h2 := (u i).isLt
          simp only [padIndex, Option.getD_some] at h1
          apply Fin.ext
          show (u i : ℕ) = 0
          omega
        · rintro rfl i
          rfl
      by_cases h0 : ch = 0 ∧ u = fun _ => 0
      · rw [if_pos h0]
        exact if_pos ⟨h0.1, hu.2 h0.2⟩
      · rw [if_neg h0]
        exact if_neg fun h => h0 ⟨h.1, hu.1 h.2⟩
    have hsum : ∑ ch ∈ Finset.range p.1.cols, ∑ u : Fin n → Fin 3, p.1.get 0 ch (flatIndex 3 u) * xc'.get () ch (fun i => u i) = p.1.get 0 0 0 := by
      rw [Finset.sum_eq_single 0]
      · rw [Finset.sum_eq_single fun _ => 0]
        · rw [hone 0 hco, if_pos ⟨rfl, rfl⟩, mul_one]
          congr 1
          simp [flatIndex]
        · intro u _ hu
          rw [hone 0 hco, if_neg fun h => hu h.2, mul_zero]
        · simp
      · intro ch hch h0
        refine Finset.sum_eq_zero fun u _ => ?_
        rw [hone ch (Finset.mem_range.1 hch), if_neg fun h => h0 h.1, mul_zero]
      · intro h
        exact absurd (Finset.mem_range.2 hco) h
    simp only [hzero, mul_zero, Finset.sum_const_zero, zero_add, hsum]
    intro h
    exact hF (by linarith)

end RdConv

/-! ### Transposed convolutions -/

namespace RdConvT

theorem eval_current {R : Type} {l : RdConvT n S R A} {p : Kern × Option (ℕ → ℝ)} (hp : l.current = .ok p) : ∃ F b, l.train false = .ok { l with filter := F, expandedBias := b, training := false } ∧
    ({ l with filter := F, expandedBias := b, training := false } : RdConvT n S R A).current = .ok p := by
  by_cases ht : l.training = true
  · have he : l.expandParameters = .ok p := by rw [current, if_neg (by simp [ht])] at hp; exact hp
    refine ⟨some p.1, some p.2, ?_, ?_⟩
    · rw [train, if_neg (by simp), if_pos ht, he]
      rfl
    · rw [current, if_pos (by simp)]
  · refine ⟨l.filter, l.expandedBias, ?_, ?_⟩
    · rw [train, if_neg (by simp), if_neg ht]
    · rw [current, if_pos (by simp)]
      rw [current, if_pos ht] at hp
      exact hp

theorem convT_ok {W : Kern} {k stride : ℕ} {pad opad : Fin n → ℕ} {dil groups : ℕ} {b : Option (ℕ → ℝ)} {x y : FMap n B} (h : convTransposeNd W k stride pad opad dil groups b x = .ok y) :
    y.chans = W.cols * groups ∧ 0 < groups ∧ x.chans = W.rows ∧ W.rows % groups = 0 := by
  unfold convTransposeNd at h
  split_ifs at h with hc
  cases h
  exact ⟨rfl, hc.2.2.2.1, hc.2.2.2.2.1, hc.2.2.2.2.2.1⟩

/-- What `export` returns. -/
theorem export_spec {l : RdConvT n S (Rep G Id) A} {p : Kern × Option (ℕ → ℝ)} (hp : l.current = .ok p) (hg : 0 < l.groups) (hr : l.inType.size Rep.size = p.1.rows)
    (hc : l.outType.size Rep.size = p.1.cols * l.groups) (hmod : p.1.rows % l.groups = 0) (hb : p.2.isSome = l.biasExpansion.isSome) :
    ∃ l' c, l.export' Rep.size = .ok (l', c) ∧ l'.training = false ∧ (∀ (x : FMap n B), c.forward x = convTransposeNd p.1 l.kernelSize l.stride l.pad (fun _ => 0) l.dilation l.groups p.2 x) ∧
      ∀ (x : GMap n B S (Rep G Id)), x.type = l.inType →
        l'.forward x = (convTransposeNd p.1 l.kernelSize l.stride l.pad l.opad l.dilation l.groups p.2 x.map >>= fun y => GMap.mk' Rep.size y l.outType) := by
  obtain ⟨F, b, h1, h2⟩ := eval_current hp
  have hbias : exportBias l.biasExpansion p.2 = .ok p.2 := by
    unfold exportBias
    cases hbe : l.biasExpansion with
    | none =>
      rw [hbe] at hb
      rw [if_neg (by simp)]
      congr 1
      exact (Option.not_isSome_iff_eq_none.1 (by rw [hb]; simp)).symm
    | some M =>
      rw [hbe] at hb
      rw [if_pos (by simp)]
      obtain ⟨v, hv⟩ := Option.isSome_iff_exists.1 (hb.trans rfl)
      rw [hv]
  refine ⟨{ l with filter := F, expandedBias := b, training := false }, ⟨l.kernelSize, l.stride, l.pad, fun _ => 0, l.dilation, l.groups, p.1, p.2⟩, ?_, rfl, fun _ => rfl, fun x hx => ?_⟩
  · unfold export'
    simp only [h1, h2, bind, Except.bind, hbias]
    rw [if_pos ⟨hg, by rw [hr]; exact hmod, by rw [hc]; simp⟩, if_pos ⟨hr.symm, by rw [hc]; exact (Nat.mul_div_cancel _ hg).symm⟩]
  · unfold forward
    rw [if_neg (by rw [hx]; simp), h2]
    rfl

/-- **C46** Transposed convolutions without output padding: `export` succeeds and the two modules compute the same on all inputs.  (Missing: `output_padding`, see `C46_output_padding_violated`.) -/
theorem C46_transposed_partial (l : RdConvT n S (Rep G Id) A) {p : Kern × Option (ℕ → ℝ)} (hp : l.current = .ok p) (hg : 0 < l.groups) (hr : l.inType.size Rep.size = p.1.rows)
    (hc : l.outType.size Rep.size = p.1.cols * l.groups) (hmod : p.1.rows % l.groups = 0) (hb : p.2.isSome = l.biasExpansion.isSome) (ho : ∀ i, l.opad i = 0) :
    ∃ l' c, l.export' Rep.size = .ok (l', c) ∧ l'.training = false ∧
      SameFunction (HoldsMap l.inType) (HoldsMap l.outType) (fun x : GMap n B S (Rep G Id) => l'.forward x) c.forward := by
  obtain ⟨l', c, h1, h2, h3, h4⟩ := export_spec (B := B) hp hg hr hc hmod hb
  refine ⟨l', c, h1, h2, wrap_same h4 (fun x z hxz _ => ?_) fun x y _ hy => (convT_ok hy).1.trans hc.symm⟩
  rw [h3, show l.opad = fun _ => 0 from funext ho]
  exact convTransposeNd_congr _ _ _ _ _ _ _ _ hxz

/-- **C46** With an output padding, in any state in which `export` succeeds, the exported module never returns a tensor of the shape of the output of the module: `output_padding` is lost. -/
theorem C46_output_padding_violated (l l' : RdConvT n S (Rep G Id) A) (c : TorchConvT n) (he : l.export' Rep.size = .ok (l', c)) (i : Fin n) (ho : l.opad i ≠ 0) (x : GMap n B S (Rep G Id))
    (y : GMap n B S (Rep G Id)) (hy : l'.forward x = .ok y) (z : FMap n B) (hz : c.forward x.map = .ok z) : z.shape i + l.opad i = y.map.shape i ∧ z.shape i ≠ y.map.shape i := by
  suffices h : z.shape i + l.opad i = y.map.shape i from ⟨h, by omega⟩
  unfold export' at he
  obtain ⟨m, h1, he⟩ := bind_ok he
  obtain ⟨p, h2, he⟩ := bind_ok he
  split_ifs at he with c1 c2
  obtain ⟨b, h3, he⟩ := bind_ok he
  obtain ⟨e1, e2⟩ := Prod.mk.inj (Except.ok.inj he)
  subst e1 e2
  have hm : m.kernelSize = l.kernelSize ∧ m.stride = l.stride ∧ m.pad = l.pad ∧ m.opad = l.opad ∧ m.dilation = l.dilation := by
    unfold train at h1
    rw [if_neg (by simp)] at h1
    split_ifs at h1
    · obtain ⟨q, -, h1⟩ := bind_ok h1
      obtain rfl := Except.ok.inj h1
      exact ⟨rfl, rfl, rfl, rfl, rfl⟩
    · obtain rfl := Except.ok.inj h1
      exact ⟨rfl, rfl, rfl, rfl, rfl⟩
  unfold forward at hy
  split_ifs at hy
  obtain ⟨q, -, hy⟩ := bind_ok hy
  obtain ⟨w, hw, hy⟩ := bind_ok hy
  obtain ⟨hy, -⟩ := GMap.mk'_ok hy
  have hyw : y.map = w := by rw [hy]
  rw [hyw]
  unfold TorchConvT.forward convTransposeNd at hz
  unfold convTransposeNd at hw
  split_ifs at hz with c3
  split_ifs at hw with c4
  cases hz
  cases hw
  have h5 := (c3.2.2.2.2.2.2 i).2.2
  simp only [hm.1, hm.2.1, hm.2.2.1, hm.2.2.2.1, hm.2.2.2.2]
  push_cast at h5 ⊢
  omega

end RdConvT

/-! ### Examples -/

/-- The hypotheses of `C46_conv_partial` hold for a convolution with padding 1; that of `convDemo` in C43 is in training mode. -/
example (blocks : Blocks (Rep Unit Unit) Unit) : ∃ l' c, (shapeConv (.int 1) (fun _ => 1) blocks).export' Rep.size = .ok (l', c) ∧ l'.training = false ∧
    SameFunction (HoldsMap shapeType) (HoldsMap shapeType) (fun x : GMap 2 Unit Unit (Rep Unit Unit) => l'.forward x) c.forward :=
  RdConv.C46_conv_partial (shapeConv (.int 1) (fun _ => 1) blocks) rfl (p := (⟨1, 1, fun _ _ _ => 2⟩, none)) rfl rfl (show 0 < 1 by decide) rfl (Nat.mod_one 1) rfl

theorem RdConv.init_attrs [DecidableEq Id] {size : Id → ℕ} {triv : Id} {gdim : S → ℕ} {gen : List (Fin n → ℝ) → Rep G Id → Rep G Id → Except Err (KBasis A)} {filt : Option (Attr A → Bool)} {uin uout : List (Rep G Id)}
    {inT outT : FType S (Rep G Id)} {k : ℕ} {padding : Padding} {stride dil : ℕ} {mode : PadMode} {groups : ℕ} {bias : Bool} {w0 : ℕ → ℝ} {l : RdConv n S (Rep G Id) A}
    (h : RdConv.init size triv gdim gen filt uin uout inT outT k padding stride dil mode groups bias w0 = .ok l) : l.inType = inT ∧ l.outType = outT ∧ l.mode = mode ∧ l.training = true := by
  unfold RdConv.init at h
  by_cases c1 : inT.gspace ≠ outT.gspace ∨ n < gdim inT.gspace
  · rw [if_pos c1] at h; exact absurd h (by simp)
  · rw [if_neg c1] at h
    obtain ⟨_, -, h⟩ := bind_ok h
    by_cases c2 : mode = .other
    · rw [if_pos c2] at h; exact absurd h (by simp)
    · rw [if_neg c2] at h
      obtain ⟨_, -, h⟩ := bind_ok h
      obtain ⟨_, -, h⟩ := bind_ok h
      split_ifs at h <;> (obtain rfl := Except.ok.inj h; exact ⟨rfl, rfl, rfl, rfl⟩)

/-- The hypotheses of `C46_conv_trained_partial` hold for kernels of size 3 with padding 1 at the radii 0 and 1 which are equivariant under `C_4`, for all weights. -/
example (w0 : ℕ → ℝ) (l) (hl : RdConv.init (Cyclic.irrepSize 4) 0 (fun _ => 2) (planeGen fun i o => kernelsCN 4 i o [0, 1] [1, 1] 2 none fun _ => 0) none
      convDemo.reprs convDemo.reprs convDemo convDemo 3 (.int 1) 1 1 .zeros 1 true w0 = .ok l) (w bw : ℕ → ℝ) :
    ∃ l' c, ({ l with weights := w, bias := bw } : RdConv 2 Unit (Rep ℤ ℕ) _).export' Rep.size = .ok (l', c) ∧ l'.training = false ∧
      SameFunction (HoldsMap convDemo) (HoldsMap convDemo) (fun x : GMap 2 Unit Unit (Rep ℤ ℕ) => l'.forward x) c.forward := by
  have hn : ∀ r ∈ convDemo.reprs, ∀ r' ∈ convDemo.reprs, escName r.name = escName r'.name → r = r' := by
    intro r hr r' hr' h
    simp only [convDemo, List.mem_cons, List.not_mem_nil, or_false] at hr hr'
    rcases hr with rfl | rfl <;> rcases hr' with rfl | rfl
    · rfl
    · exact absurd h (by decide)
    · exact absurd h (by decide)
    · rfl
  have hnd : convDemo.reprs.Nodup := by
    refine List.Nodup.of_map Rep.name ?_
    decide
  rcases RdConv.C43_cyclic (B := Unit) 4 (by norm_num) [0, 1] [1, 1] 2 (fun _ => 0) rfl (by simp) (by simp) (fun x _ => .ok x) convDemo convDemo rfl convDemo_wf convDemo_wf (by simp [convDemo]) (by simp [convDemo]) none
    (fun _ => Iff.rfl) hnd (fun _ => Iff.rfl) hnd hn hn 3 (by norm_num) (.int 1) (fun _ => 1) rfl (fun _ _ => rfl) 1 1 (by norm_num) (by norm_num) .zeros (by decide) 1 (by norm_num) convDemo
    (by simp [RdConv.groupType]) true w0 with ⟨h, -⟩ | ⟨l', h1, h2⟩
  · rw [hl] at h
    simp at h
  · rw [hl] at h1
    obtain rfl := Except.ok.inj h1
    have hsz : 3 = convDemo.size Rep.size := by simp [convDemo, FType.size_eq, irrepRep, Rep.size, NpMat.eye, Cyclic.table, Cyclic.irrepSize]
    obtain ⟨y, -, -, -, hy, -⟩ := h2 w bw 0 (by decide) (by norm_num) ⟨3, fun _ => 7, fun _ _ _ => 0⟩ hsz (by simp) (by simp [padOk]) (by simp)
    obtain ⟨a1, a2, a3, a4⟩ := RdConv.init_attrs hl
    have key : ∀ a b, l.inType = a → l.outType = b → 3 = a.size Rep.size → RdConv.forward { l with weights := w, bias := bw } ⟨⟨3, fun _ => 7, fun _ _ _ => 0⟩, a⟩ = .ok ⟨y, convDemo⟩ →
        ∃ l' c, ({ l with weights := w, bias := bw } : RdConv 2 Unit (Rep ℤ ℕ) _).export' Rep.size = .ok (l', c) ∧ l'.training = false ∧
          SameFunction (HoldsMap a) (HoldsMap b) (fun x : GMap 2 Unit Unit (Rep ℤ ℕ) => l'.forward x) c.forward := by
      rintro _ _ rfl rfl h3 h4
      exact RdConv.C46_conv_trained_partial (B := Unit) { l with weights := w, bias := bw } a3 a4 h3 h4
    exact key _ _ a1 a2 hsz hy

/-- The hypotheses of `C46_circular_violated` hold for a convolution with a constant filter. -/
example (blocks : Blocks (Rep Unit Unit) Unit) :
    let l : RdConv 2 Unit (Rep Unit Unit) Unit := ⟨shapeType, shapeType, 3, .int 1, fun _ => 1, 1, 1, .circular, 1, blocks, none, fun _ => 0, fun _ => 0, false, some ⟨1, 1, fun _ _ _ => 2⟩, some none⟩
    ∃ l' c, l.export' Rep.size = .ok (l', c) ∧ ∃ (x : FMap 2 Unit) (y z : FMap 2 Unit), x.chans = 1 ∧ l'.forward ⟨x, shapeType⟩ = .ok ⟨y, shapeType⟩ ∧ c.forward x = .ok z ∧
      y.shape = z.shape ∧ y.get () 0 (fun _ => 0) ≠ z.get () 0 fun _ => 0 := by
  intro l
  exact RdConv.C46_circular_violated l (by decide) rfl (p := (⟨1, 1, fun _ _ _ => 2⟩, none)) rfl rfl (by decide) rfl rfl rfl rfl rfl rfl (by decide) rfl (by norm_num)

/-- A transposed convolution of one trivial field with stride 2. -/
noncomputable def shapeConvT (opad : ℕ) (blocks : Blocks (Rep Unit Unit) Unit) : RdConvT 2 Unit (Rep Unit Unit) Unit :=
  ⟨shapeType, shapeType, 1, .int 0, .int opad, fun _ => 0, fun _ => opad, 2, 1, 1, blocks, none, fun _ => 0, fun _ => 0, false, some ⟨1, 1, fun _ _ _ => 2⟩, some none⟩

/-- The hypotheses of `C46_transposed_partial` hold. -/
example (blocks : Blocks (Rep Unit Unit) Unit) : ∃ l' c, (shapeConvT 0 blocks).export' Rep.size = .ok (l', c) ∧ l'.training = false ∧
    SameFunction (HoldsMap shapeType) (HoldsMap shapeType) (fun x : GMap 2 Unit Unit (Rep Unit Unit) => l'.forward x) c.forward :=
  RdConvT.C46_transposed_partial (shapeConvT 0 blocks) (p := (⟨1, 1, fun _ _ _ => 2⟩, none)) rfl (show 0 < 1 by decide) rfl rfl (Nat.mod_one 1) rfl fun _ => rfl

/-- The hypotheses of `C46_output_padding_violated` hold for the output padding 1 on a 3 × 3 map: both modules work, the shapes are 6 × 6 and 5 × 5. -/
example (blocks : Blocks (Rep Unit Unit) Unit) : ∃ l' c, (shapeConvT 1 blocks).export' Rep.size = .ok (l', c) ∧ ∃ y z, l'.forward (⟨shapeMap 2 3, shapeType⟩ : GMap 2 Unit Unit (Rep Unit Unit)) = .ok y ∧
    c.forward (shapeMap 2 3) = .ok z ∧ y.map.shape 0 = 6 ∧ z.shape 0 = 5 := by
  obtain ⟨l', c, h1, h2, h3, h4⟩ := RdConvT.export_spec (B := Unit) (l := shapeConvT 1 blocks) (p := (⟨1, 1, fun _ _ _ => 2⟩, none)) rfl (show 0 < 1 by decide) rfl rfl (Nat.mod_one 1) rfl
  obtain ⟨z, hz, hzs⟩ : ∃ z, convTransposeNd ⟨1, 1, fun _ _ _ => 2⟩ 1 2 (fun _ : Fin 2 => 0) (fun _ => 0) 1 1 none (shapeMap 2 3) = .ok z ∧ z.shape 0 = 5 := ⟨_, if_pos (by simp [shapeMap]), by simp [shapeMap]⟩
  obtain ⟨y, hy, hc⟩ : ∃ y, convTransposeNd ⟨1, 1, fun _ _ _ => 2⟩ 1 2 (fun _ : Fin 2 => 0) (fun _ => 1) 1 1 none (shapeMap 2 3) = .ok y ∧ y.chans = 1 := ⟨_, if_pos (by simp [shapeMap]), rfl⟩
  have hf : l'.forward (⟨shapeMap 2 3, shapeType⟩ : GMap 2 Unit Unit (Rep Unit Unit)) = .ok ⟨y, shapeType⟩ := by
    rw [h4 _ rfl]
    simp only [shapeConvT]
    rw [hy]
    exact if_pos hc
  have hz' : c.forward (shapeMap 2 3) = .ok z := (h3 _).trans hz
  refine ⟨l', c, h1, _, z, hf, hz', ?_, hzs⟩
  have := RdConvT.C46_output_padding_violated (shapeConvT 1 blocks) l' c h1 0 (by simp [shapeConvT]) _ _ hf z hz'
  rw [← this.1, hzs]
  rfl

end Escnn
