import Verif.Lemmas.ExportTensor
import Verif.Props.C42_Linear
import Verif.Props.C55_Pool

/-!
# C46: the exported linear layers, pointwise nonlinearities and group poolings
-/

namespace Escnn

open Finset

variable {B P S G Id A C : Type}

namespace Linear

theorem affine_congr (M : NpMat ℝ) (b : Option (ℕ → ℝ)) {x z : FTensor B P} (h : x ≈ z) : SameResult (fun y w => y ≈ w) (affine M b x) (affine M b z) := by
  obtain ⟨h1, h2⟩ := h
  unfold affine
  refine SameResult.ite (by rw [h1]) (fun hc => SameResult.ok ⟨rfl, fun i r p _ => ?_⟩) _ _
  show ∑ c ∈ range M.cols, M.get r c * x.get i c p + biasAt b r = ∑ c ∈ range M.cols, M.get r c * z.get i c p + biasAt b r
  congr 1
  refine sum_congr rfl fun c hc' => ?_
  rw [h2 i c p (hc ▸ mem_range.1 hc')]

/-- **C46** Linear layers: for each layer whose parameters can be expanded to a matrix with the rows of the output type (always the case for a constructed layer, see the example), in training or in evaluation mode and after
any training, `export` returns the layer in evaluation mode and a `torch.nn.Linear` which computes the same function. -/
theorem C46_linear (l : Linear S (Rep G Id) A) {p : NpMat ℝ × Option (ℕ → ℝ)} (hp : l.expandParameters = .ok p) (hrows : p.1.rows = l.outType.size Rep.size) :
    ∃ l' c, l.export' = .ok (l', c) ∧ l'.inType = l.inType ∧ l'.outType = l.outType ∧ l'.weights = l.weights ∧ l'.bias = l.bias ∧ l'.training = false ∧
      SameFunction (HoldsTensor (B := B) (P := Unit) (C := C) l.inType) (HoldsTensor l.outType) l'.forward c.forward := by
  have htr : l.train false = .ok { l with matrix := some p.1, expandedBias := some p.2, training := false } := by
    unfold train
    simp only [Bool.false_eq_true, if_false, hp, bind, Except.bind]
  have hb : exportBias l.biasExpansion p.2 = .ok p.2 := by
    unfold expandParameters at hp
    obtain ⟨F, -, h⟩ := bind_ok hp
    rw [← Except.ok.inj h]
    cases he : l.biasExpansion <;> rfl
  refine ⟨{ l with matrix := some p.1, expandedBias := some p.2, training := false }, ⟨p.1, p.2⟩, ?_, rfl, rfl, rfl, rfl, rfl, ?_⟩
  · unfold export'
    simp only [htr, current, Bool.false_eq_true, not_false_eq_true, if_true, hb, bind, Except.bind]
  · refine wrapT_same (k := affine p.1 p.2) (fun x hx => ?_) (fun x z h _ => affine_congr _ _ h) fun x y _ h => ?_
    · unfold forward
      rw [if_neg (not_not.2 hx)]
      simp only [current, Bool.false_eq_true, not_false_eq_true, if_true, bind, Except.bind]
    · unfold affine at h
      split_ifs at h
      rw [← Except.ok.inj h]
      exact hrows

/-- The layer between the fields of the irreps 0 and 1 of `C_3`, for all weights and biases. -/
example (w0 : ℕ → ℝ) : ∃ l, Linear.init (Cyclic.irrepSize 3) 0 (pointGen (Cyclic.kgroup 3) 0) linearDemo.reprs linearDemo.reprs linearDemo linearDemo true w0 = .ok l ∧
    ∀ w bw, ∃ p, expandParameters { l with weights := w, bias := bw } = .ok p ∧ p.1.rows = l.outType.size Rep.size := by
  have hwf : ∀ r ∈ linearDemo.reprs, r.WF (Cyclic.table 3) fun g => Cyclic.isElement 3 g = true := by
    intro r hr
    simp only [linearDemo, List.mem_cons, List.not_mem_nil, or_false] at hr
    rcases hr with rfl | rfl
    · exact irrepRep_wf (Cyclic.table_valid 3 (by norm_num)) rfl (by decide) _ _
    · exact irrepRep_wf (Cyclic.table_valid 3 (by norm_num)) rfl (by decide) _ _
  have hn : ∀ r ∈ linearDemo.reprs, ∀ r' ∈ linearDemo.reprs, escName r.name = escName r'.name → r = r' := by
    intro r hr r' hr' h
    simp only [linearDemo, List.mem_cons, List.not_mem_nil, or_false] at hr hr'
    rcases hr with rfl | rfl <;> rcases hr' with rfl | rfl
    · rfl
    · exact absurd h (by decide)
    · exact absurd h (by decide)
    · rfl
  have hnd : linearDemo.reprs.Nodup := by
    refine List.Nodup.of_map Rep.name ?_
    decide
  obtain ⟨l, h1, h2, h3, h4⟩ := C42_equivariant_partial (B := Unit) (C := Unit) (Cyclic.kgroup 3) 0 (Cyclic.table_valid 3 (by norm_num)) (Cyclic.isElement_zero (by norm_num)) (Cyclic.C18_cyclic 3 (by norm_num)).1
    (Cyclic.trivial 3) linearDemo linearDemo rfl hwf hwf
    (fun m n hm hn => ⟨Cyclic.tensor_nodup 3 m n (of_decide_eq_true hm) (of_decide_eq_true hn), Cyclic.kgroup_cg 3 (by norm_num) m n (of_decide_eq_true hm) (of_decide_eq_true hn)⟩)
    (fun _ => Iff.rfl) hnd (fun _ => Iff.rfl) hnd hn hn true w0
  refine ⟨l, h1, fun w bw => ?_⟩
  obtain ⟨l', h5, -, h6⟩ := h4 (by simp [linearDemo]) w bw
  obtain ⟨p, h7, -⟩ := bind_ok (show (expandParameters { l with weights := w, bias := bw } >>= fun p => _) = .ok l' from h5)
  refine ⟨p, h7, ?_⟩
  obtain ⟨y, _, _, _, h8, -⟩ := h6 ⟨⟨linearDemo.size Rep.size, fun _ _ _ => 0⟩, linearDemo, ()⟩ rfl rfl 1 (by decide)
  unfold forward at h8
  split_ifs at h8
  obtain ⟨q, h9, h8⟩ := bind_ok h8
  obtain ⟨u, h10, h11⟩ := bind_ok h8
  have hcur : expandParameters { l with weights := w, bias := bw } = .ok q := by
    rw [← h9]
    exact (if_neg (by rw [h3]; simp)).symm
  obtain rfl : p = q := Except.ok.inj (h7.symm.trans hcur)
  rw [FType.size_eq, ← (GTensor.mk'_ok_iff.1 h11).1]
  unfold affine at h10
  split_ifs at h10
  rw [← Except.ok.inj h10]

end Linear

namespace PointwiseNL

/-- **C46** `ReLU`, `LeakyReLU` and `ELU`: the exported module computes the same function, for all inputs of the type. -/
theorem C46_pointwise (m : PointwiseNL S (Rep G Id)) : SameFunction (HoldsTensor (B := B) (P := P) (C := C) m.inType) (HoldsTensor m.inType) m.forward m.export' := by
  refine wrapT_same (k := fun x => .ok ⟨x.chans, fun b c p => m.function (x.get b c p)⟩) (fun x hx => ?_) (fun x z h _ => ?_) fun x y hx h => ?_
  · exact if_pos hx
  · exact SameResult.ok ⟨h.1, fun b c p hc => congrArg m.function (h.2 b c p hc)⟩
  · rw [← Except.ok.inj h]
    exact hx

/-- A field of the regular representation of `C_2`. -/
example (x : GTensor Unit Unit Unit (Rep ℤ ℕ) Unit) (z : FTensor Unit Unit) (t : FType Unit (Rep ℤ ℕ)) (ht : ∀ r ∈ t.reprs, "pointwise" ∈ r.nonlin) (h : HoldsTensor t x z) :
    ∃ m, initReLU t = .ok m ∧ SameResult (HoldsTensor t) (m.forward x) (m.export' z) := ⟨⟨t, torchRelu⟩, if_pos ht, C46_pointwise _ x z h⟩

end PointwiseNL

namespace PoolMap

theorem chanOffset_const {rs : List (Rep G Id)} {s : ℕ} (h : ∀ r ∈ rs, r.size = s) : ∀ {k : ℕ}, k ≤ rs.length → chanOffset Rep.size rs k = k * s := by
  intro k hk
  have : (rs.take k).map Rep.size = List.replicate k s := by
    rw [List.eq_replicate_iff]
    refine ⟨by simp; omega, fun z hz => ?_⟩
    obtain ⟨r, hr, rfl⟩ := List.mem_map.1 hz
    exact h r (List.mem_of_mem_take hr)
  rw [chanOffset, this, List.sum_replicate, smul_eq_mul]

/-- **C46** Group pooling: if all the representations have the same size, the exported module computes the same function; otherwise `export` raises `NotImplementedError`. -/
theorem C46_gpool (triv : Rep G Id) (h1 : triv.size = 1) (t : FType S (Rep G Id)) (hpos : ∀ r ∈ t.reprs, 0 < r.size) {m : PoolMap ℕ S (Rep G Id)} (hm : gpoolInit triv t = .ok m) (junk : B → ℕ → P → ℝ) :
    (∀ s, t.reprs ≠ [] → (∀ r ∈ t.reprs, r.size = s) → ∃ h, m.exportGpool = .ok h ∧ SameFunction (HoldsTensor (B := B) (P := P) (C := C) t) (HoldsTensor m.outType) (forward gpoolStep junk m) h) ∧
    ((∃ r ∈ t.reprs, ∃ r' ∈ t.reprs, r.size ≠ r'.size) → (m.exportGpool : Except Err (FTensor B P → Except Err (FTensor B P))) = .error .notImplemented) := by
  have hm' : normInit triv t = .ok m := by
    unfold gpoolInit at hm
    split_ifs at hm
    exact hm
  obtain ⟨m', e1, e2, e3, -, -, e6, e7⟩ := normInit_ok h1 hpos
  obtain rfl : m = m' := Except.ok.inj (hm'.symm.trans e1)
  constructor
  · intro s hne hs
    obtain ⟨r, hr⟩ := List.exists_mem_of_ne_nil _ hne
    have hs0 : 0 < s := hs r hr ▸ hpos r hr
    have hord : m.order = [s] := by
      have hall : ∀ l ∈ m.order, l = s := fun l hl => by
        obtain ⟨r, hr, rfl⟩ := List.mem_map.1 ((e7 l).1 hl)
        exact hs r hr
      have hmem : s ∈ m.order := (e7 s).2 (List.mem_map.2 ⟨r, hr, hs r hr⟩)
      rw [List.eq_replicate_iff.2 ⟨rfl, hall⟩] at e6 hmem ⊢
      have hle := List.nodup_replicate.1 e6
      have : m.order.length = 1 := by
        have : m.order.length ≠ 0 := fun h => by simp [h] at hmem
        omega
      rw [this]; rfl
    refine ⟨maxPoolChannels s, ?_, fun x z ⟨hx, hc, hz⟩ => ?_⟩
    · unfold exportGpool
      rw [if_neg (by simp [hord]), hord]
      rfl
    · have hch : x.tensor.chans = t.reprs.length * s := by rw [hc, FType.size_eq, ← chanOffset_length, chanOffset_const hs le_rfl]
      have hch' : z.chans = t.reprs.length * s := hz.1 ▸ hch
      obtain ⟨y, f1, f2, -, f4, f5⟩ := values_spec (step := gpoolStep) h1 hpos hm' (fun l v => maxOf l v) (fun l v w h => maxOf_congr h) gpoolStep_spec junk x hx hc
      obtain ⟨f, g1, g2, g3, g4⟩ := toFields_div z hs0 hch'
      refine .inl ⟨y, ⟨f.n, fun b c p => maxOf s fun o => f.get b c o p⟩, f1, ?_, f2.trans e3.symm, by rw [f4, e3], ?_⟩
      · unfold maxPoolChannels
        rw [if_neg hs0.ne', if_pos (by rw [hch']; exact Nat.mul_mod_left _ _)]
        simp only [g1, bind, Except.bind]
      · have hlen : y.tensor.chans = t.reprs.length := by
          rw [f4, FType.size_eq]
          simp [h1]
        refine ⟨hlen.trans g2.symm, fun b c p hc' => ?_⟩
        rw [hlen] at hc'
        have hr := List.getElem?_eq_getElem hc'
        rw [f5 c _ hr b p, hs _ (List.getElem_mem _)]
        refine maxOf_congr fun o ho => ?_
        rw [g4, chanOffset_const hs hc'.le]
        refine hz.2 b _ p ?_
        rw [hch]
        nlinarith
  · rintro ⟨r, hr, r', hr', hne⟩
    unfold exportGpool
    refine if_pos ?_
    by_contra hlt
    have m1 := (e7 _).2 (List.mem_map_of_mem hr)
    have m2 := (e7 _).2 (List.mem_map_of_mem hr')
    rcases hL : m.order with _ | ⟨a, _ | ⟨b, L⟩⟩
    · rw [hL] at m1; simp at m1
    · rw [hL, List.mem_singleton] at m1 m2
      exact hne (m1.trans m2.symm)
    · rw [hL] at hlt; simp at hlt

/-- Two fields of the same representation. -/
example (triv r : Rep G Id) (h1 : triv.size = 1) (hr : 0 < r.size) (hnl : "pointwise" ∈ r.nonlin) (g : S) (junk : B → ℕ → P → ℝ) :
    ∃ m h, gpoolInit triv ⟨g, [r, r]⟩ = .ok m ∧ m.exportGpool = .ok h ∧ SameFunction (HoldsTensor (B := B) (P := P) (C := C) ⟨g, [r, r]⟩) (HoldsTensor m.outType) (forward gpoolStep junk m) h := by
  obtain ⟨m, hm⟩ := (C55_init triv h1 (⟨g, [r, r]⟩ : FType S (Rep G Id)) (by simp [hr])).2.2 (by simp [hnl])
  obtain ⟨h, e1, e2⟩ := (C46_gpool (B := B) (P := P) (C := C) triv h1 ⟨g, [r, r]⟩ (by simp [hr]) hm junk).1 r.size (by simp) (by simp)
  exact ⟨m, h, hm, e1, e2⟩

end PoolMap

end Escnn
