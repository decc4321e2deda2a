import Verif.Props.C47_Shapes
import Verif.Lemmas.RunTable

/-!
# C47 for `NormMaxPool`, and the cases in which the prediction is wrong
-/

namespace Escnn

variable {n : ℕ} {S G Id A B : Type} [DecidableEq Id]

theorem getD_ofFn_nat (f : Fin n → ℕ) (i : Fin n) : (List.ofFn fun i => (f i : ℤ)).getD i 0 = f i := by
  simp [List.getD]

namespace NormMaxPool

omit [DecidableEq Id] in
theorem evaluate_eq (l : NormMaxPool n S (Rep G Id)) (x : GMap n B S (Rep G Id)) (hx : x.map.chans = l.inType.size Rep.size) (b : ℤ) :
    l.evaluateOutputShape (x.map.sizes b) = .ok (b :: (l.inType.size Rep.size : ℤ) :: List.ofFn fun i : Fin n => ⌊poolQuot l.args i (x.map.shape i)⌋) := by
  rw [evaluateOutputShape, checkedShape_sizes _ _ hx]
  simp only [getD_ofFn']

omit [DecidableEq Id] in
theorem getD_two (a c : ℤ) (f : Fin n → ℤ) (i : Fin n) : (a :: c :: List.ofFn f).getD (2 + i) 0 = f i := by
  have : 2 + (i : ℕ) = (i : ℕ) + 1 + 1 := by omega
  rw [this, List.getD_cons_succ, List.getD_cons_succ, getD_ofFn']

/-- C47 for norm max pooling: whenever `forward` returns, `evaluate_output_shape` returns the shape of its output. -/
theorem C47_normmax (dflt : (Fin n → ℕ) → Fin n → ℕ) (junk : B → ℕ → (Fin n → ℕ) → ℝ) (l : NormMaxPool n S (Rep G Id)) (hne : l.inType.reprs ≠ []) (x y : GMap n B S (Rep G Id))
    (hx : x.map.chans = x.type.size Rep.size) (h : l.forward dflt junk x = .ok y) (b : ℤ) : l.evaluateOutputShape (x.map.sizes b) = .ok (y.map.sizes b) := by
  unfold forward at h
  split_ifs at h with ht
  rw [not_not] at ht
  obtain ⟨sh, h1, h⟩ := bind_ok h
  rw [evaluate_eq l x (by rw [hx, ht])] at h1
  cases h1
  obtain ⟨z, h2, h⟩ := bind_ok h
  obtain ⟨rfl, hc⟩ := GMap.mk'_ok h
  rw [evaluate_eq l x (by rw [hx, ht])]
  simp only at hc
  simp only [FMap.sizes, hc, Except.ok.injEq, List.cons.injEq, true_and, getD_two]
  congr 1
  funext i
  obtain ⟨s, ks, hks⟩ : ∃ s ks, keysInOrder (l.inType.reprs.map Rep.size) = s :: ks := by
    cases hk : keysInOrder (l.inType.reprs.map Rep.size) with
    | nil =>
      exfalso
      obtain ⟨r, hr⟩ := List.exists_mem_of_ne_nil _ hne
      have := mem_keysInOrder.2 (List.mem_map_of_mem hr : r.size ∈ l.inType.reprs.map Rep.size)
      rw [hk] at this
      simp at this
    | cons s ks => exact ⟨s, ks, rfl⟩
  rw [hks, groupedLoop] at h2
  obtain ⟨_, -, h2⟩ := bind_ok h2
  obtain ⟨d, -, h2⟩ := bind_ok h2
  obtain ⟨e, h3, -⟩ := bind_ok h2
  unfold poolFields at h3
  obtain ⟨f, -, h3⟩ := bind_ok h3
  split_ifs at h3 with h4 h5
  have h6 := congrFun (not_not.1 h5) i
  have h7 := (h4 i).2.2.2.2
  simp only [PoolArgs.outShape, getD_two] at h6
  omega

/-- If the sizes differ, which happens in `ceil_mode`, `forward` raises `RuntimeError` (the index array has another number of entries). -/
theorem C47_normmax_raises (dflt : (Fin n → ℕ) → Fin n → ℕ) (junk : B → ℕ → (Fin n → ℕ) → ℝ) (gdim : S → ℕ) (inType : FType S (Rep G Id)) (hne : inType.reprs ≠ []) (hpos : ∀ r ∈ inType.reprs, 0 < r.size)
    (args : PoolArgs n) (l : NormMaxPool n S (Rep G Id)) (hl : init gdim inType args = .ok l) (x : GMap n B S (Rep G Id)) (ht : x.type = inType) (hx : x.map.chans = x.type.size Rep.size) (i : Fin n)
    (hi : ⌊poolQuot args i (x.map.shape i)⌋ ≠ poolSize (x.map.shape i) (args.kernel i) (args.stride i) (args.padding i) (args.dilation i) args.ceilMode) :
    l.forward dflt junk x = .error .runtime := by
  obtain ⟨T, hT1, hT2⟩ := runTable_spec (sz := Rep.size) inType hpos (inType.reprs.map Rep.size) (by simp)
  unfold init at hl
  split at hl
  · simp at hl
  rw [hT1] at hl
  cases hl
  unfold forward
  rw [if_neg (not_not.2 ht)]
  have hxs : x.map.chans = (inType.reprs.map Rep.size).sum := by rw [hx, ht, FType.size_eq]
  simp only [bind, Except.bind]
  rw [evaluate_eq _ x (by rw [hx, ht])]
  simp only
  obtain ⟨s, ks, hks⟩ : ∃ s ks, keysInOrder (inType.reprs.map Rep.size) = s :: ks := by
    cases hk : keysInOrder (inType.reprs.map Rep.size) with
    | nil =>
      exfalso
      obtain ⟨r, hr⟩ := List.exists_mem_of_ne_nil _ hne
      have := mem_keysInOrder.2 (List.mem_map_of_mem hr : r.size ∈ inType.reprs.map Rep.size)
      rw [hk] at this
      simp at this
    | cons s ks => exact ⟨s, ks, rfl⟩
  have hs : s ∈ inType.reprs.map Rep.size := mem_keysInOrder.1 (by rw [hks]; simp)
  obtain ⟨c, idx, h1, h2⟩ := hT2 s hs
  obtain ⟨d, h3, h4, -⟩ := readIdx_ok (x := (⟨x.map.chans, x.map.get⟩ : FTensor B (Fin n → ℕ))) h2 (fun j hj => by rw [show (FTensor.mk x.map.chans x.map.get).chans = x.map.chans from rfl, hxs]; exact labelIdx_lt hj)
  have hlen := labelIdx_length (sz := Rep.size) (rs := inType.reprs) (labels := inType.reprs.map Rep.size) (by simp) s s (by
    intro k r hk hr
    rw [List.getElem?_map, hr] at hk
    simpa using hk)
  have hs0 : 0 < s := by
    obtain ⟨r, hr, rfl⟩ := List.mem_map.1 hs
    exact hpos r hr
  have hd : d.chans = d.chans / s * s := by
    rw [h4, hlen, Nat.mul_div_cancel _ hs0]
  rw [hks, groupedLoop]
  simp only [bind, Except.bind, tabGet_ok.2 h1, h3]
  unfold poolFields
  rw [FTensor.toFields, if_pos hd]
  simp only [bind, Except.bind]
  by_cases hok : args.Ok x.map.shape
  · rw [if_neg (not_not.2 hok), if_pos]
    intro he
    have h5 := congrFun he i
    have h6 := (hok i).2.2.2.2
    simp only [PoolArgs.outShape, getD_two] at h5
    omega
  · rw [if_pos hok]

end NormMaxPool

/-- One trivial field, for the examples. -/
noncomputable def shapeRep : Rep Unit Unit := ⟨"t", [()], NpMat.eye 1, NpMat.eye 1, fun _ => NpMat.eye 1, {"pointwise"}⟩
/-- The type of one trivial field. -/
noncomputable def shapeType : FType Unit (Rep Unit Unit) := ⟨(), [shapeRep]⟩
/-- A map of one channel. -/
def shapeMap (n w : ℕ) : FMap n Unit := ⟨1, fun _ => w, fun _ _ k => ((∑ i, k i : ℕ) : ℝ)⟩

theorem shapeType_size : shapeType.size Rep.size = 1 := rfl

/-- In `ceil_mode` the prediction can be wrong: windows of one entry with stride 2 on a 2 × 2 map; the output is 1 × 1, the prediction 2 × 2. -/
theorem ceil_violation (ninf : ℝ) :
    ∃ (l : PointwisePool 2 Unit (Rep Unit Unit)) (x y : GMap 2 Unit Unit (Rep Unit Unit)),
      PointwisePool.initMax (fun _ => 2) shapeType (PoolArgs.ofInt 2 1 (some 2) 0 1 true) = .ok l ∧ x.map.chans = x.type.size Rep.size ∧ l.forwardMax ninf x = .ok y ∧
      y.map.sizes 1 = [1, 1, 1, 1] ∧ l.evaluateOutputShape (x.map.sizes 1) = .ok [1, 1, 2, 2] := by
  have hok : (PoolArgs.ofInt 2 1 (some 2) 0 1 true).Ok (shapeMap 2 2).shape := by
    show ∀ i : Fin 2, _
    decide
  obtain ⟨y, hy1, hy2, hy3⟩ : ∃ y, maxPool ninf (PoolArgs.ofInt 2 1 (some 2) 0 1 true) (shapeMap 2 2) = .ok y ∧ y.chans = 1 ∧ y.shape = (PoolArgs.ofInt 2 1 (some 2) 0 1 true).outShape (shapeMap 2 2).shape :=
    ⟨_, if_pos hok, rfl, rfl⟩
  have hf : PointwisePool.forwardMax ninf ⟨shapeType, PoolArgs.ofInt 2 1 (some 2) 0 1 true⟩ ⟨shapeMap 2 2, shapeType⟩ = .ok ⟨y, shapeType⟩ := by
    rw [PointwisePool.forwardMax, if_neg (not_not.2 rfl)]
    simp only [bind, Except.bind]
    rw [hy1]
    exact if_pos (by rw [hy2]; rfl)
  refine ⟨⟨shapeType, PoolArgs.ofInt 2 1 (some 2) 0 1 true⟩, ⟨shapeMap 2 2, shapeType⟩, ⟨y, shapeType⟩, ?_, rfl, hf, ?_, ?_⟩
  · rw [PointwisePool.initMax, if_neg (by simp), if_neg (by simp), if_neg]
    simp [shapeType, shapeRep]
  · simp only [FMap.sizes, hy2, hy3]
    rfl
  · rw [PointwisePool.evaluateOutputShape, checkedShape_sizes _ _ (show (shapeMap 2 2).chans = FType.size Rep.size shapeType from rfl), shapeType_size]
    simp only [getD_ofFn', PoolArgs.ofInt, if_true, poolQuot]
    simp only [shapeMap, List.ofFn_succ, List.ofFn_zero]
    norm_num

/-- Antialiased max pooling with padding 1: the output of a 4 × 4 map for windows of size 3 with stride 2 is 3 × 3, the prediction 2 × 2. -/
theorem antialiased_violation (ninf sigma : ℝ) :
    ∃ (l : AntialiasedPool 2 Unit (Rep Unit Unit)) (x y : GMap 2 Unit Unit (Rep Unit Unit)),
      l.args = PoolArgs.ofInt 2 3 (some 2) 1 1 false ∧ l.half = 2 ∧ l.sigma = sigma ∧ x.map.chans = x.type.size Rep.size ∧ l.forwardMax ninf x = .ok y ∧
      y.map.sizes 1 = [1, 1, 3, 3] ∧ l.evaluateOutputShapeMax (x.map.sizes 1) = .ok [1, 1, 2, 2] := by
  let a : PoolArgs 2 := PoolArgs.ofInt 2 3 (some 2) 1 1 false
  have hok : ({ a with stride := fun _ => 1 } : PoolArgs 2).Ok (shapeMap 2 4).shape := by
    show ∀ i : Fin 2, _
    decide
  have hsh : ({ a with stride := fun _ => 1 } : PoolArgs 2).outShape (shapeMap 2 4).shape = fun _ => 4 := by
    funext i
    simp [PoolArgs.outShape, poolSize, PoolArgs.ofInt, shapeMap, a]
  obtain ⟨y, hy1, hy2, hy3⟩ : ∃ y, maxPool ninf { a with stride := fun _ => 1 } (shapeMap 2 4) = .ok y ∧ y.chans = 1 ∧ y.shape = fun _ => 4 :=
    ⟨_, if_pos hok, rfl, hsh⟩
  obtain ⟨y', hp1, hp2, hp3⟩ : ∃ y', padMap .zeros (fun _ : Fin 2 => 3) y = .ok y' ∧ y'.chans = 1 ∧ y'.shape = fun _ => 10 :=
    ⟨_, if_pos (fun _ => trivial), hy2, by simp [hy3]⟩
  obtain ⟨z, hz1, hz2, hz3⟩ : ∃ z, blurPool (gaussFilter 5 sigma) 5 (fun _ : Fin 2 => 2) (fun _ => 3) y = .ok z ∧ z.chans = 1 ∧ z.shape = fun _ => 3 := by
    unfold blurPool
    simp only [bind, Except.bind]
    rw [hp1]
    exact ⟨_, if_pos (by simp [hp3]), hp2, by simp [hp3]⟩
  refine ⟨⟨shapeType, a, sigma, 2⟩, ⟨shapeMap 2 4, shapeType⟩, ⟨z, shapeType⟩, rfl, rfl, rfl, rfl, ?_, ?_, ?_⟩
  · unfold AntialiasedPool.forwardMax
    rw [if_neg (not_not.2 rfl)]
    simp only [bind, Except.bind]
    rw [hy1]
    simp only
    have : blurPool (gaussFilter (AntialiasedPool.filterSize ⟨shapeType, a, sigma, 2⟩) sigma) (AntialiasedPool.filterSize ⟨shapeType, a, sigma, 2⟩) a.stride
        (fun i => a.padding i + (AntialiasedPool.filterSize ⟨shapeType, a, sigma, 2⟩ - 1) / 2) y = .ok z := by
      convert hz1 <;> first | rfl | simp [AntialiasedPool.filterSize, PoolArgs.ofInt, a]
    rw [this]
    exact if_pos (by rw [hz2]; rfl)
  · simp only [FMap.sizes, hz2, hz3]
    rfl
  · rw [AntialiasedPool.evaluateOutputShapeMax, PointwisePool.evaluateOutputShape, checkedShape_sizes _ _ (show (shapeMap 2 4).chans = FType.size Rep.size shapeType from rfl), shapeType_size]
    simp only [getD_ofFn', PoolArgs.ofInt, poolQuot, a]
    simp only [shapeMap, List.ofFn_succ, List.ofFn_zero]
    norm_num

/-- Norm max pooling in `ceil_mode` on a 3 × 3 map with windows of size 2: `forward` raises. -/
theorem normmax_violation (dflt : (Fin 2 → ℕ) → Fin 2 → ℕ) (junk : Unit → ℕ → (Fin 2 → ℕ) → ℝ) :
    ∃ l : NormMaxPool 2 Unit (Rep Unit Unit), NormMaxPool.init (fun _ => 2) shapeType (PoolArgs.ofInt 2 2 none 0 1 true) = .ok l ∧
      l.forward dflt junk ⟨shapeMap 2 3, shapeType⟩ = .error .runtime := by
  have hl : NormMaxPool.init (fun _ => 2) shapeType (PoolArgs.ofInt 2 2 none 0 1 true) = .ok ⟨shapeType, PoolArgs.ofInt 2 2 none 0 1 true, [(1, true, [0, 1])]⟩ := rfl
  refine ⟨_, hl, NormMaxPool.C47_normmax_raises dflt junk (fun _ => 2) shapeType (by simp [shapeType]) (by simp [shapeType, shapeRep, Rep.size, NpMat.eye]) _ _ hl _ rfl rfl 0 ?_⟩
  rw [poolQuot, floor_quot]
  decide

/-- A convolution of one trivial field with a filter of size 1, in evaluation mode. -/
noncomputable def shapeConv (padding : Padding) (axes : Fin 2 → ℕ) (blocks : Blocks (Rep Unit Unit) Unit) : RdConv 2 Unit (Rep Unit Unit) Unit :=
  ⟨shapeType, shapeType, 1, padding, axes, 1, 1, .zeros, 1, blocks, none, fun _ => 0, fun _ => 0, false, some ⟨1, 1, fun _ _ _ => 2⟩, some none⟩

theorem shapeConv_forward (padding : Padding) (axes : Fin 2 → ℕ) (blocks : Blocks (Rep Unit Unit) Unit) :
    ∃ y, (shapeConv padding axes blocks).forward (⟨shapeMap 2 3, shapeType⟩ : GMap 2 Unit Unit (Rep Unit Unit)) = .ok y ∧ y.map.chans = 1 ∧ y.map.shape = fun i => 3 + 2 * axes i := by
  unfold RdConv.forward
  rw [if_neg (not_not.2 (show shapeType = (shapeConv padding axes blocks).inType from rfl))]
  simp only [bind, Except.bind, RdConv.current, shapeConv, Bool.false_eq_true, not_false_eq_true, if_true]
  unfold RdConv.convolve
  rw [if_pos rfl]
  unfold convNd
  obtain ⟨y, h1, h2, h3⟩ : ∃ y, padMap .zeros axes (shapeMap 2 3) = .ok y ∧ y.chans = 1 ∧ y.shape = fun i => 3 + 2 * axes i := ⟨_, if_pos fun _ => trivial, rfl, rfl⟩
  simp only [bind, Except.bind]
  rw [h1]
  simp only
  obtain ⟨z, h4, h5, h6⟩ : ∃ z, convValid ⟨1, 1, fun _ _ _ => 2⟩ 1 1 1 1 none y = .ok z ∧ z.chans = 1 ∧ z.shape = fun i => 3 + 2 * axes i := by
    refine ⟨_, if_pos ?_, rfl, ?_⟩
    · simp [h2, h3]
      omega
    · funext i
      simp [h3]
      omega
  rw [h4]
  exact ⟨⟨z, shapeType⟩, if_pos (by rw [h5]; rfl), h5, h6⟩

/-- With a tuple as padding the convolution works, but `evaluate_output_shape` raises. -/
theorem conv_tuple_violation (blocks : Blocks (Rep Unit Unit) Unit) :
    ∃ (l : RdConv 2 Unit (Rep Unit Unit) Unit) (x y : GMap 2 Unit Unit (Rep Unit Unit)), l.padding.axes 2 = .ok l.axes ∧ x.map.chans = x.type.size Rep.size ∧ l.forward x = .ok y ∧
      l.evaluateOutputShape Rep.size (x.map.sizes 1) = .error .type := by
  obtain ⟨y, h, -⟩ := shapeConv_forward (.tuple [1, 0]) (fun i => [1, 0].getD i 0) blocks
  exact ⟨shapeConv (.tuple [1, 0]) (fun i => [1, 0].getD i 0) blocks, _, y, rfl, rfl, h, RdConv.C47_conv_tuple _ [1, 0] rfl _ rfl 1⟩

/-- The hypotheses of `C47_conv` hold for a convolution with padding 1. -/
example (blocks : Blocks (Rep Unit Unit) Unit) : ∃ y, (shapeConv (.int 1) (fun _ => 1) blocks).forward (⟨shapeMap 2 3, shapeType⟩ : GMap 2 Unit Unit (Rep Unit Unit)) = .ok y ∧
    (shapeConv (.int 1) (fun _ => 1) blocks).evaluateOutputShape Rep.size ((shapeMap 2 3).sizes 4) = .ok [4, 1, 5, 5] := by
  obtain ⟨y, h, h2, h3⟩ := shapeConv_forward (.int 1) (fun _ => 1) blocks
  refine ⟨y, h, ?_⟩
  rw [RdConv.C47_conv (shapeConv (.int 1) (fun _ => 1) blocks) 1 rfl rfl _ y rfl h 4]
  simp [FMap.sizes, h2, h3]

/-- The hypotheses of `C47_transposed` hold for a transposed convolution with stride 2 and output padding 1. -/
example (blocks : Blocks (Rep Unit Unit) Unit) : ∃ (l : RdConvT 2 Unit (Rep Unit Unit) Unit) (y : GMap 2 Unit Unit (Rep Unit Unit)), l.stride = 2 ∧ l.padding.axes 2 = .ok l.pad ∧ l.outputPadding.axes 2 = .ok l.opad ∧
    l.forward (⟨shapeMap 2 3, shapeType⟩ : GMap 2 Unit Unit (Rep Unit Unit)) = .ok y ∧ l.evaluateOutputShape Rep.size ((shapeMap 2 3).sizes 4) = .ok [4, 1, 6, 6] := by
  let l : RdConvT 2 Unit (Rep Unit Unit) Unit :=
    ⟨shapeType, shapeType, 1, .int 0, .int 1, fun _ => 0, fun _ => 1, 2, 1, 1, blocks, none, fun _ => 0, fun _ => 0, false, some ⟨1, 1, fun _ _ _ => 2⟩, some none⟩
  obtain ⟨y, hy, hc⟩ : ∃ y, convTransposeNd ⟨1, 1, fun _ _ _ => 2⟩ 1 2 (fun _ : Fin 2 => 0) (fun _ => 1) 1 1 none (shapeMap 2 3) = .ok y ∧ y.chans = 1 := ⟨_, if_pos (by simp [shapeMap]), rfl⟩
  have hf : l.forward ⟨shapeMap 2 3, shapeType⟩ = .ok ⟨y, shapeType⟩ := by
    unfold RdConvT.forward
    rw [if_neg (not_not.2 rfl)]
    simp only [bind, Except.bind, RdConvT.current, l, Bool.false_eq_true, not_false_eq_true, if_true]
    rw [hy]
    exact if_pos (by rw [hc]; rfl)
  refine ⟨l, ⟨y, shapeType⟩, rfl, rfl, rfl, hf, ?_⟩
  rw [RdConvT.evaluateOutputShape, checkedShape_sizes _ _ (show (shapeMap 2 3).chans = l.inType.size Rep.size from rfl)]
  simp only [l, shapeType_size]
  simp [shapeMap]

/-- The prediction is right on a case of each kind: the hypotheses hold. -/
example (ninf : ℝ) : ∃ y, PointwisePool.forwardMax ninf ⟨shapeType, PoolArgs.ofInt 2 3 (some 2) 1 1 true⟩ ⟨shapeMap 2 6, shapeType⟩ = .ok y ∧ y.map.sizes 5 = [5, 1, 4, 4] ∧
    PointwisePool.evaluateOutputShape ⟨shapeType, PoolArgs.ofInt 2 3 (some 2) 1 1 true⟩ ((shapeMap 2 6).sizes 5) = .ok [5, 1, 4, 4] := by
  have hok : (PoolArgs.ofInt 2 3 (some 2) 1 1 true).Ok (shapeMap 2 6).shape := by
    show ∀ i : Fin 2, _
    decide
  have hsh : (PoolArgs.ofInt 2 3 (some 2) 1 1 true).outShape (shapeMap 2 6).shape = fun _ => 4 := by
    funext i
    fin_cases i <;> rfl
  obtain ⟨y, hy1, hy2, hy3⟩ : ∃ y, maxPool ninf (PoolArgs.ofInt 2 3 (some 2) 1 1 true) (shapeMap 2 6) = .ok y ∧ y.chans = 1 ∧ y.shape = fun _ => 4 :=
    ⟨_, if_pos hok, rfl, hsh⟩
  have hf : PointwisePool.forwardMax ninf ⟨shapeType, PoolArgs.ofInt 2 3 (some 2) 1 1 true⟩ ⟨shapeMap 2 6, shapeType⟩ = .ok ⟨y, shapeType⟩ := by
    rw [PointwisePool.forwardMax, if_neg (not_not.2 rfl)]
    simp only [bind, Except.bind]
    rw [hy1]
    exact if_pos (by rw [hy2]; rfl)
  have hs : y.sizes 5 = [5, 1, 4, 4] := by
    simp only [FMap.sizes, hy2, hy3]
    rfl
  refine ⟨_, hf, hs, ?_⟩
  rw [← hs]
  exact PointwisePool.C47_maxpool_partial ninf _ _ _ rfl hf 5 (by intro _ i; simp [PoolArgs.ofInt])

end Escnn
