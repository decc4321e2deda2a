import Verif.Model.ConvTransposed
import Verif.Lemmas.Conv

/-!
# C47: `evaluate_output_shape` predicts the shape of the output
-/

namespace Escnn

variable {n : ℕ} {S G Id A B : Type} [DecidableEq Id]

theorem checkedShape_sizes {size : ℕ} (out : ℤ → List ℤ → Except Err (List ℤ)) (x : FMap n B) (hx : x.chans = size) (b : ℤ) :
    checkedShape n size out (x.sizes b) = out b (List.ofFn fun i => (x.shape i : ℤ)) := by
  subst hx
  unfold checkedShape FMap.sizes
  rw [if_neg (by simp; omega)]
  simp

theorem bind_ok {α β : Type} {m : Except Err α} {f : α → Except Err β} {y : β} (h : (m >>= f) = .ok y) : ∃ a, m = .ok a ∧ f a = .ok y := by
  cases m with
  | error e => simp [bind, Except.bind] at h
  | ok a => exact ⟨a, rfl, h⟩

theorem GMap.mk'_ok {R : Type} {sz : R → ℕ} {x : FMap n B} {t : FType S R} {y : GMap n B S R} (h : GMap.mk' sz x t = .ok y) : y = ⟨x, t⟩ ∧ x.chans = t.size sz := by
  unfold GMap.mk' at h
  split_ifs at h with hc
  cases h
  exact ⟨rfl, hc⟩

theorem getD_ofFn' (f : Fin n → ℤ) (i : Fin n) : (List.ofFn f).getD i 0 = f i := by
  simp [List.getD]

/-- The rounded quotient computed in floating point is the quotient of integers. -/
theorem floor_quot (a : ℤ) (s : ℕ) : ⌊((a : ℤ) : ℚ) / s + 1⌋ = a / s + 1 := by
  rw [Int.floor_add_one, Rat.floor_intCast_div_natCast]

theorem ceil_quot (a : ℤ) (s : ℕ) (hs : 0 < s) : ⌈((a : ℤ) : ℚ) / s + 1⌉ = (a + (s - 1)) / s + 1 := by
  rw [Int.ceil_add_one, Rat.ceil_intCast_div_natCast]
  congr 1
  have hs' : (0 : ℤ) < s := by exact_mod_cast hs
  have h1 := Int.ediv_mul_le (-a) (ne_of_gt hs')
  have h2 := Int.lt_ediv_add_one_mul_self (-a) hs'
  symm
  rw [Int.ediv_eq_iff_of_pos hs']
  constructor <;> nlinarith

theorem convValid_shape {F : Kern} {k stride dil groups : ℕ} {b : Option (ℕ → ℝ)} {x y : FMap n B} (h : convValid F k stride dil groups b x = .ok y) :
    ∀ i, ((y.shape i : ℕ) : ℤ) = ((x.shape i : ℤ) - dil * ((k : ℤ) - 1) - 1) / stride + 1 := by
  unfold convValid at h
  split_ifs at h with hc
  obtain ⟨hk, hs, -, -, -, -, hw⟩ := hc
  cases h
  intro i
  have h1 := hw i
  have e : (((x.shape i - dil * (k - 1) - 1 : ℕ)) : ℤ) = (x.shape i : ℤ) - dil * ((k : ℤ) - 1) - 1 := by
    rw [Nat.cast_sub (by omega), Nat.cast_sub (by omega), Nat.cast_mul, Nat.cast_sub (by omega)]
    simp
  simp only [Nat.cast_add, Nat.cast_one, Nat.cast_ofNat]
  rw [Int.natCast_ediv, e]

theorem padMap_shape {m : PadMode} {p : Fin n → ℕ} {x y : FMap n B} (h : padMap m p x = .ok y) : ∀ i, y.shape i = x.shape i + 2 * p i := by
  unfold padMap at h
  split_ifs at h
  cases h
  exact fun _ => rfl

theorem Padding.axes_ok {q : Padding} {ax : Fin n → ℕ} (h : q.axes n = .ok ax) : (∀ p, q = .int p → ∀ i, ax i = p) ∧ ∀ t, q = .tuple t → t = List.ofFn ax := by
  constructor
  · rintro p rfl i
    exact (congrFun (Except.ok.inj h) i).symm
  · rintro t rfl
    rw [Padding.axes] at h
    split_ifs at h with hl
    obtain rfl := Except.ok.inj h
    refine List.ext_getElem (by simp [hl]) fun i h1 h2 => ?_
    simp [List.getD, h1]

namespace RdConv

theorem convolve_shape {l : RdConv n S (Rep G Id) A} {F : Kern} {b : Option (ℕ → ℝ)} {x y : FMap n B} (h : l.convolve F b x = .ok y) :
    ∀ i, ((y.shape i : ℕ) : ℤ) = ((x.shape i : ℤ) + 2 * l.axes i - l.dilation * ((l.kernelSize : ℤ) - 1) - 1) / l.stride + 1 := by
  intro i
  unfold convolve at h
  split_ifs at h
  · obtain ⟨z, h1, h2⟩ := bind_ok h
    rw [convValid_shape h2 i, padMap_shape h1 i]
    simp
  · obtain ⟨z, h1, h2⟩ := bind_ok h
    obtain ⟨z', h3, h4⟩ := bind_ok h2
    rw [convValid_shape h4 i, padMap_shape h3 i, padMap_shape h1 i]
    simp

/-- The constructor stores the padding of each axis. -/
theorem init_axes {size : Id → ℕ} {triv : Id} {gdim : S → ℕ} {gen : List (Fin n → ℝ) → Rep G Id → Rep G Id → Except Err (KBasis A)} {filt : Option (Attr A → Bool)} {uin uout : List (Rep G Id)}
    {inType outType : FType S (Rep G Id)} {kernelSize : ℕ} {padding : Padding} {stride dilation : ℕ} {mode : PadMode} {groups : ℕ} {bias : Bool} {w0 : ℕ → ℝ} {l : RdConv n S (Rep G Id) A}
    (h : init size triv gdim gen filt uin uout inType outType kernelSize padding stride dilation mode groups bias w0 = .ok l) : l.padding = padding ∧ padding.axes n = .ok l.axes := by
  unfold init at h
  split at h
  · simp at h
  obtain ⟨ax, h1, h⟩ := bind_ok h
  split at h
  · simp at h
  obtain ⟨t, -, h⟩ := bind_ok h
  obtain ⟨bl, -, h⟩ := bind_ok h
  split at h
  · simp at h
  cases h
  exact ⟨rfl, h1⟩

/-- A tuple of paddings is accepted only if it has one entry for each axis, which is the padding of the axis; an integer is the padding of all the axes. -/
theorem C47_conv_padding {size : Id → ℕ} {triv : Id} {gdim : S → ℕ} {gen : List (Fin n → ℝ) → Rep G Id → Rep G Id → Except Err (KBasis A)} {filt : Option (Attr A → Bool)} {uin uout : List (Rep G Id)}
    {inType outType : FType S (Rep G Id)} {kernelSize : ℕ} {padding : Padding} {stride dilation : ℕ} {mode : PadMode} {groups : ℕ} {bias : Bool} {w0 : ℕ → ℝ} {l : RdConv n S (Rep G Id) A}
    (h : init size triv gdim gen filt uin uout inType outType kernelSize padding stride dilation mode groups bias w0 = .ok l) :
    (∀ p, padding = .int p → ∀ i, l.axes i = p) ∧ ∀ t, padding = .tuple t → t = List.ofFn l.axes := by
  exact Padding.axes_ok (init_axes h).2

/-- C47 for convolutions with an integer padding: whenever `forward` returns, `evaluate_output_shape` returns the shape of its output. For all the sizes, strides, dilations, padding modes and groups. -/
theorem C47_conv (l : RdConv n S (Rep G Id) A) (p : ℕ) (hp : l.padding = .int p) (hax : l.padding.axes n = .ok l.axes) (x y : GMap n B S (Rep G Id)) (hx : x.map.chans = x.type.size Rep.size)
    (h : l.forward x = .ok y) (b : ℤ) : l.evaluateOutputShape Rep.size (x.map.sizes b) = .ok (y.map.sizes b) := by
  unfold forward at h
  split_ifs at h with ht
  rw [not_not] at ht
  obtain ⟨P, -, h⟩ := bind_ok h
  obtain ⟨z, h1, h⟩ := bind_ok h
  obtain ⟨rfl, hc⟩ := GMap.mk'_ok h
  have hsh := convolve_shape h1
  rw [evaluateOutputShape, checkedShape_sizes _ _ (by rw [hx, ht]), hp]
  rw [hp] at hax
  simp only [Padding.axes, Except.ok.injEq] at hax
  simp only [FMap.sizes, hc, Except.ok.injEq, List.cons.injEq, true_and, List.map_ofFn]
  congr 1
  funext i
  rw [hsh i, ← hax]
  exact floor_quot _ _

/-- With a tuple as padding `evaluate_output_shape` raises `TypeError`, whatever the shape. -/
theorem C47_conv_tuple (l : RdConv n S (Rep G Id) A) (t : List ℕ) (hp : l.padding = .tuple t) (x : GMap n B S (Rep G Id)) (hx : x.map.chans = l.inType.size Rep.size) (b : ℤ) :
    l.evaluateOutputShape Rep.size (x.map.sizes b) = .error .type := by
  rw [evaluateOutputShape, checkedShape_sizes _ _ hx, hp]

end RdConv

namespace RdConvT

/-- C47 for transposed convolutions with integers as paddings. -/
theorem C47_transposed (l : RdConvT n S (Rep G Id) A) (p q : ℕ) (hp : l.padding = .int p) (hq : l.outputPadding = .int q) (hpad : l.padding.axes n = .ok l.pad) (hopad : l.outputPadding.axes n = .ok l.opad)
    (x y : GMap n B S (Rep G Id)) (hx : x.map.chans = x.type.size Rep.size) (h : l.forward x = .ok y) (b : ℤ) : l.evaluateOutputShape Rep.size (x.map.sizes b) = .ok (y.map.sizes b) := by
  unfold forward at h
  split_ifs at h with ht
  rw [not_not] at ht
  obtain ⟨P, -, h⟩ := bind_ok h
  obtain ⟨z, h1, h⟩ := bind_ok h
  obtain ⟨rfl, hc⟩ := GMap.mk'_ok h
  rw [evaluateOutputShape, checkedShape_sizes _ _ (by rw [hx, ht]), hp, hq]
  rw [hp] at hpad
  rw [hq] at hopad
  simp only [Padding.axes, Except.ok.injEq] at hpad hopad
  simp only [FMap.sizes, hc, Except.ok.injEq, List.cons.injEq, true_and, List.map_ofFn]
  congr 1
  funext i
  unfold convTransposeNd at h1
  split_ifs at h1 with hw
  cases h1
  have := (hw.2.2.2.2.2.2 i).2.2
  simp only [Function.comp]
  rw [Int.toNat_of_nonneg this.le, ← hpad, ← hopad]

/-- The constructor stores the paddings of each axis. -/
theorem init_axes {size : Id → ℕ} {triv : Id} {gdim : S → ℕ} {gen : List (Fin n → ℝ) → Rep G Id → Rep G Id → Except Err (KBasis A)} {filt : Option (Attr A → Bool)} {uin uout : List (Rep G Id)}
    {inType outType : FType S (Rep G Id)} {kernelSize : ℕ} {padding opadding : Padding} {stride dilation groups : ℕ} {bias : Bool} {w0 : ℕ → ℝ} {l : RdConvT n S (Rep G Id) A}
    (h : init size triv gdim gen filt uin uout inType outType kernelSize padding opadding stride dilation groups bias w0 = .ok l) :
    l.padding = padding ∧ padding.axes n = .ok l.pad ∧ l.outputPadding = opadding ∧ opadding.axes n = .ok l.opad := by
  unfold init at h
  split at h
  · simp at h
  obtain ⟨ax, h1, h⟩ := bind_ok h
  obtain ⟨ax', h2, h⟩ := bind_ok h
  obtain ⟨t, -, h⟩ := bind_ok h
  obtain ⟨bl, -, h⟩ := bind_ok h
  split at h
  · simp at h
  cases h
  exact ⟨rfl, h1, rfl, h2⟩

/-- Tuples of paddings and of output paddings are accepted only if they have one entry for each axis. -/
theorem C47_transposed_padding {size : Id → ℕ} {triv : Id} {gdim : S → ℕ} {gen : List (Fin n → ℝ) → Rep G Id → Rep G Id → Except Err (KBasis A)} {filt : Option (Attr A → Bool)} {uin uout : List (Rep G Id)}
    {inType outType : FType S (Rep G Id)} {kernelSize : ℕ} {padding opadding : Padding} {stride dilation groups : ℕ} {bias : Bool} {w0 : ℕ → ℝ} {l : RdConvT n S (Rep G Id) A}
    (h : init size triv gdim gen filt uin uout inType outType kernelSize padding opadding stride dilation groups bias w0 = .ok l) :
    ((∀ p, padding = .int p → ∀ i, l.pad i = p) ∧ ∀ t, padding = .tuple t → t = List.ofFn l.pad) ∧ (∀ p, opadding = .int p → ∀ i, l.opad i = p) ∧ ∀ t, opadding = .tuple t → t = List.ofFn l.opad := by
  obtain ⟨-, h, -, h'⟩ := init_axes h
  exact ⟨Padding.axes_ok h, Padding.axes_ok h'⟩

/-- With a tuple as one of the paddings `evaluate_output_shape` raises `TypeError`. -/
theorem C47_transposed_tuple (l : RdConvT n S (Rep G Id) A) (hp : (∃ t, l.padding = .tuple t) ∨ ∃ t, l.outputPadding = .tuple t) (x : GMap n B S (Rep G Id)) (hx : x.map.chans = l.inType.size Rep.size) (b : ℤ) :
    l.evaluateOutputShape Rep.size (x.map.sizes b) = .error .type := by
  rw [evaluateOutputShape, checkedShape_sizes _ _ hx]
  rcases hp with ⟨t, ht⟩ | ⟨t, ht⟩
  · rw [ht]
  · rw [ht]
    cases l.padding <;> rfl

end RdConvT

/-- The size of one axis predicted by `evaluate_output_shape` of the poolings. -/
def poolPred (a : PoolArgs n) (i : Fin n) (w : ℕ) : ℤ := if a.ceilMode then ⌈poolQuot a i w⌉ else ⌊poolQuot a i w⌋

/-- The real size is the predicted one, except in `ceil_mode` if the last predicted window starts after the input and its left padding: then it is one less. -/
theorem poolSize_pred (a : PoolArgs n) (i : Fin n) (w : ℕ) (hs : 0 < a.stride i) :
    poolSize w (a.kernel i) (a.stride i) (a.padding i) (a.dilation i) a.ceilMode =
      if a.ceilMode ∧ (w : ℤ) + a.padding i ≤ (poolPred a i w - 1) * a.stride i then poolPred a i w - 1 else poolPred a i w := by
  unfold poolSize poolPred poolQuot
  cases a.ceilMode with
  | false =>
    simp only [Bool.false_eq_true, if_false, false_and, add_zero]
    rw [floor_quot]
  | true =>
    simp only [if_true, true_and]
    rw [ceil_quot _ _ hs]

/-- The size predicted by rounding down is at most the real one. -/
theorem poolSize_floor_le (a : PoolArgs n) (i : Fin n) (w : ℕ) (hs : 0 < a.stride i) (hk : 0 < a.kernel i) (hp : 2 * a.padding i ≤ (a.kernel i - 1) * a.dilation i + 1) :
    ⌊poolQuot a i w⌋ ≤ poolSize w (a.kernel i) (a.stride i) (a.padding i) (a.dilation i) a.ceilMode := by
  rw [poolSize_pred a i w hs, poolPred]
  cases hc : a.ceilMode with
  | false => simp
  | true =>
    simp only [if_true, true_and]
    split_ifs with h
    · by_contra hlt
      have hle : ⌊poolQuot a i w⌋ ≤ ⌈poolQuot a i w⌉ := Int.floor_le_ceil _
      have heq : ⌈poolQuot a i w⌉ = ⌊poolQuot a i w⌋ := by omega
      rw [heq] at h
      rw [poolQuot, floor_quot] at h
      have hs' : (0 : ℤ) < a.stride i := by exact_mod_cast hs
      have h1 := Int.ediv_mul_le ((w : ℤ) + 2 * a.padding i - a.dilation i * ((a.kernel i : ℤ) - 1) - 1) (ne_of_gt hs')
      have h2 : (2 * a.padding i : ℤ) ≤ ((a.kernel i : ℤ) - 1) * a.dilation i + 1 := by
        have : ((2 * a.padding i : ℕ) : ℤ) ≤ (((a.kernel i - 1) * a.dilation i + 1 : ℕ) : ℤ) := by exact_mod_cast hp
        push_cast [Nat.cast_sub (show 1 ≤ a.kernel i from hk)] at this
        linarith
      rw [show ((w : ℤ) + 2 * a.padding i - a.dilation i * ((a.kernel i : ℤ) - 1) - 1) / (a.stride i : ℤ) + 1 - 1 = ((w : ℤ) + 2 * a.padding i - a.dilation i * ((a.kernel i : ℤ) - 1) - 1) / (a.stride i : ℤ) by ring] at h
      nlinarith [Int.natCast_nonneg (a.padding i)]
    · exact Int.floor_le_ceil _

theorem maxPool_shape {ninf : ℝ} {a : PoolArgs n} {x y : FMap n B} (h : maxPool ninf a x = .ok y) : a.Ok x.shape ∧ y.chans = x.chans ∧ y.shape = a.outShape x.shape := by
  unfold maxPool at h
  split_ifs at h with hc
  cases h
  exact ⟨hc, rfl, rfl⟩

theorem avgPool_shape {a : PoolArgs n} {x y : FMap n B} (h : avgPool a x = .ok y) : a.Ok x.shape ∧ y.chans = x.chans ∧ y.shape = a.outShape x.shape := by
  unfold avgPool at h
  split_ifs at h with hc
  cases h
  exact ⟨hc, rfl, rfl⟩

namespace PointwisePool

theorem forwardMax_ok {ninf : ℝ} {l : PointwisePool n S (Rep G Id)} {x y : GMap n B S (Rep G Id)} (h : l.forwardMax ninf x = .ok y) :
    x.type = l.inType ∧ y.type = l.inType ∧ y.map.chans = l.inType.size Rep.size ∧ l.args.Ok x.map.shape ∧ y.map.shape = l.args.outShape x.map.shape := by
  unfold forwardMax at h
  split_ifs at h with ht
  rw [not_not] at ht
  obtain ⟨z, h1, h⟩ := bind_ok h
  obtain ⟨rfl, hc⟩ := GMap.mk'_ok h
  obtain ⟨h2, h3, h4⟩ := maxPool_shape h1
  exact ⟨ht, rfl, hc, h2, h4⟩

theorem forwardAvg_ok {l : PointwisePool n S (Rep G Id)} {x y : GMap n B S (Rep G Id)} (h : l.forwardAvg x = .ok y) :
    x.type = l.inType ∧ y.type = l.inType ∧ y.map.chans = l.inType.size Rep.size ∧ l.args.Ok x.map.shape ∧ y.map.shape = l.args.outShape x.map.shape := by
  unfold forwardAvg at h
  split_ifs at h with ht
  rw [not_not] at ht
  obtain ⟨z, h1, h⟩ := bind_ok h
  obtain ⟨rfl, hc⟩ := GMap.mk'_ok h
  obtain ⟨h2, h3, h4⟩ := avgPool_shape h1
  exact ⟨ht, rfl, hc, h2, h4⟩

omit [DecidableEq Id] in
/-- When the predicted shape is the real one. -/
theorem predicted_iff {l : PointwisePool n S (Rep G Id)} {x y : GMap n B S (Rep G Id)} (hx : x.map.chans = l.inType.size Rep.size) (hy : y.map.chans = l.inType.size Rep.size)
    (hok : l.args.Ok x.map.shape) (hsh : y.map.shape = l.args.outShape x.map.shape) (b : ℤ) :
    l.evaluateOutputShape (x.map.sizes b) = .ok (y.map.sizes b) ↔
      (l.args.ceilMode = true → ∀ i, (⌈poolQuot l.args i (x.map.shape i)⌉ - 1) * l.args.stride i < (x.map.shape i : ℤ) + l.args.padding i) := by
  rw [evaluateOutputShape, checkedShape_sizes _ _ hx]
  simp only [FMap.sizes, hy, Except.ok.injEq, List.cons.injEq, true_and, getD_ofFn', List.ofFn_inj, funext_iff]
  have key : ∀ i, ((y.map.shape i : ℕ) : ℤ) = if l.args.ceilMode ∧ (x.map.shape i : ℤ) + l.args.padding i ≤ (poolPred l.args i (x.map.shape i) - 1) * l.args.stride i then
      poolPred l.args i (x.map.shape i) - 1 else poolPred l.args i (x.map.shape i) := by
    intro i
    rw [hsh, PoolArgs.outShape, Int.toNat_of_nonneg (hok i).2.2.2.2.le, poolSize_pred _ _ _ (hok i).2.1]
  simp only [key, poolPred]
  by_cases hcm : l.args.ceilMode = true
  swap
  · simp [hcm]
  · simp only [hcm, if_true, true_and, forall_const]
    refine forall_congr' fun i => ?_
    split_ifs with h
    · exact ⟨fun e => absurd e (by omega), fun e => absurd e (by omega)⟩
    · exact ⟨fun _ => by omega, fun _ => rfl⟩

omit [DecidableEq Id] in
/-- If padding and stride together are at most the extent of the window, the last window starts inside. -/
theorem last_window {l : PointwisePool n S (Rep G Id)} {shape : Fin n → ℕ} (hok : l.args.Ok shape) (i : Fin n)
    (h : l.args.padding i + l.args.stride i ≤ l.args.dilation i * (l.args.kernel i - 1) + 1) :
    (⌈poolQuot l.args i (shape i)⌉ - 1) * l.args.stride i < (shape i : ℤ) + l.args.padding i := by
  have hs := (hok i).2.1
  have hk := (hok i).1
  rw [poolQuot, ceil_quot _ _ hs]
  have hs' : (0 : ℤ) < l.args.stride i := by exact_mod_cast hs
  have h1 := Int.ediv_mul_le (((shape i : ℤ) + 2 * l.args.padding i - l.args.dilation i * ((l.args.kernel i : ℤ) - 1) - 1) + ((l.args.stride i : ℤ) - 1)) (ne_of_gt hs')
  have h2 : ((l.args.padding i : ℤ)) + l.args.stride i ≤ l.args.dilation i * ((l.args.kernel i : ℤ) - 1) + 1 := by
    have : ((l.args.padding i + l.args.stride i : ℕ) : ℤ) ≤ ((l.args.dilation i * (l.args.kernel i - 1) + 1 : ℕ) : ℤ) := by exact_mod_cast h
    push_cast [Nat.cast_sub (show 1 ≤ l.args.kernel i from hk)] at this
    linarith
  rw [add_sub_cancel_right]
  linarith

/-- C47 for max pooling: the prediction is right exactly if `ceil_mode` is off or the last predicted window of each axis starts inside of the input or of its left padding. -/
theorem C47_maxpool_iff (ninf : ℝ) (l : PointwisePool n S (Rep G Id)) (x y : GMap n B S (Rep G Id)) (hx : x.map.chans = x.type.size Rep.size) (h : l.forwardMax ninf x = .ok y) (b : ℤ) :
    l.evaluateOutputShape (x.map.sizes b) = .ok (y.map.sizes b) ↔
      (l.args.ceilMode = true → ∀ i, (⌈poolQuot l.args i (x.map.shape i)⌉ - 1) * l.args.stride i < (x.map.shape i : ℤ) + l.args.padding i) := by
  obtain ⟨ht, -, hc, hok, hsh⟩ := forwardMax_ok h
  exact predicted_iff (by rw [hx, ht]) hc hok hsh b

/-- C47 for max pooling without `ceil_mode`, or with padding and stride which together are at most the extent of the window (e.g. the default stride without padding). -/
theorem C47_maxpool_partial (ninf : ℝ) (l : PointwisePool n S (Rep G Id)) (x y : GMap n B S (Rep G Id)) (hx : x.map.chans = x.type.size Rep.size) (h : l.forwardMax ninf x = .ok y) (b : ℤ)
    (hc : l.args.ceilMode = true → ∀ i, l.args.padding i + l.args.stride i ≤ l.args.dilation i * (l.args.kernel i - 1) + 1) :
    l.evaluateOutputShape (x.map.sizes b) = .ok (y.map.sizes b) :=
  (C47_maxpool_iff ninf l x y hx h b).2 fun hcm i => last_window (forwardMax_ok h).2.2.2.1 i (hc hcm i)

/-- C47 for average pooling: exactly when the prediction is right. -/
theorem C47_avgpool_iff (l : PointwisePool n S (Rep G Id)) (x y : GMap n B S (Rep G Id)) (hx : x.map.chans = x.type.size Rep.size) (h : l.forwardAvg x = .ok y) (b : ℤ) :
    l.evaluateOutputShape (x.map.sizes b) = .ok (y.map.sizes b) ↔
      (l.args.ceilMode = true → ∀ i, (⌈poolQuot l.args i (x.map.shape i)⌉ - 1) * l.args.stride i < (x.map.shape i : ℤ) + l.args.padding i) := by
  obtain ⟨ht, -, hc, hok, hsh⟩ := forwardAvg_ok h
  exact predicted_iff (by rw [hx, ht]) hc hok hsh b

/-- C47 for average pooling without `ceil_mode`, or with padding and stride which together are at most the extent of the window. -/
theorem C47_avgpool_partial (l : PointwisePool n S (Rep G Id)) (x y : GMap n B S (Rep G Id)) (hx : x.map.chans = x.type.size Rep.size) (h : l.forwardAvg x = .ok y) (b : ℤ)
    (hc : l.args.ceilMode = true → ∀ i, l.args.padding i + l.args.stride i ≤ l.args.dilation i * (l.args.kernel i - 1) + 1) :
    l.evaluateOutputShape (x.map.sizes b) = .ok (y.map.sizes b) :=
  (C47_avgpool_iff l x y hx h b).2 fun hcm i => last_window (forwardAvg_ok h).2.2.2.1 i (hc hcm i)

end PointwisePool

theorem blurPool_shape {f : (Fin n → ℕ) → ℝ} {size : ℕ} {stride pad : Fin n → ℕ} {x y : FMap n B} (h : blurPool f size stride pad x = .ok y) :
    y.chans = x.chans ∧ ∀ i, ((y.shape i : ℕ) : ℤ) = ((x.shape i : ℤ) + 2 * pad i - ((size : ℤ) - 1) - 1) / stride i + 1 := by
  unfold blurPool at h
  obtain ⟨z, h1, h⟩ := bind_ok h
  beta_reduce at h
  split_ifs at h with hc
  cases h
  have hch : z.chans = x.chans := by
    unfold padMap at h1
    split_ifs at h1
    cases h1
    rfl
  refine ⟨hch, fun i => ?_⟩
  have hw := (hc.2 i).2
  simp only [Nat.cast_add, Nat.cast_one]
  rw [Int.natCast_ediv, Nat.cast_sub hw, padMap_shape h1 i]
  congr 2
  push_cast
  ring

namespace AntialiasedPool

/-- C47 for antialiased average pooling. -/
theorem C47_antialiased_avg (l : AntialiasedPool n S (Rep G Id)) (x y : GMap n B S (Rep G Id)) (hx : x.map.chans = x.type.size Rep.size) (h : l.forwardAvg x = .ok y) (b : ℤ) :
    l.evaluateOutputShapeAvg (x.map.sizes b) = .ok (y.map.sizes b) := by
  unfold forwardAvg at h
  split_ifs at h with ht
  rw [not_not] at ht
  obtain ⟨z, h1, h⟩ := bind_ok h
  obtain ⟨rfl, hc⟩ := GMap.mk'_ok h
  rw [evaluateOutputShapeAvg, checkedShape_sizes _ _ (by rw [hx, ht])]
  simp only [FMap.sizes, hc, Except.ok.injEq, List.cons.injEq, true_and, getD_ofFn']
  congr 1
  funext i
  rw [(blurPool_shape h1).2 i, floor_quot]

/-- The shape of the output of antialiased max pooling: the padding is added twice, once by the pooling and once by the blur. -/
theorem forwardMax_shape (ninf : ℝ) (l : AntialiasedPool n S (Rep G Id)) (x y : GMap n B S (Rep G Id)) (h : l.forwardMax ninf x = .ok y) :
    x.type = l.inType ∧ y.map.chans = l.inType.size Rep.size ∧
      ∀ i, ((y.map.shape i : ℕ) : ℤ) = ((x.map.shape i : ℤ) + 4 * l.args.padding i - l.args.dilation i * ((l.args.kernel i : ℤ) - 1) - 1) / l.args.stride i + 1 := by
  unfold forwardMax at h
  split_ifs at h with ht
  rw [not_not] at ht
  obtain ⟨z, h1, h⟩ := bind_ok h
  obtain ⟨z', h2, h⟩ := bind_ok h
  obtain ⟨rfl, hc⟩ := GMap.mk'_ok h
  refine ⟨ht, hc, fun i => ?_⟩
  obtain ⟨hok, -, hsh⟩ := maxPool_shape h1
  have hpos := (hok i).2.2.2.2
  have hp : 2 * l.args.padding i ≤ (l.args.kernel i - 1) * l.args.dilation i + 1 := (hok i).2.2.2.1
  have hk : 0 < l.args.kernel i := (hok i).1
  simp only at hpos
  have e : poolSize (x.map.shape i) (l.args.kernel i) 1 (l.args.padding i) (l.args.dilation i) l.args.ceilMode =
      (x.map.shape i : ℤ) + 2 * l.args.padding i - l.args.dilation i * ((l.args.kernel i : ℤ) - 1) := by
    have h2 : (2 * l.args.padding i : ℤ) ≤ ((l.args.kernel i : ℤ) - 1) * l.args.dilation i + 1 := by
      have : ((2 * l.args.padding i : ℕ) : ℤ) ≤ (((l.args.kernel i - 1) * l.args.dilation i + 1 : ℕ) : ℤ) := by exact_mod_cast hp
      push_cast [Nat.cast_sub (show 1 ≤ l.args.kernel i from hk)] at this
      linarith
    unfold poolSize
    simp only [Nat.cast_one, sub_self, ite_self, add_zero, Int.ediv_one, mul_one, sub_add_cancel]
    rw [if_neg]
    rintro ⟨-, h3⟩
    nlinarith [Int.natCast_nonneg (l.args.padding i)]
  rw [(blurPool_shape h2).2 i, hsh, PoolArgs.outShape]
  simp only
  rw [Int.toNat_of_nonneg hpos.le, e]
  congr 2
  simp only [filterSize]
  rw [show ((2 * l.half + 1 - 1) / 2 : ℕ) = l.half by omega]
  push_cast
  ring

/-- C47 for antialiased max pooling without padding and without `ceil_mode`.  The full statement fails, see `antialiased_violation`. -/
theorem C47_antialiased_max_partial (ninf : ℝ) (l : AntialiasedPool n S (Rep G Id)) (x y : GMap n B S (Rep G Id)) (hx : x.map.chans = x.type.size Rep.size) (h : l.forwardMax ninf x = .ok y)
    (hp : ∀ i, l.args.padding i = 0) (hc : l.args.ceilMode = false) (b : ℤ) : l.evaluateOutputShapeMax (x.map.sizes b) = .ok (y.map.sizes b) := by
  obtain ⟨ht, hy, hsh⟩ := forwardMax_shape ninf l x y h
  rw [evaluateOutputShapeMax, PointwisePool.evaluateOutputShape, checkedShape_sizes _ _ (by rw [hx, ht])]
  simp only [FMap.sizes, hy, Except.ok.injEq, List.cons.injEq, true_and, getD_ofFn', hc]
  congr 1
  funext i
  rw [hsh i, if_neg (by simp), poolQuot, floor_quot, hp i]
  simp

end AntialiasedPool

namespace AdaptivePool

/-- C47 for adaptive max pooling. -/
theorem C47_adaptive_max (ninf : ℝ) (l : AdaptivePool n S (Rep G Id)) (x y : GMap n B S (Rep G Id)) (hx : x.map.chans = x.type.size Rep.size) (h : l.forward (adaptiveMax ninf) x = .ok y) (b : ℤ) :
    l.evaluateOutputShape (x.map.sizes b) = .ok (y.map.sizes b) := by
  unfold forward at h
  split_ifs at h with ht
  rw [not_not] at ht
  obtain ⟨z, h1, h⟩ := bind_ok h
  obtain ⟨rfl, hc⟩ := GMap.mk'_ok h
  unfold adaptiveMax at h1
  split_ifs at h1
  cases h1
  rw [evaluateOutputShape, checkedShape_sizes _ _ (by rw [hx, ht])]
  simp only at hc
  simp [FMap.sizes, hc]

/-- C47 for adaptive average pooling. -/
theorem C47_adaptive_avg (l : AdaptivePool n S (Rep G Id)) (x y : GMap n B S (Rep G Id)) (hx : x.map.chans = x.type.size Rep.size) (h : l.forward adaptiveAvg x = .ok y) (b : ℤ) :
    l.evaluateOutputShape (x.map.sizes b) = .ok (y.map.sizes b) := by
  unfold forward at h
  split_ifs at h with ht
  rw [not_not] at ht
  obtain ⟨z, h1, h⟩ := bind_ok h
  obtain ⟨rfl, hc⟩ := GMap.mk'_ok h
  unfold adaptiveAvg at h1
  split_ifs at h1
  cases h1
  rw [evaluateOutputShape, checkedShape_sizes _ _ (by rw [hx, ht])]
  simp only at hc
  simp [FMap.sizes, hc]

end AdaptivePool

end Escnn
