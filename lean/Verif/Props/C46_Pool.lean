import Verif.Lemmas.Export
import Verif.Props.C59_Pool
import Verif.Props.C47_NormMax

/-!
# C46: exported poolings
-/

namespace Escnn

variable {n : ℕ} {B S G Id : Type}

theorem argmax_congr {α : Type} {f g : α → ℝ} {L : List α} (h : ∀ a ∈ L, f a = g a) : L.argmax f = L.argmax g := by
  induction L using List.reverseRecOn with
  | nil => rfl
  | append_singleton L a ih =>
    rw [List.argmax_concat, List.argmax_concat, ih fun b hb => h b (List.mem_append_left _ hb)]
    cases hL : L.argmax g with
    | none => rfl
    | some c =>
      have hc : c ∈ L := List.argmax_mem hL
      simp only [h c (List.mem_append_left _ hc), h a (by simp)]

theorem maxPoolIdx_congr {a : PoolArgs n} {shape : Fin n → ℕ} {f g : (Fin n → ℕ) → ℝ} (o : Fin n → ℕ) (h : ∀ k, (∀ i, k i < shape i) → f k = g k) : maxPoolIdx a shape f o = maxPoolIdx a shape g o :=
  argmax_congr fun k hk => h k fun i => (mem_poolWindow.1 hk i).1

theorem maxPool_value {a : PoolArgs n} {shape : Fin n → ℕ} {f g : (Fin n → ℕ) → ℝ} (ninf : ℝ) (o : Fin n → ℕ) (h : ∀ k, (∀ i, k i < shape i) → f k = g k) :
    ((maxPoolIdx a shape f o).map f).getD ninf = ((maxPoolIdx a shape g o).map g).getD ninf := by
  rw [maxPoolIdx_congr o h]
  cases hk : maxPoolIdx a shape g o with
  | none => rfl
  | some k => exact h k fun i => (mem_poolWindow.1 (List.argmax_mem hk) i).1

theorem maxPool_congr (ninf : ℝ) (a : PoolArgs n) {x z : FMap n B} (h : x ≈ z) : SameResult (fun y w => y ≈ w) (maxPool ninf a x) (maxPool ninf a z) := by
  obtain ⟨h1, h2, h3⟩ := h
  unfold maxPool
  rw [← h2]
  classical
  refine SameResult.ite Iff.rfl (fun _ => SameResult.ok ⟨h1, rfl, fun b c hc o _ => ?_⟩) _ _
  exact maxPool_value ninf o fun k hk => h3 b c hc k hk

theorem adaptive_lt {w m o u : ℕ} (ho : o < m) (hu : u < (adaptiveBounds w m o).2 - (adaptiveBounds w m o).1) : (adaptiveBounds w m o).1 + u < w := by
  have h1 : ((o + 1) * w + m - 1) / m ≤ w := by
    have : (o + 1) * w ≤ m * w := Nat.mul_le_mul_right _ ho
    refine (Nat.div_le_div_right (c := m) (show (o + 1) * w + m - 1 ≤ (m - 1) + m * w by omega)).trans ?_
    rw [Nat.add_mul_div_left _ _ (by omega), Nat.div_eq_of_lt (by omega), zero_add]
  unfold adaptiveBounds at *
  simp only at *
  omega

theorem adaptiveMax_congr (ninf : ℝ) (out : Fin n → ℕ) {x z : FMap n B} (h : x ≈ z) : SameResult (fun y w => y ≈ w) (adaptiveMax ninf out x) (adaptiveMax ninf out z) := by
  obtain ⟨h1, h2, h3⟩ := h
  unfold adaptiveMax
  rw [← h2]
  classical
  refine SameResult.ite Iff.rfl (fun _ => SameResult.ok ⟨h1, rfl, fun b c hc o ho => ?_⟩) _ _
  have ho' : ∀ i, o i < out i := ho
  have key : ∀ u ∈ boxList n fun i => (adaptiveBounds (x.shape i) (out i) (o i)).2 - (adaptiveBounds (x.shape i) (out i) (o i)).1,
      (x.get b c fun i => (adaptiveBounds (x.shape i) (out i) (o i)).1 + u i) = z.get b c fun i => (adaptiveBounds (x.shape i) (out i) (o i)).1 + u i :=
    fun u hu => h3 b c hc _ fun i => adaptive_lt (ho' i) (mem_boxList.1 hu i)
  simp only
  rw [argmax_congr key]
  cases hk : List.argmax (fun u => z.get b c fun i => (adaptiveBounds (x.shape i) (out i) (o i)).1 + u i) (boxList n fun i => (adaptiveBounds (x.shape i) (out i) (o i)).2 - (adaptiveBounds (x.shape i) (out i) (o i)).1) with
  | none => rfl
  | some k => exact key k (List.argmax_mem hk)

theorem adaptiveAvg_congr (out : Fin n → ℕ) {x z : FMap n B} (h : x ≈ z) : SameResult (fun y w => y ≈ w) (adaptiveAvg out x) (adaptiveAvg out z) := by
  obtain ⟨h1, h2, h3⟩ := h
  unfold adaptiveAvg
  rw [← h2]
  classical
  refine SameResult.ite Iff.rfl (fun _ => SameResult.ok ⟨h1, rfl, fun b c hc o ho => ?_⟩) _ _
  have ho' : ∀ i, o i < out i := ho
  simp only
  congr 2
  refine List.map_congr_left fun u hu => ?_
  exact h3 b c hc _ fun i => adaptive_lt (ho' i) (mem_boxList.1 hu i)

/-- **C46** Pointwise max pooling without `ceil_mode`: the exported module computes the same on all inputs.  (Missing: `ceil_mode`, see `C46_ceil_iff`.) -/
theorem PointwisePool.C46_maxpool_partial (ninf : ℝ) (l : PointwisePool n S (Rep G Id)) (hceil : l.args.ceilMode = false) :
    SameFunction (HoldsMap l.inType) (HoldsMap l.inType) (fun x : GMap n B S (Rep G Id) => l.forwardMax ninf x) (l.exportMax ninf) := by
  refine wrap_same (k := maxPool ninf l.args) (fun x hx => ?_) (fun x z hxz _ => ?_) fun x y hx hy => ?_
  · rw [forwardMax, if_neg (not_not.2 hx)]
  · have e : ({ l.args with ceilMode := false } : PoolArgs n) = l.args := by rw [← hceil]
    rw [exportMax, e]
    exact maxPool_congr ninf _ hxz
  · unfold maxPool at hy
    split_ifs at hy
    cases hy
    exact hx

/-- **C46** `export` loses `ceil_mode`: on an input on which the module works, the exported module computes the same if and only if rounding up and down give the same shape. -/
theorem PointwisePool.C46_ceil_iff (ninf : ℝ) (l : PointwisePool n S (Rep G Id)) (x y : GMap n B S (Rep G Id)) (h : l.forwardMax ninf x = .ok y) :
    (∃ w, l.exportMax ninf x.map = .ok w ∧ y.map ≈ w) ↔ l.args.outShape x.map.shape = ({ l.args with ceilMode := false } : PoolArgs n).outShape x.map.shape := by
  unfold forwardMax at h
  split_ifs at h
  obtain ⟨y', h1, h2⟩ := bind_ok h
  obtain ⟨rfl, -⟩ := GMap.mk'_ok h2
  unfold maxPool at h1
  split_ifs at h1 with hok
  obtain rfl := Except.ok.inj h1
  unfold exportMax maxPool
  constructor
  · rintro ⟨w, hw, e⟩
    split_ifs at hw
    obtain rfl := Except.ok.inj hw
    exact e.2.1
  · intro hs
    have hok' : ({ l.args with ceilMode := false } : PoolArgs n).Ok x.map.shape := by
      intro i
      obtain ⟨a1, a2, a3, a4, a5⟩ := hok i
      refine ⟨a1, a2, a3, a4, ?_⟩
      have : (poolSize (x.map.shape i) (l.args.kernel i) (l.args.stride i) (l.args.padding i) (l.args.dilation i) l.args.ceilMode).toNat =
        (poolSize (x.map.shape i) (l.args.kernel i) (l.args.stride i) (l.args.padding i) (l.args.dilation i) false).toNat := congrFun hs i
      show 0 < poolSize (x.map.shape i) (l.args.kernel i) (l.args.stride i) (l.args.padding i) (l.args.dilation i) false
      omega
    refine ⟨_, if_pos hok', rfl, hs, fun b c _ o _ => ?_⟩
    rfl

/-- **C46** Adaptive max pooling: the exported module computes the same on all inputs. -/
theorem AdaptivePool.C46_adaptive_max (ninf : ℝ) (l : AdaptivePool n S (Rep G Id)) :
    SameFunction (HoldsMap l.inType) (HoldsMap l.inType) (fun x : GMap n B S (Rep G Id) => l.forward (adaptiveMax ninf) x) (l.export' (adaptiveMax ninf)) := by
  refine wrap_same (k := adaptiveMax ninf l.outputSize) (fun x hx => ?_) (fun x z hxz _ => adaptiveMax_congr ninf _ hxz) fun x y hx hy => ?_
  · rw [forward, if_neg (not_not.2 hx)]
  · unfold adaptiveMax at hy
    split_ifs at hy
    cases hy
    exact hx

/-- **C46** Adaptive average pooling: the exported module computes the same on all inputs. -/
theorem AdaptivePool.C46_adaptive_avg (l : AdaptivePool n S (Rep G Id)) :
    SameFunction (HoldsMap l.inType) (HoldsMap l.inType) (fun x : GMap n B S (Rep G Id) => l.forward adaptiveAvg x) (l.export' adaptiveAvg) := by
  refine wrap_same (k := adaptiveAvg l.outputSize) (fun x hx => ?_) (fun x z hxz _ => adaptiveAvg_congr _ hxz) fun x y hx hy => ?_
  · rw [forward, if_neg (not_not.2 hx)]
  · unfold adaptiveAvg at hy
    split_ifs at hy
    cases hy
    exact hx

/-- Windows of size 2 with stride 2 on a 3 × 3 map in `ceil_mode`: the module works, and the exported module returns another shape. -/
theorem C46_ceil_violated (ninf : ℝ) : ∃ (l : PointwisePool 2 Unit (Rep Unit Unit)) (x y : GMap 2 Unit Unit (Rep Unit Unit)), PointwisePool.initMax (fun _ => 2) shapeType (PoolArgs.ofInt 2 2 none 0 1 true) = .ok l ∧
    x.map.chans = x.type.size Rep.size ∧ l.forwardMax ninf x = .ok y ∧ ¬ ∃ w, l.exportMax ninf x.map = .ok w ∧ y.map ≈ w := by
  have hok : (PoolArgs.ofInt 2 2 none 0 1 true).Ok (shapeMap 2 3).shape := by
    show ∀ i : Fin 2, _
    decide
  obtain ⟨y, hy1, hy2⟩ : ∃ y, maxPool ninf (PoolArgs.ofInt 2 2 none 0 1 true) (shapeMap 2 3) = .ok y ∧ y.chans = 1 := ⟨_, if_pos hok, rfl⟩
  have hf : PointwisePool.forwardMax ninf ⟨shapeType, PoolArgs.ofInt 2 2 none 0 1 true⟩ ⟨shapeMap 2 3, shapeType⟩ = .ok ⟨y, shapeType⟩ := by
    rw [PointwisePool.forwardMax, if_neg (not_not.2 rfl)]
    simp only [bind, Except.bind]
    rw [hy1]
    exact if_pos (by rw [hy2]; rfl)
  refine ⟨⟨shapeType, PoolArgs.ofInt 2 2 none 0 1 true⟩, ⟨shapeMap 2 3, shapeType⟩, ⟨y, shapeType⟩, ?_, rfl, hf, ?_⟩
  · rw [PointwisePool.initMax, if_neg (by simp), if_neg (by simp), if_neg]
    simp [shapeType, shapeRep]
  · rw [PointwisePool.C46_ceil_iff ninf _ _ _ hf]
    intro h
    have := congrFun h 0
    revert this
    show ¬ (PoolArgs.ofInt 2 2 none 0 1 true).outShape (fun _ => 3) 0 = ({ PoolArgs.ofInt 2 2 none 0 1 true with ceilMode := false } : PoolArgs 2).outShape (fun _ => 3) 0
    decide

/-- The hypothesis of `C46_maxpool_partial` holds for windows of size 2, and the modules work on a 4 × 4 map. -/
example (ninf : ℝ) : SameFunction (HoldsMap shapeType) (HoldsMap shapeType) (fun x : GMap 2 Unit Unit (Rep Unit Unit) => PointwisePool.forwardMax ninf ⟨shapeType, PoolArgs.ofInt 2 2 none 0 1 false⟩ x)
      (maxPool ninf (PoolArgs.ofInt 2 2 none 0 1 false)) ∧ HoldsMap shapeType ⟨shapeMap 2 4, shapeType⟩ (shapeMap 2 4) ∧ ∃ y, maxPool ninf (PoolArgs.ofInt 2 2 none 0 1 false) (shapeMap 2 4) = .ok y := by
  refine ⟨PointwisePool.C46_maxpool_partial ninf ⟨shapeType, PoolArgs.ofInt 2 2 none 0 1 false⟩ rfl, ⟨rfl, rfl, rfl, rfl, fun _ _ _ _ _ => rfl⟩, _, if_pos ?_⟩
  show ∀ i : Fin 2, _
  decide

/-- Adaptive pooling of a 4 × 4 map to 3 × 3. -/
example (ninf : ℝ) : (∃ y, adaptiveMax ninf (fun _ => 3) (shapeMap 2 4) = .ok y) ∧ HoldsMap shapeType ⟨shapeMap 2 4, shapeType⟩ (shapeMap 2 4) :=
  ⟨⟨_, if_pos fun _ => by simp [shapeMap]⟩, rfl, rfl, rfl, rfl, fun _ _ _ _ _ => rfl⟩

end Escnn
