import Verif.Lemmas.MapEquivariant
import Verif.Lemmas.SizeLoop
import Verif.Props.C47_NormMax
import Verif.Props.C49_Norm

/-!
# C59: max pooling commutes with permutations of the channels and norm max pooling with orthogonal representations
-/

namespace Escnn

variable {n : ℕ} {B S G Id : Type} {El : G → Prop}

/-! ### Windows -/

/-- The window of the output position `p` (specification): the positions of the input at the distances `u * dilation` from the corner `p * stride - padding`. -/
def InWindow (a : PoolArgs n) (shape p q : Fin n → ℕ) : Prop := ∀ i, q i < shape i ∧ ∃ u < a.kernel i, q i + a.padding i = p i * a.stride i + u * a.dilation i

theorem mem_boxList {n : ℕ} {s : Fin n → ℕ} {u : Fin n → ℕ} : u ∈ boxList n s ↔ ∀ i, u i < s i := by
  induction n with
  | zero => simp [boxList]; exact funext fun i => i.elim0
  | succ n ih =>
    simp only [boxList, List.mem_flatMap, List.mem_range, List.mem_map]
    constructor
    · rintro ⟨a, ha, r, hr, rfl⟩ i
      refine Fin.cases ?_ (fun j => ?_) i
      · simpa using ha
      · simpa using ih.1 hr j
    · intro h
      exact ⟨u 0, h 0, fun i => u i.succ, ih.2 fun i => h i.succ, by rw [← Fin.cons_self_tail u]; rfl⟩

theorem mem_poolWindow {a : PoolArgs n} {shape p q : Fin n → ℕ} : q ∈ poolWindow a shape p ↔ InWindow a shape p q := by
  unfold poolWindow InWindow
  simp only [List.mem_filterMap, mem_boxList]
  constructor
  · rintro ⟨u, hu, h⟩
    split_ifs at h with hc
    obtain rfl := Option.some.inj h
    intro i
    have := hc i
    refine ⟨by show Int.toNat _ < _; omega, u i, hu i, ?_⟩
    zify
    rw [Int.toNat_of_nonneg this.1]
    ring
  · intro h
    choose h1 u h2 h3 using h
    have h4 : ∀ i, (p i * a.stride i + u i * a.dilation i : ℤ) - a.padding i = q i := by
      intro i
      have := h3 i
      zify at this
      linarith
    refine ⟨u, h2, ?_⟩
    rw [if_pos fun i => by rw [h4]; exact ⟨by positivity, by exact_mod_cast h1 i⟩]
    simp only [h4, Int.toNat_natCast]

/-- The index of max pooling is in the window, and its value is the greatest in the window. -/
theorem maxPoolIdx_spec {a : PoolArgs n} {shape : Fin n → ℕ} {v : (Fin n → ℕ) → ℝ} {p : Fin n → ℕ} (h : ∃ q, InWindow a shape p q) :
    ∃ q, maxPoolIdx a shape v p = some q ∧ InWindow a shape p q ∧ ∀ q', InWindow a shape p q' → v q' ≤ v q := by
  unfold maxPoolIdx
  cases hm : (poolWindow a shape p).argmax v with
  | none =>
    rw [List.argmax_eq_none] at hm
    obtain ⟨q, hq⟩ := h
    rw [← mem_poolWindow, hm] at hq
    cases hq
  | some q =>
    exact ⟨q, rfl, mem_poolWindow.1 (List.argmax_mem (Option.mem_def.2 hm)), fun q' hq' => List.le_of_mem_argmax (mem_poolWindow.2 hq') (Option.mem_def.2 hm)⟩

/-! ### Operations on each channel -/

theorem sum_map_linear {α : Type} (L : List α) (m : ℕ) (a : ℕ → ℝ) (v : ℕ → α → ℝ) :
    (L.map fun q => ∑ j ∈ Finset.range m, a j * v j q).sum = ∑ j ∈ Finset.range m, a j * (L.map (v j)).sum := by
  induction L with
  | nil => simp
  | cons q L ih =>
    rw [List.map_cons, List.sum_cons, ih, ← Finset.sum_add_distrib]
    refine Finset.sum_congr rfl fun j _ => ?_
    rw [List.map_cons, List.sum_cons]
    ring

theorem maxPool_channelwise (ninf : ℝ) (a : PoolArgs n) : Channelwise (B := B) (maxPool ninf a) (fun s v p => ((maxPoolIdx a s v p).map v).getD ninf) a.outShape := by
  constructor
  · intro x y h
    unfold maxPool at h
    split_ifs at h
    obtain rfl := Except.ok.inj h
    exact ⟨rfl, rfl, fun _ _ _ => rfl⟩
  · intro x x' y h hs
    unfold maxPool at h ⊢
    split_ifs at h with h1
    rw [hs, if_pos h1]
    exact ⟨_, rfl⟩

theorem avgPool_channelwise (a : PoolArgs n) : Channelwise (B := B) (avgPool a) (fun s v p => ((poolWindow a s p).map v).sum / avgDivisor a s p) a.outShape := by
  constructor
  · intro x y h
    unfold avgPool at h
    split_ifs at h
    obtain rfl := Except.ok.inj h
    exact ⟨rfl, rfl, fun _ _ _ => rfl⟩
  · intro x x' y h hs
    unfold avgPool at h ⊢
    split_ifs at h with h1
    rw [hs, if_pos h1]
    exact ⟨_, rfl⟩

theorem avgPool_linear (a : PoolArgs n) : LinearPool (fun s v p => ((poolWindow a s p).map v).sum / avgDivisor a s p) := by
  intro s m c v p
  beta_reduce
  rw [sum_map_linear, Finset.sum_div]
  exact Finset.sum_congr rfl fun j _ => by ring

open Classical in
theorem padMap_channelwise (m : PadMode) (p : Fin n → ℕ) : Channelwise (B := B) (padMap m p)
    (fun s v k => if ∀ i, (padIndex m (s i) ((k i : ℤ) - p i)).isSome then v fun i => (padIndex m (s i) ((k i : ℤ) - p i)).getD 0 else 0) (fun s i => s i + 2 * p i) := by
  constructor
  · intro x y h
    unfold padMap at h
    split_ifs at h
    obtain rfl := Except.ok.inj h
    exact ⟨rfl, rfl, fun _ _ _ => rfl⟩
  · intro x x' y h hs
    unfold padMap at h ⊢
    split_ifs at h with h1
    rw [hs, if_pos h1]
    exact ⟨_, rfl⟩

open Classical in
theorem padMap_linear (m : PadMode) (p : Fin n → ℕ) :
    LinearPool (fun s v k => if ∀ i, (padIndex m (s i) ((k i : ℤ) - p i)).isSome then v fun i => (padIndex m (s i) ((k i : ℤ) - p i)).getD 0 else 0) := by
  intro s M c v k
  beta_reduce
  split_ifs
  · rfl
  · simp

open Classical in
theorem blurPool_channelwise (f : (Fin n → ℕ) → ℝ) (size : ℕ) (stride pad : Fin n → ℕ) :
    ∃ F sh, Channelwise (B := B) (blurPool f size stride pad) F sh ∧ LinearPool F := by
  have h2 : Channelwise (B := B) (n := n) (fun y => if 0 < size ∧ ∀ i, 0 < stride i ∧ size ≤ y.shape i then
      .ok ⟨y.chans, fun i => (y.shape i - size) / stride i + 1, fun b c o => ∑ u : Fin n → Fin size, f (fun i => u i) * y.get b c fun i => o i * stride i + u i⟩ else .error .runtime)
      (fun _ v o => ∑ u : Fin n → Fin size, f (fun i => u i) * v fun i => o i * stride i + u i) (fun s i => (s i - size) / stride i + 1) := by
    constructor
    · intro x y h
      beta_reduce at h
      split_ifs at h
      obtain rfl := Except.ok.inj h
      exact ⟨rfl, rfl, fun _ _ _ => rfl⟩
    · intro x x' y h hs
      beta_reduce at h ⊢
      split_ifs at h with h1
      rw [hs, if_pos h1]
      exact ⟨_, rfl⟩
  have h3 : LinearPool (n := n) (fun _ v o => ∑ u : Fin n → Fin size, f (fun i => u i) * v fun i => o i * stride i + u i) := by
    intro s m a v p
    beta_reduce
    simp only [Finset.mul_sum]
    rw [Finset.sum_comm]
    exact Finset.sum_congr rfl fun j _ => Finset.sum_congr rfl fun u _ => by ring
  refine ⟨_, fun s i => (s i + 2 * pad i - size) / stride i + 1, ?_, (padMap_linear .zeros pad).comp h3 (fun s i => s i + 2 * pad i)⟩
  convert (padMap_channelwise .zeros pad).comp h2 using 1
  funext x
  unfold blurPool
  cases padMap .zeros pad x with
  | error e => rfl
  | ok z =>
    simp only [bind, Except.bind]
    congr

theorem adaptiveMax_channelwise (ninf : ℝ) (out : Fin n → ℕ) : ∃ F sh, Channelwise (B := B) (adaptiveMax ninf out) F sh := by
  refine ⟨fun s v o => (((boxList n fun i => (adaptiveBounds (s i) (out i) (o i)).2 - (adaptiveBounds (s i) (out i) (o i)).1).argmax
        fun u => v fun i => (adaptiveBounds (s i) (out i) (o i)).1 + u i).map fun u => v fun i => (adaptiveBounds (s i) (out i) (o i)).1 + u i).getD ninf, fun _ => out, ?_, ?_⟩
  · intro x y h
    unfold adaptiveMax at h
    split_ifs at h
    obtain rfl := Except.ok.inj h
    exact ⟨rfl, rfl, fun _ _ _ => rfl⟩
  · intro x x' y h hs
    unfold adaptiveMax at h ⊢
    split_ifs at h with h1
    rw [hs, if_pos h1]
    exact ⟨_, rfl⟩

theorem adaptiveAvg_channelwise (out : Fin n → ℕ) : ∃ F sh, Channelwise (B := B) (adaptiveAvg out) F sh ∧ LinearPool F := by
  refine ⟨fun s v o => ((boxList n fun i => (adaptiveBounds (s i) (out i) (o i)).2 - (adaptiveBounds (s i) (out i) (o i)).1).map
        fun u => v fun i => (adaptiveBounds (s i) (out i) (o i)).1 + u i).sum / ∏ i, (((adaptiveBounds (s i) (out i) (o i)).2 - (adaptiveBounds (s i) (out i) (o i)).1 : ℕ) : ℝ), fun _ => out, ⟨?_, ?_⟩, ?_⟩
  · intro x y h
    unfold adaptiveAvg at h
    split_ifs at h
    obtain rfl := Except.ok.inj h
    exact ⟨rfl, rfl, fun _ _ _ => rfl⟩
  · intro x x' y h hs
    unfold adaptiveAvg at h ⊢
    split_ifs at h with h1
    rw [hs, if_pos h1]
    exact ⟨_, rfl⟩
  · intro s m c v p
    beta_reduce
    rw [sum_map_linear _ m c (fun j (u : Fin n → ℕ) => v j fun i => (adaptiveBounds (s i) (out i) (p i)).1 + u i), Finset.sum_div]
    exact Finset.sum_congr rfl fun j _ => by ring

/-! ### The modules which pool each channel -/

/-- **C59** `PointwiseMaxPool` returns the greatest value in the window of each position, in each channel. -/
theorem PointwisePool.C59_max_value (ninf : ℝ) (l : PointwisePool n S (Rep G Id)) (x y : GMap n B S (Rep G Id)) (h : l.forwardMax ninf x = .ok y) (b : B) (c : ℕ) (p : Fin n → ℕ)
    (hp : ∃ q, InWindow l.args x.map.shape p q) : IsGreatest {z | ∃ q, InWindow l.args x.map.shape p q ∧ x.map.get b c q = z} (y.map.get b c p) := by
  unfold forwardMax at h
  split_ifs at h
  obtain ⟨z, h1, h2⟩ := bind_ok h
  obtain ⟨rfl, -⟩ := GMap.mk'_ok h2
  obtain ⟨-, -, h3⟩ := (maxPool_channelwise ninf l.args).spec _ _ h1
  obtain ⟨q, e1, e2, e3⟩ := maxPoolIdx_spec (v := x.map.get b c) hp
  rw [h3, e1]
  refine ⟨⟨q, e2, rfl⟩, ?_⟩
  rintro _ ⟨q', hq', rfl⟩
  exact e3 q' hq'

/-- **C59** `PointwiseMaxPool` commutes with the action on the fibres if all the representations are permutations. -/
theorem PointwisePool.C59_max (ninf : ℝ) (l : PointwisePool n S (Rep G Id)) (ht : ∀ r ∈ l.inType.reprs, ∀ g, El g → IsPermMat r.size (r.mat g)) :
    MapFibreEquivariant (B := B) El l.inType l.inType (l.forwardMax ninf) :=
  (maxPool_channelwise ninf l.args).perm (fun x hx => by rw [forwardMax, if_neg (not_not.2 hx)]) (fun x hx => by rw [forwardMax, if_pos hx]) ht

/-- **C59** `PointwiseAvgPool` commutes with the action on the fibres for all representations. -/
theorem PointwisePool.C59_avg (l : PointwisePool n S (Rep G Id)) (ht : l.inType.Square El) : MapFibreEquivariant (B := B) El l.inType l.inType l.forwardAvg :=
  (avgPool_channelwise l.args).linear (avgPool_linear l.args) (fun x hx => by rw [forwardAvg, if_neg (not_not.2 hx)]) (fun x hx => by rw [forwardAvg, if_pos hx]) ht

/-- **C59** `PointwiseMaxPoolAntialiased` commutes with the action on the fibres if all the representations are permutations. -/
theorem AntialiasedPool.C59_max (ninf : ℝ) (l : AntialiasedPool n S (Rep G Id)) (ht : ∀ r ∈ l.inType.reprs, ∀ g, El g → IsPermMat r.size (r.mat g)) :
    MapFibreEquivariant (B := B) El l.inType l.inType (l.forwardMax ninf) := by
  obtain ⟨F, sh, h, -⟩ := blurPool_channelwise (B := B) (gaussFilter l.filterSize l.sigma) l.filterSize l.args.stride (fun i => l.args.padding i + (l.filterSize - 1) / 2)
  refine ((maxPool_channelwise ninf { l.args with stride := fun _ => 1 }).comp h).perm (fun x hx => ?_) (fun x hx => by rw [forwardMax, if_pos hx]) ht
  rw [forwardMax, if_neg (not_not.2 hx)]
  cases maxPool ninf { l.args with stride := fun _ => 1 } x.map <;> rfl

/-- **C59** `PointwiseAvgPoolAntialiased` commutes with the action on the fibres for all representations. -/
theorem AntialiasedPool.C59_avg (l : AntialiasedPool n S (Rep G Id)) (ht : l.inType.Square El) : MapFibreEquivariant (B := B) El l.inType l.inType l.forwardAvg := by
  obtain ⟨F, sh, h, h'⟩ := blurPool_channelwise (B := B) (gaussFilter l.filterSize l.sigma) l.filterSize l.args.stride l.args.padding
  exact h.linear h' (fun x hx => by rw [forwardAvg, if_neg (not_not.2 hx)]) (fun x hx => by rw [forwardAvg, if_pos hx]) ht

/-- **C59** `PointwiseAdaptiveMaxPool` commutes with the action on the fibres if all the representations are permutations. -/
theorem AdaptivePool.C59_max (ninf : ℝ) (l : AdaptivePool n S (Rep G Id)) (ht : ∀ r ∈ l.inType.reprs, ∀ g, El g → IsPermMat r.size (r.mat g)) :
    MapFibreEquivariant (B := B) El l.inType l.inType (l.forward (adaptiveMax ninf)) := by
  obtain ⟨F, sh, h⟩ := adaptiveMax_channelwise (B := B) ninf l.outputSize
  exact h.perm (fun x hx => by rw [forward, if_neg (not_not.2 hx)]) (fun x hx => by rw [forward, if_pos hx]) ht

/-- **C59** `PointwiseAdaptiveAvgPool` commutes with the action on the fibres for all representations. -/
theorem AdaptivePool.C59_avg (l : AdaptivePool n S (Rep G Id)) (ht : l.inType.Square El) : MapFibreEquivariant (B := B) El l.inType l.inType (l.forward adaptiveAvg) := by
  obtain ⟨F, sh, h, h'⟩ := adaptiveAvg_channelwise (B := B) l.outputSize
  exact h.linear h' (fun x hx => by rw [forward, if_neg (not_not.2 hx)]) (fun x hx => by rw [forward, if_pos hx]) ht

/-! ### Norm max pooling -/

namespace NormMaxPool

/-- What the forward pass computes: the whole field at the index of the maximum of the norms. -/
theorem forward_spec (dflt : (Fin n → ℕ) → Fin n → ℕ) (junk : B → ℕ → (Fin n → ℕ) → ℝ) (gdim : S → ℕ) (t : FType S (Rep G Id)) (hpos : ∀ r ∈ t.reprs, 0 < r.size) (args : PoolArgs n)
    (l : NormMaxPool n S (Rep G Id)) (hl : init gdim t args = .ok l) (x : GMap n B S (Rep G Id)) (hx : x.type = t) (hc : x.map.chans = t.size Rep.size)
    (hok : t.reprs = [] ∨ args.Ok x.map.shape ∧ args.outShape x.map.shape = fun i => (⌊poolQuot args i (x.map.shape i)⌋).toNat) :
    ∃ y, l.forward dflt junk x = .ok y ∧ y.type = t ∧ y.map.chans = t.size Rep.size ∧ (y.map.shape = fun i => (⌊poolQuot args i (x.map.shape i)⌋).toNat) ∧
      ∀ (k : ℕ) (r : Rep G Id), t.reprs[k]? = some r → ∀ o < r.size, ∀ b p, y.map.get b (chanOffset Rep.size t.reprs k + o) p = x.map.get b (chanOffset Rep.size t.reprs k + o)
        ((maxPoolIdx args x.map.shape (fun q => fieldNormOf r.size fun o => x.map.get b (chanOffset Rep.size t.reprs k + o) q) p).getD (dflt p)) := by
  unfold init at hl
  split at hl
  · simp at hl
  cases htab : runTable Rep.size t (t.reprs.map Rep.size) with
  | error e => simp [htab, bind, Except.bind] at hl
  | ok tab =>
    simp only [htab, bind, Except.bind, Except.ok.injEq] at hl
    subst hl
    set pred : Fin n → ℕ := fun i => (⌊poolQuot args i (x.map.shape i)⌋).toNat with hpred
    obtain ⟨res, f1, f2, f3⟩ := sizeLoop_run (P := Fin n → ℕ) hpos htab (order := keysInOrder (t.reprs.map Rep.size)) (keysInOrder_nodup _) (fun s => mem_keysInOrder)
      (F := poolFields dflt args x.map.shape pred) (x := ⟨x.map.chans, x.map.get⟩) (out := ⟨x.map.chans, junk⟩) hc hc
      (fun s _ k b o p => x.map.get b (chanOffset Rep.size t.reprs k + o)
        ((maxPoolIdx args x.map.shape (fun q => fieldNormOf s fun o => x.map.get b (chanOffset Rep.size t.reprs k + o) q) p).getD (dflt p))) (by
      intro s hs d f e1 e2 e3 e4
      have hs0 : 0 < s := by
        obtain ⟨r, hr, rfl⟩ := List.mem_map.1 hs
        exact hpos r hr
      obtain ⟨hok1, hok2⟩ := hok.resolve_left (fun e => by rw [e] at hs; simp at hs)
      have hdc : d.chans / s = (t.reprs.map Rep.size).count s := by
        unfold FTensor.toFields at e1
        split_ifs at e1 with h
        rw [h, Nat.mul_div_cancel _ hs0]
      refine ⟨⟨f.n, s, fun b c o p => f.get b c o ((maxPoolIdx args x.map.shape (fun q => Real.sqrt (∑ o ∈ Finset.range s, f.get b c o q ^ 2)) p).getD (dflt p))⟩, ?_, rfl, rfl, fun m k hm b o p ho => ?_⟩
      · unfold poolFields
        rw [hdc]
        simp only [bind, Except.bind, e1]
        rw [if_neg (not_not.2 hok1), if_neg (not_not.2 hok2)]
      · simp only
        rw [e4 m k hm b o _ ho]
        have : (fun q => Real.sqrt (∑ o ∈ Finset.range s, f.get b m o q ^ 2)) = fun q => fieldNormOf s fun o => x.map.get b (chanOffset Rep.size t.reprs k + o) q := by
          funext q
          unfold fieldNormOf
          congr 1
          exact Finset.sum_congr rfl fun o ho => by rw [e4 m k hm b o q (Finset.mem_range.1 ho)]
        rw [this])
    refine ⟨⟨⟨res.chans, pred, res.get⟩, t⟩, ?_, rfl, f2, rfl, fun k r hk o ho b p => f3 k r hk b o p ho⟩
    unfold forward
    rw [if_neg (not_not.2 hx), evaluate_eq _ x hc]
    simp only [bind, Except.bind, getD_two]
    rw [← hpred, f1]
    exact if_pos f2

theorem forward_need (dflt : (Fin n → ℕ) → Fin n → ℕ) (junk : B → ℕ → (Fin n → ℕ) → ℝ) (gdim : S → ℕ) (t : FType S (Rep G Id)) (hpos : ∀ r ∈ t.reprs, 0 < r.size) (args : PoolArgs n)
    (l : NormMaxPool n S (Rep G Id)) (hl : init gdim t args = .ok l) (x y : GMap n B S (Rep G Id)) (hx : x.type = t) (hc : x.map.chans = t.size Rep.size) (h : l.forward dflt junk x = .ok y) :
    t.reprs = [] ∨ args.Ok x.map.shape ∧ args.outShape x.map.shape = fun i => (⌊poolQuot args i (x.map.shape i)⌋).toNat := by
  rw [or_iff_not_imp_left]
  intro hne
  unfold init at hl
  split at hl
  · simp at hl
  cases htab : runTable Rep.size t (t.reprs.map Rep.size) with
  | error e => simp [htab, bind, Except.bind] at hl
  | ok tab =>
    simp only [htab, bind, Except.bind, Except.ok.injEq] at hl
    subst hl
    unfold forward at h
    rw [if_neg (not_not.2 hx), evaluate_eq _ x hc] at h
    obtain ⟨sh, h1, h⟩ := bind_ok h
    obtain rfl := Except.ok.inj h1
    obtain ⟨z, h2, -⟩ := bind_ok h
    obtain ⟨s, ks, hks⟩ : ∃ s ks, keysInOrder (t.reprs.map Rep.size) = s :: ks := by
      cases hk : keysInOrder (t.reprs.map Rep.size) with
      | nil =>
        exfalso
        obtain ⟨r, hr⟩ := List.exists_mem_of_ne_nil _ hne
        have := mem_keysInOrder.2 (List.mem_map_of_mem hr : r.size ∈ t.reprs.map Rep.size)
        rw [hk] at this
        simp at this
      | cons s ks => exact ⟨s, ks, rfl⟩
    rw [hks, groupedLoop] at h2
    obtain ⟨_, -, h2⟩ := bind_ok h2
    obtain ⟨d, -, h2⟩ := bind_ok h2
    obtain ⟨e, h3, -⟩ := bind_ok h2
    unfold poolFields at h3
    obtain ⟨f, -, h3⟩ := bind_ok h3
    split_ifs at h3 with h4 h5
    refine ⟨h4, ?_⟩
    simpa only [getD_two] using not_not.1 h5

/-- **C59** `NormMaxPool` picks whole field vectors: all the entries of a field are read at the same position of the input, which is the one of maximal norm of this field in the window. -/
theorem C59_picks (dflt : (Fin n → ℕ) → Fin n → ℕ) (junk : B → ℕ → (Fin n → ℕ) → ℝ) (gdim : S → ℕ) (t : FType S (Rep G Id)) (hpos : ∀ r ∈ t.reprs, 0 < r.size) (args : PoolArgs n)
    (l : NormMaxPool n S (Rep G Id)) (hl : init gdim t args = .ok l) (x y : GMap n B S (Rep G Id)) (hx : x.type = t) (hc : x.map.chans = t.size Rep.size) (h : l.forward dflt junk x = .ok y) :
    y.type = t ∧ y.map.chans = x.map.chans ∧ ∀ (k : ℕ) (r : Rep G Id), t.reprs[k]? = some r → ∀ b p, ∃ q,
      (∀ o < r.size, y.map.get b (((t.reprs.take k).map Rep.size).sum + o) p = x.map.get b (((t.reprs.take k).map Rep.size).sum + o) q) ∧
      ((∃ q', InWindow args x.map.shape p q') → InWindow args x.map.shape p q ∧ ∀ q', InWindow args x.map.shape p q' →
        ∑ o ∈ Finset.range r.size, x.map.get b (((t.reprs.take k).map Rep.size).sum + o) q' ^ 2 ≤ ∑ o ∈ Finset.range r.size, x.map.get b (((t.reprs.take k).map Rep.size).sum + o) q ^ 2) := by
  obtain ⟨y', e1, e2, e3, -, e5⟩ := forward_spec dflt junk gdim t hpos args l hl x hx hc (forward_need dflt junk gdim t hpos args l hl x y hx hc h)
  obtain rfl := Except.ok.inj (h.symm.trans e1)
  refine ⟨e2, e3.trans hc.symm, fun k r hk b p => ⟨_, fun o ho => e5 k r hk o ho b p, fun hw => ?_⟩⟩
  obtain ⟨q, f1, f2, f3⟩ := maxPoolIdx_spec (v := fun q => fieldNormOf r.size fun o => x.map.get b (chanOffset Rep.size t.reprs k + o) q) hw
  rw [f1]
  refine ⟨f2, fun q' hq' => ?_⟩
  have := f3 q' hq'
  unfold fieldNormOf at this
  rw [Real.sqrt_le_sqrt_iff (Finset.sum_nonneg fun _ _ => sq_nonneg _)] at this
  exact this

/-- **C59** `NormMaxPool` commutes with the action on the fibres if all the representations are orthogonal. -/
theorem C59_norm (dflt : (Fin n → ℕ) → Fin n → ℕ) (junk : B → ℕ → (Fin n → ℕ) → ℝ) (gdim : S → ℕ) (t : FType S (Rep G Id)) (hpos : ∀ r ∈ t.reprs, 0 < r.size) (args : PoolArgs n)
    (l : NormMaxPool n S (Rep G Id)) (hl : init gdim t args = .ok l) (ht : Orthogonal El t) : MapFibreEquivariant (B := B) El t t (l.forward dflt junk) := by
  have hin : l.inType = t := by
    unfold init at hl
    split at hl
    · simp at hl
    obtain ⟨_, -, hl⟩ := bind_ok hl
    obtain rfl := Except.ok.inj hl
    rfl
  have htype : ∀ x y : GMap n B S (Rep G Id), l.forward dflt junk x = .ok y → x.type = t ∧ x.map.chans = t.size Rep.size := by
    intro x y h
    unfold forward at h
    split_ifs at h with h1
    refine ⟨(not_not.1 h1).trans hin, ?_⟩
    obtain ⟨sh, h2, -⟩ := bind_ok h
    unfold evaluateOutputShape checkedShape at h2
    split_ifs at h2
    simp only [FMap.sizes] at h2
    split_ifs at h2 with h3
    rw [hin] at h3
    exact_mod_cast not_not.1 h3
  refine MapFibreEquivariant.of_fields ht.square ht.square (fun x k o b p => x.get b (chanOffset Rep.size t.reprs k + o)
        ((maxPoolIdx args x.shape (fun q => fieldNormOf ((t.reprs.map Rep.size).getD k 0) fun o => x.get b (chanOffset Rep.size t.reprs k + o) q) p).getD (dflt p)))
    (fun s i => (⌊poolQuot args i (s i)⌋).toNat) (fun x y hx hc h => ?_) (fun x x' y h h1 h2 h3 => ?_) ?_
  · obtain ⟨y', e1, e2, e3, e4, e5⟩ := forward_spec dflt junk gdim t hpos args l hl x hx hc (forward_need dflt junk gdim t hpos args l hl x y hx hc h)
    obtain rfl := Except.ok.inj (h.symm.trans e1)
    refine ⟨e2, e3, e4, fun k r hk o ho b p => ?_⟩
    have : (t.reprs.map Rep.size).getD k 0 = r.size := by simp [List.getD, hk]
    rw [e5 k r hk o ho b p, this]
  · obtain ⟨hx, hc⟩ := htype x y h
    have hok := forward_need dflt junk gdim t hpos args l hl x y hx hc h
    obtain ⟨y', e1, -⟩ := forward_spec dflt junk gdim t hpos args l hl x' (h1.trans hx) (h2.trans hc) (by rw [h3]; exact hok)
    exact ⟨y', e1⟩
  · intro g hg x gx hs hact k r hk o ho b p
    have : (t.reprs.map Rep.size).getD k 0 = r.size := by simp [List.getD, hk]
    simp only [this, hs]
    have e : (fun q => fieldNormOf r.size fun o => gx.get b (chanOffset Rep.size t.reprs k + o) q) = fun q => fieldNormOf r.size fun o => x.get b (chanOffset Rep.size t.reprs k + o) q :=
      funext fun q => hact.norm ht hg hk b q
    rw [e]
    exact hact k r hk b o _ ho

end NormMaxPool

/-! ### A concrete case -/

/-- A field with two channels which are exchanged, and an invariant field, for the examples. -/
noncomputable def pointwisePoolType : FType Unit (Rep Bool Unit) := ⟨(), [swapRep, trivRep]⟩

/-- Feature maps on a grid of 2 × 2 positions. -/
noncomputable def poolMap (v : ℕ → (Fin 2 → ℕ) → ℝ) : GMap 2 Unit Unit (Rep Bool Unit) := ⟨⟨3, fun _ => 2, fun _ => v⟩, pointwisePoolType⟩

theorem pointwisePoolType_size : pointwisePoolType.size Rep.size = 3 := rfl

theorem pointwisePoolType_perm : ∀ r ∈ pointwisePoolType.reprs, ∀ g, True → IsPermMat r.size (r.mat g) := by
  intro r hr g _
  simp only [pointwisePoolType, List.mem_cons, List.not_mem_nil, or_false] at hr
  rcases hr with rfl | rfl
  · exact swapRep_perm g
  · exact trivRep_perm g

theorem poolArgs_ok : (PoolArgs.ofInt 2 2 none 0 1 false).Ok (fun _ => 2) := by
  intro i
  simp [PoolArgs.ofInt, poolSize]

example (ninf : ℝ) (v : ℕ → (Fin 2 → ℕ) → ℝ) : ∃ y, PointwisePool.forwardMax ninf ⟨pointwisePoolType, PoolArgs.ofInt 2 2 none 0 1 false⟩ (poolMap v) = .ok y ∧
    MapFibreEquivariant (n := 2) (B := Unit) (fun _ => True) pointwisePoolType pointwisePoolType (PointwisePool.forwardMax ninf ⟨pointwisePoolType, PoolArgs.ofInt 2 2 none 0 1 false⟩) ∧
    InWindow (PoolArgs.ofInt 2 2 none 0 1 false) (fun _ => 2) (fun _ => 0) (fun i => if i = 0 then 0 else 1) := by
  refine ⟨⟨⟨3, (PoolArgs.ofInt 2 2 none 0 1 false).outShape (fun _ => 2), fun _ c p => ((maxPoolIdx (PoolArgs.ofInt 2 2 none 0 1 false) (fun _ => 2) (v c) p).map (v c)).getD ninf⟩, pointwisePoolType⟩, ?_, PointwisePool.C59_max (El := fun _ => True) ninf ⟨pointwisePoolType, PoolArgs.ofInt 2 2 none 0 1 false⟩ pointwisePoolType_perm, fun i => ⟨?_, ?_⟩⟩
  · rw [PointwisePool.forwardMax, if_neg (not_not.2 (show (poolMap v).type = pointwisePoolType from rfl)), maxPool, if_pos (show (PoolArgs.ofInt 2 2 none 0 1 false).Ok (poolMap v).map.shape from poolArgs_ok)]
    rfl
  · show (if i = 0 then 0 else 1) < 2
    split_ifs <;> omega
  · refine ⟨if i = 0 then 0 else 1, ?_, ?_⟩
    · show (if i = 0 then 0 else 1) < 2
      split_ifs <;> omega
    · simp [PoolArgs.ofInt]

example (dflt : (Fin 2 → ℕ) → Fin 2 → ℕ) (junk : Unit → ℕ → (Fin 2 → ℕ) → ℝ) (v : ℕ → (Fin 2 → ℕ) → ℝ) :
    ∃ l y, NormMaxPool.init (fun _ => 2) pointwisePoolType (PoolArgs.ofInt 2 2 none 0 1 false) = .ok l ∧ l.forward dflt junk (poolMap v) = .ok y ∧ y.map.shape 0 = 1 ∧
      MapFibreEquivariant (n := 2) (B := Unit) (fun _ => True) pointwisePoolType pointwisePoolType (l.forward dflt junk) := by
  have hl : NormMaxPool.init (fun _ => 2) pointwisePoolType (PoolArgs.ofInt 2 2 none 0 1 false) = .ok ⟨pointwisePoolType, PoolArgs.ofInt 2 2 none 0 1 false, [(2, true, [0, 2]), (1, true, [2, 3])]⟩ := rfl
  have hpos : ∀ r ∈ pointwisePoolType.reprs, 0 < r.size := by
    intro r hr
    simp only [pointwisePoolType, List.mem_cons, List.not_mem_nil, or_false] at hr
    rcases hr with rfl | rfl <;> decide
  have hq : ∀ i : Fin 2, ⌊poolQuot (PoolArgs.ofInt 2 2 none 0 1 false) i 2⌋ = 1 := by
    intro i
    simp [poolQuot, PoolArgs.ofInt]
  obtain ⟨y, h1, -, -, h4, -⟩ := NormMaxPool.forward_spec dflt junk (fun _ => 2) pointwisePoolType hpos _ _ hl (poolMap v) rfl rfl (.inr ⟨poolArgs_ok, by
    funext i
    have : (poolMap v).map.shape i = 2 := rfl
    rw [this]
    show _ = (⌊poolQuot (PoolArgs.ofInt 2 2 none 0 1 false) i 2⌋).toNat
    rw [hq]
    show (poolSize 2 2 2 0 1 false).toNat = 1
    decide⟩)
  refine ⟨_, y, hl, h1, ?_, NormMaxPool.C59_norm dflt junk _ _ hpos _ _ hl fun r hr g hg => (pointwisePoolType_perm r hr g hg).orth⟩
  rw [h4]
  show (⌊poolQuot (PoolArgs.ofInt 2 2 none 0 1 false) 0 2⌋).toNat = 1
  rw [hq]
  rfl

end Escnn
