import Verif.Lemmas.GridPool
import Verif.Spec.GridCommutes
import Verif.Props.C71_Upsampling
import Verif.Lemmas.StretchRep

/-!
# C72: poolings commute with the symmetries of the grid
-/

namespace Escnn

open NpMat NdArr

variable {n : ℕ} {B G J S : Type} {T : IrrepTable G J} {El : G → Prop} {op : G → G → G} {one : G}

/-- A module which checks the type, pools and wraps the result. -/
theorem commutes_of_moved (hT : T.Valid El op one) {t : FType S (Rep G J)} (hwf : ∀ r ∈ t.reprs, r.WF T El) {base : G → NpMat ℝ} {interp : NdArr n (B × ℕ) → NpMat ℝ → Except Err (NdArr n (B × ℕ))} {g : G} (hg : El g)
    (hM : IsSignedPerm n (base g)) {f : GMap n B S (Rep G J) → Except Err (GMap n B S (Rep G J))} {pool : FMap n B → Except Err (FMap n B)}
    (hf : ∀ x, f ⟨x, t⟩ = do GMap.mk' Rep.size (← pool x) t) {x y : FMap n B} (hx : x.chans = t.size Rep.size) (hy : pool x = .ok y) (hc : y.chans = x.chans)
    (hp : ∀ (τ : Equiv.Perm (Fin n)) (δ : Fin n → ℝ) (gx : FMap n B), Moved τ δ (t.fiberRep g) x gx → ∃ gy, pool gx = .ok gy ∧ Moved τ δ (t.fiberRep g) y gy) :
    CommutesWith base interp f g ⟨x, t⟩ := by
  obtain ⟨hMr, hMc, σ, ε, hε, hMg⟩ := hM
  have hS : Signed n (base g) σ ε := ⟨hMr, hMc, hε, hMg⟩
  obtain ⟨gx, h1, h2⟩ := GMap.transform_moved hT hwf base interp hg hS x hx
  obtain ⟨gy, h3, h4⟩ := hp _ _ _ h2
  obtain ⟨gy', h5, h6⟩ := GMap.transform_moved hT hwf base interp hg hS y (hc.trans hx)
  refine ⟨⟨y, t⟩, ⟨gx, t⟩, ⟨gy, t⟩, ⟨gy', t⟩, ?_, h1, ?_, h5, rfl, h4.unique h6⟩
  · rw [hf, hy]
    exact if_pos (hc.trans hx)
  · rw [hf, h3]
    exact if_pos (h4.chans.trans (hc.trans hx))

/-- A type of permutation representations permutes the channels. -/
theorem fiberRep_perm {t : FType S (Rep G J)} {g : G} (hp : ∀ r ∈ t.reprs, IsPermMat r.size (r.mat g)) {m : ℕ} (hm : m = t.size Rep.size) :
    ∀ c < m, ∃ c', ∀ f : ℕ → ℝ, ∑ j ∈ Finset.range m, (t.fiberRep g).get c j * f j = f c' := by
  subst hm
  intro c hc
  rw [FType.size_eq] at hc ⊢
  obtain ⟨k, r, a, hk, ha, rfl⟩ := exists_field hc
  obtain ⟨σ, hσ⟩ := (hp r (List.mem_of_getElem? hk)).perm
  refine ⟨chanOffset Rep.size t.reprs k + σ ⟨a, ha⟩, fun f => ?_⟩
  have h1 := blockDiag_row (ρ := fun r : Rep G J => r.mat g) (fun r hr => ⟨(hp r hr).1, (hp r hr).2.1⟩) hk ha f
  rw [FType.fiberRep, h1]
  exact hσ (fun j => f (chanOffset Rep.size t.reprs k + j)) ⟨a, ha⟩

theorem fits_moved {a : PoolArgs n} (hu : a.Uniform) {τ : Equiv.Perm (Fin n)} {s s' : Fin n → ℕ} (hs : ∀ i, s' i = s (τ i)) (h : a.Fits s) : a.Fits s' := by
  intro i
  obtain ⟨h1, h2, h3, h4⟩ := hu i (τ i)
  rw [h1, h2, h3, h4, hs]
  exact h (τ i)

/-- **C72** `PointwiseMaxPool` commutes with the elements which act on the grid by a signed permutation matrix and on the fibres by permutations, if the arguments are the same for each axis and the windows reach both
ends of each axis (`stride` divides `size + 2 padding - dilation (kernel - 1) - 1`), for every kernel size, stride, padding, dilation, with and without `ceil_mode`. -/
theorem PointwisePool.C72_max (hT : T.Valid El op one) (ninf : ℝ) (l : PointwisePool n S (Rep G J)) (hwf : ∀ r ∈ l.inType.reprs, r.WF T El) (hu : l.args.Uniform) (base : G → NpMat ℝ)
    (interp : NdArr n (B × ℕ) → NpMat ℝ → Except Err (NdArr n (B × ℕ))) {g : G} (hg : El g) (hM : IsSignedPerm n (base g)) (hperm : ∀ r ∈ l.inType.reprs, IsPermMat r.size (r.mat g))
    (x : FMap n B) (hx : x.chans = l.inType.size Rep.size) (hok : l.args.Ok x.shape) (hfit : l.args.Fits x.shape) : CommutesWith base interp (l.forwardMax ninf) g ⟨x, l.inType⟩ := by
  refine commutes_of_moved hT hwf hg hM (pool := maxPool ninf l.args) (fun x => by rw [forwardMax, if_neg (by simp)]) hx (if_pos hok) rfl fun τ δ gx h => ?_
  have hy : maxPool ninf l.args gx = .ok _ := if_pos (ok_moved hu h.shape hok)
  exact ⟨_, hy, h.perm (maxPool_channelwise ninf l.args) (fiberRep_perm hperm hx) (maxPool_moves ninf hu h.shape hok hfit) (if_pos hok) hy⟩

/-- **C72** `PointwiseAvgPool` (whose dilation is 1) commutes with them for all representations. -/
theorem PointwisePool.C72_avg (hT : T.Valid El op one) (l : PointwisePool n S (Rep G J)) (hwf : ∀ r ∈ l.inType.reprs, r.WF T El) (hu : l.args.Uniform) (hd : ∀ i, l.args.dilation i = 1) (base : G → NpMat ℝ)
    (interp : NdArr n (B × ℕ) → NpMat ℝ → Except Err (NdArr n (B × ℕ))) {g : G} (hg : El g) (hM : IsSignedPerm n (base g))
    (x : FMap n B) (hx : x.chans = l.inType.size Rep.size) (hok : l.args.Ok x.shape) (hfit : l.args.Fits x.shape) : CommutesWith base interp l.forwardAvg g ⟨x, l.inType⟩ := by
  refine commutes_of_moved hT hwf hg hM (pool := avgPool l.args) (fun x => by rw [forwardAvg, if_neg (by simp)]) hx (if_pos hok) rfl fun τ δ gx h => ?_
  have hy : avgPool l.args gx = .ok _ := if_pos (ok_moved hu h.shape hok)
  exact ⟨_, hy, h.linear (avgPool_channelwise l.args) (avgPool_linear l.args) (avgPool_moves hu hd h.shape hok hfit (fits_moved hu h.shape hfit)) (if_pos hok) hy⟩

/-- **C72** `PointwiseAdaptiveMaxPool` with the same output size along each axis commutes with them for all sizes of the input. -/
theorem AdaptivePool.C72_max (hT : T.Valid El op one) (ninf : ℝ) (l : AdaptivePool n S (Rep G J)) (hwf : ∀ r ∈ l.inType.reprs, r.WF T El) (hu : ∀ i j, l.outputSize i = l.outputSize j) (base : G → NpMat ℝ)
    (interp : NdArr n (B × ℕ) → NpMat ℝ → Except Err (NdArr n (B × ℕ))) {g : G} (hg : El g) (hM : IsSignedPerm n (base g)) (hperm : ∀ r ∈ l.inType.reprs, IsPermMat r.size (r.mat g))
    (x : FMap n B) (hx : x.chans = l.inType.size Rep.size) (hpos : ∀ i, 0 < x.shape i) : CommutesWith base interp (l.forward (adaptiveMax ninf)) g ⟨x, l.inType⟩ := by
  refine commutes_of_moved hT hwf hg hM (pool := adaptiveMax ninf l.outputSize) (fun x => by rw [forward, if_neg (by simp)]) hx (if_pos hpos) rfl fun τ δ gx h => ?_
  have hy : adaptiveMax ninf l.outputSize gx = .ok _ := if_pos fun i => by rw [h.shape]; exact hpos _
  refine ⟨_, hy, h.perm (pool := adaptiveMax ninf l.outputSize) (F := fun s v o => (((boxList n fun i => (adaptiveBounds (s i) (l.outputSize i) (o i)).2 - (adaptiveBounds (s i) (l.outputSize i) (o i)).1).argmax
        fun u => v fun i => (adaptiveBounds (s i) (l.outputSize i) (o i)).1 + u i).map fun u => v fun i => (adaptiveBounds (s i) (l.outputSize i) (o i)).1 + u i).getD ninf) (sh := fun _ => l.outputSize) ⟨?_, ?_⟩
        (fiberRep_perm hperm hx) ⟨fun i => hu _ _, fun v v' hv o ho => congrArg (Option.getD · ninf) (argmax_value (adaptive_values h.shape hu ho hv))⟩ (if_pos hpos) hy⟩
  · intro x y h
    unfold adaptiveMax at h
    split_ifs at h
    obtain rfl := Except.ok.inj h
    exact ⟨rfl, rfl, fun _ _ _ => rfl⟩
  · intro x x' y h hs
    unfold adaptiveMax at h ⊢
    split_ifs at h with h1
    rw [hs, if_pos h1]
    exact ⟨_, rfl⟩

/-- **C72** `PointwiseAdaptiveAvgPool` with the same output size along each axis commutes with them for all representations and all sizes of the input. -/
theorem AdaptivePool.C72_avg (hT : T.Valid El op one) (l : AdaptivePool n S (Rep G J)) (hwf : ∀ r ∈ l.inType.reprs, r.WF T El) (hu : ∀ i j, l.outputSize i = l.outputSize j) (base : G → NpMat ℝ)
    (interp : NdArr n (B × ℕ) → NpMat ℝ → Except Err (NdArr n (B × ℕ))) {g : G} (hg : El g) (hM : IsSignedPerm n (base g))
    (x : FMap n B) (hx : x.chans = l.inType.size Rep.size) (hpos : ∀ i, 0 < x.shape i) : CommutesWith base interp (l.forward adaptiveAvg) g ⟨x, l.inType⟩ := by
  refine commutes_of_moved hT hwf hg hM (pool := adaptiveAvg l.outputSize) (fun x => by rw [forward, if_neg (by simp)]) hx (if_pos hpos) rfl fun τ δ gx h => ?_
  have hy : adaptiveAvg l.outputSize gx = .ok _ := if_pos fun i => by rw [h.shape]; exact hpos _
  refine ⟨_, hy, h.linear (pool := adaptiveAvg l.outputSize) (F := fun s v o => ((boxList n fun i => (adaptiveBounds (s i) (l.outputSize i) (o i)).2 - (adaptiveBounds (s i) (l.outputSize i) (o i)).1).map
        fun u => v fun i => (adaptiveBounds (s i) (l.outputSize i) (o i)).1 + u i).sum / ∏ i, (((adaptiveBounds (s i) (l.outputSize i) (o i)).2 - (adaptiveBounds (s i) (l.outputSize i) (o i)).1 : ℕ) : ℝ))
        (sh := fun _ => l.outputSize) ⟨?_, ?_⟩ ?_ ⟨fun i => hu _ _, fun v v' hv o ho => ?_⟩ (if_pos hpos) hy⟩
  · intro x y h
    unfold adaptiveAvg at h
    split_ifs at h
    obtain rfl := Except.ok.inj h
    exact ⟨rfl, rfl, fun _ _ _ => rfl⟩
  · intro x x' y h hs
    unfold adaptiveAvg at h ⊢
    split_ifs at h with h1
    rw [hs, if_pos h1]
    exact ⟨_, rfl⟩
  · intro s m c v p
    beta_reduce
    rw [sum_map_linear _ m c (fun j (u : Fin n → ℕ) => v j fun i => (adaptiveBounds (s i) (l.outputSize i) (p i)).1 + u i), Finset.sum_div]
    exact Finset.sum_congr rfl fun j _ => by ring
  · beta_reduce
    rw [(adaptive_values h.shape hu ho hv).sum_eq, adaptive_prod (δ := δ) h.shape hu ho]

/-- **C72** `PointwiseAvgPoolAntialiased` commutes with them for all representations, if the stride divides the range of the Gaussian filter. -/
theorem AntialiasedPool.C72_avg (hT : T.Valid El op one) (l : AntialiasedPool n S (Rep G J)) (hwf : ∀ r ∈ l.inType.reprs, r.WF T El) (hu : l.args.Uniform) (base : G → NpMat ℝ)
    (interp : NdArr n (B × ℕ) → NpMat ℝ → Except Err (NdArr n (B × ℕ))) {g : G} (hg : El g) (hM : IsSignedPerm n (base g))
    (x : FMap n B) (hx : x.chans = l.inType.size Rep.size) (hsize : ∀ i, 0 < l.args.stride i ∧ l.filterSize ≤ x.shape i + 2 * l.args.padding i) (hdiv : ∀ i, l.args.stride i ∣ x.shape i + 2 * l.args.padding i - l.filterSize) :
    CommutesWith base interp l.forwardAvg g ⟨x, l.inType⟩ := by
  obtain ⟨y, hy, hyc⟩ : ∃ y, blurPool (gaussFilter l.filterSize l.sigma) l.filterSize l.args.stride l.args.padding x = .ok y ∧ y.chans = x.chans := by
    unfold blurPool
    rw [show padMap .zeros l.args.padding x = .ok _ from if_pos fun _ => trivial]
    exact ⟨_, if_pos ⟨by simp [filterSize], hsize⟩, rfl⟩
  refine commutes_of_moved hT hwf hg hM (pool := blurPool (gaussFilter l.filterSize l.sigma) l.filterSize l.args.stride l.args.padding) (fun x => by rw [forwardAvg, if_neg (by simp)]) hx hy hyc fun τ δ gx h => ?_
  exact h.blur hy (fun i j => (hu i j).2.1) (fun i j => (hu i j).2.2.1) (fun u hu => gaussFilter_moved l.sigma hu) hdiv

/-- **C72** `PointwiseMaxPoolAntialiased` commutes with them for permutation representations, if the stride divides the range of the Gaussian filter (the max pooling itself has stride 1, which always divides). -/
theorem AntialiasedPool.C72_max (hT : T.Valid El op one) (ninf : ℝ) (l : AntialiasedPool n S (Rep G J)) (hwf : ∀ r ∈ l.inType.reprs, r.WF T El) (hu : l.args.Uniform) (base : G → NpMat ℝ)
    (interp : NdArr n (B × ℕ) → NpMat ℝ → Except Err (NdArr n (B × ℕ))) {g : G} (hg : El g) (hM : IsSignedPerm n (base g)) (hperm : ∀ r ∈ l.inType.reprs, IsPermMat r.size (r.mat g))
    (x : FMap n B) (hx : x.chans = l.inType.size Rep.size) (hok : ({ l.args with stride := fun _ => 1 } : PoolArgs n).Ok x.shape) (hs : ∀ i, 0 < l.args.stride i)
    (hdiv : ∀ i, l.args.stride i ∣ ({ l.args with stride := fun _ => 1 } : PoolArgs n).outShape x.shape i + 2 * (l.args.padding i + (l.filterSize - 1) / 2) - l.filterSize) :
    CommutesWith base interp (l.forwardMax ninf) g ⟨x, l.inType⟩ := by
  set a : PoolArgs n := { l.args with stride := fun _ => 1 } with ha
  have hua : a.Uniform := fun i j => ⟨(hu i j).1, rfl, (hu i j).2.2.1, (hu i j).2.2.2⟩
  have hfa : a.Fits x.shape := fun i => by
    show ((1 : ℕ) : ℤ) ∣ _
    rw [Nat.cast_one]
    exact one_dvd _
  obtain ⟨y, hy, hyc, hys⟩ : ∃ y, maxPool ninf a x = .ok y ∧ y.chans = x.chans ∧ y.shape = a.outShape x.shape := ⟨_, if_pos hok, rfl, rfl⟩
  obtain ⟨z, hz, hzc⟩ : ∃ z, blurPool (gaussFilter l.filterSize l.sigma) l.filterSize l.args.stride (fun i => l.args.padding i + (l.filterSize - 1) / 2) y = .ok z ∧ z.chans = y.chans := by
    unfold blurPool
    rw [show padMap .zeros (fun i => l.args.padding i + (l.filterSize - 1) / 2) y = .ok _ from if_pos fun _ => trivial]
    refine ⟨_, if_pos ⟨by simp [filterSize], fun i => ⟨hs i, ?_⟩⟩, rfl⟩
    show l.filterSize ≤ y.shape i + 2 * (l.args.padding i + (l.filterSize - 1) / 2)
    have h0 : 0 < a.outShape x.shape i := by
      have := (hok i).2.2.2.2
      show 0 < Int.toNat _
      omega
    rw [hys]
    unfold filterSize
    omega
  refine commutes_of_moved hT hwf hg hM (pool := fun x => do
      let y ← maxPool ninf a x
      blurPool (gaussFilter l.filterSize l.sigma) l.filterSize l.args.stride (fun i => l.args.padding i + (l.filterSize - 1) / 2) y) (fun x => ?_) hx (by beta_reduce; rw [hy]; exact hz) (hzc.trans hyc) fun τ δ gx h => ?_
  · rw [forwardMax, if_neg (by simp)]
    cases maxPool ninf a x <;> rfl
  · have hgy : maxPool ninf a gx = .ok _ := if_pos (ok_moved hua h.shape hok)
    have h2 := h.perm (maxPool_channelwise ninf a) (fiberRep_perm hperm hx) (maxPool_moves ninf hua h.shape hok hfa) hy hgy
    obtain ⟨gz, h3, h4⟩ := h2.blur hz (fun i j => (hu i j).2.1) (fun i j => by rw [(hu i j).2.2.1]) (fun u hu => gaussFilter_moved l.sigma hu) (by rw [hys]; exact hdiv)
    exact ⟨gz, by beta_reduce; rw [hgy]; exact h3, h4⟩

/-! ### Pooling by the norms of the fields -/

/-- If the windows reach both ends, the size predicted by the module is the size of the output of `max_pool2d`. -/
theorem quot_fit {a : PoolArgs n} {s : Fin n → ℕ} (hok : a.Ok s) (hfit : a.Fits s) : a.outShape s = fun i => (⌊poolQuot a i (s i)⌋).toNat := by
  funext i
  obtain ⟨h1, h2, h3, h4, h5⟩ := hok i
  have h := poolSize_fit h1 h2 h4 h5 (hfit i)
  show (poolSize (s i) (a.kernel i) (a.stride i) (a.padding i) (a.dilation i) a.ceilMode).toNat = _
  set m := (poolSize (s i) (a.kernel i) (a.stride i) (a.padding i) (a.dilation i) a.ceilMode).toNat with hm
  have hs' : (a.stride i : ℚ) ≠ 0 := by exact_mod_cast h2.ne'
  have e : poolQuot a i (s i) = (m : ℚ) := by
    unfold poolQuot
    have hk : ((a.kernel i - 1 : ℕ) : ℤ) = (a.kernel i : ℤ) - 1 := by rw [Nat.cast_sub h1, Nat.cast_one]
    have hm' : ((m - 1 : ℕ) : ℤ) = (m : ℤ) - 1 := by rw [Nat.cast_sub (by omega), Nat.cast_one]
    have h' : (s i : ℤ) + 2 * a.padding i - a.dilation i * ((a.kernel i : ℤ) - 1) - 1 = ((m : ℤ) - 1) * a.stride i := by
      zify at h
      rw [hk, hm'] at h
      linarith
    rw [h']
    push_cast
    rw [mul_div_assoc, div_self hs']
    ring
  rw [e, Int.floor_natCast, Int.toNat_natCast]

/-- **C72** `NormMaxPool` commutes with them for orthogonal representations, if in each window one position has a norm greater than all the others. -/
theorem NormMaxPool.C72_norm (hT : T.Valid El op one) (dflt : (Fin n → ℕ) → Fin n → ℕ) (junk : B → ℕ → (Fin n → ℕ) → ℝ) (gdim : S → ℕ) {t : FType S (Rep G J)} (hpos : ∀ r ∈ t.reprs, 0 < r.size) {args : PoolArgs n}
    {l : NormMaxPool n S (Rep G J)} (hl : init gdim t args = .ok l) (hwf : ∀ r ∈ t.reprs, r.WF T El) (hu : args.Uniform) (base : G → NpMat ℝ)
    (interp : NdArr n (B × ℕ) → NpMat ℝ → Except Err (NdArr n (B × ℕ))) {g : G} (hg : El g) (hM : IsSignedPerm n (base g)) (horth : ∀ r ∈ t.reprs, IsOrthMat r.size (r.mat g))
    (x : FMap n B) (hx : x.chans = t.size Rep.size) (hok : args.Ok x.shape) (hfit : args.Fits x.shape)
    (hmax : ∀ (k : ℕ) (r : Rep G J), t.reprs[k]? = some r → ∀ b, ∀ p ∈ Box (args.outShape x.shape), ∃ q, InWindow args x.shape p q ∧ ∀ q', InWindow args x.shape p q' → q' ≠ q →
      ∑ o ∈ Finset.range r.size, x.get b (((t.reprs.take k).map Rep.size).sum + o) q' ^ 2 < ∑ o ∈ Finset.range r.size, x.get b (((t.reprs.take k).map Rep.size).sum + o) q ^ 2) :
    CommutesWith base interp (l.forward dflt junk) g ⟨x, t⟩ := by
  obtain ⟨hMr, hMc, σ, ε, hε, hMg⟩ := hM
  have hS : Signed n (base g) σ ε := ⟨hMr, hMc, hε, hMg⟩
  obtain ⟨gx, h1, h2⟩ := GMap.transform_moved hT hwf base interp hg hS x hx
  set τ := arrPerm σ
  set δ := arrSign σ ε
  obtain ⟨⟨y, t'⟩, e1, e2, e3, e4, e5⟩ := forward_spec dflt junk gdim t hpos args l hl ⟨x, t⟩ rfl hx (.inr ⟨hok, quot_fit hok hfit⟩)
  obtain rfl : t = t' := e2.symm
  have hok' := ok_moved hu h2.shape hok
  have hfit' := fits_moved hu h2.shape hfit
  obtain ⟨⟨gy, t'⟩, f1, f2, f3, f4, f5⟩ := forward_spec dflt junk gdim t hpos args l hl ⟨gx, t⟩ rfl (h2.chans.trans hx) (.inr ⟨hok', quot_fit hok' hfit'⟩)
  obtain rfl : t = t' := f2.symm
  obtain ⟨gy', h5, h6⟩ := GMap.transform_moved hT hwf base interp hg hS y e3
  refine ⟨_, _, _, _, e1, h1, f1, h5, rfl, Moved.unique (A := t.fiberRep g) ⟨?_, ?_, ?_, ?_, ?_⟩ h6⟩
  · exact h6.rows
  · exact h6.cols
  · exact f3.trans e3.symm
  · rw [← quot_fit hok' hfit'] at f4
    rw [← quot_fit hok hfit] at e4
    intro i
    simp only at f4 e4
    rw [f4, e4]
    exact outShape_moved hu h2.shape i
  rw [← quot_fit hok' hfit'] at f4
  rw [← quot_fit hok hfit] at e4
  simp only at f4 e4 e3 f3 e5 f5
  intro b c hc p hp
  rw [e3, FType.size_eq] at hc
  rw [e3, FType.size_eq, e4]
  obtain ⟨k, r, a, hk, ha, rfl⟩ := exists_field hc
  have hrm := List.mem_of_getElem? hk
  have hrow : ∀ a < r.size, ∀ f : ℕ → ℝ, ∑ j ∈ Finset.range (t.reprs.map Rep.size).sum, (t.fiberRep g).get (chanOffset Rep.size t.reprs k + a) j * f j = ∑ j ∈ Finset.range r.size, (r.mat g).get a j * f (chanOffset Rep.size t.reprs k + j) := fun a ha f =>
    blockDiag_row (ρ := fun r : Rep G J => r.mat g) (fun r hr => ⟨(horth r hr).1, (horth r hr).2.1⟩) hk ha f
  have hgx : ∀ a < r.size, ∀ q ∈ Box gx.shape, gx.get b (chanOffset Rep.size t.reprs k + a) q = ∑ j ∈ Finset.range r.size, (r.mat g).get a j * x.get b (chanOffset Rep.size t.reprs k + j) (source x.shape τ δ q) := by
    intro a ha q hq
    rw [h2.get b _ (by rw [hx, FType.size_eq]; exact chanOffset_lt hk ha) q hq, hx, FType.size_eq]
    exact hrow a ha fun j => x.get b j (source x.shape τ δ q)
  have hnorm : ∀ q ∈ Box gx.shape, fieldNormOf r.size (fun o => gx.get b (chanOffset Rep.size t.reprs k + o) q) = fieldNormOf r.size fun o => x.get b (chanOffset Rep.size t.reprs k + o) (source x.shape τ δ q) := by
    intro q hq
    unfold fieldNormOf
    rw [← (horth r hrm).norm fun o => x.get b (chanOffset Rep.size t.reprs k + o) (source x.shape τ δ q)]
    refine congrArg Real.sqrt (Finset.sum_congr rfl fun o ho => ?_)
    beta_reduce
    rw [hgx o (Finset.mem_range.1 ho) q hq]
  rw [f4] at hp
  have hp0 : source (args.outShape x.shape) τ δ p ∈ Box (args.outShape x.shape) := source_box fun i => by rw [← outShape_moved hu h2.shape i]; exact hp i
  obtain ⟨q0, hq0, hq1⟩ := hmax k r hk b _ hp0
  have hwin := poolWindow_moved (τ := τ) (δ := δ) hu h2.shape hok hfit hp
  obtain ⟨q', hq', hq2⟩ := List.mem_map.1 (hwin.mem_iff.2 (mem_poolWindow.2 hq0))
  obtain ⟨q, m1, m2, m3⟩ := maxPoolIdx_spec (v := fun q => fieldNormOf r.size fun o => gx.get b (chanOffset Rep.size t.reprs k + o) q) ⟨q', mem_poolWindow.1 hq'⟩
  have hq : source x.shape τ δ q = q0 := by
    by_contra hne
    have hlt := hq1 _ (mem_poolWindow.1 (hwin.mem_iff.1 (List.mem_map_of_mem (mem_poolWindow.2 m2)))) hne
    have := m3 q' (mem_poolWindow.1 hq')
    rw [hnorm q' (poolWindow_box hq'), hnorm q (poolWindow_box (mem_poolWindow.2 m2)), hq2] at this
    unfold fieldNormOf at this
    rw [Real.sqrt_le_sqrt_iff (Finset.sum_nonneg fun _ _ => sq_nonneg _)] at this
    exact absurd hlt (not_lt.2 this)
  obtain ⟨q1, n1, n2, n3⟩ := maxPoolIdx_spec (v := fun q => fieldNormOf r.size fun o => x.get b (chanOffset Rep.size t.reprs k + o) q) ⟨q0, hq0⟩
  have hq1' : q1 = q0 := by
    by_contra hne
    have hlt := hq1 _ n2 hne
    have := n3 q0 hq0
    unfold fieldNormOf at this
    rw [Real.sqrt_le_sqrt_iff (Finset.sum_nonneg fun _ _ => sq_nonneg _)] at this
    exact absurd hlt (not_lt.2 this)
  rw [f5 k r hk a ha b p, m1, Option.getD_some, hgx a ha q (poolWindow_box (mem_poolWindow.2 m2)), hq, hrow a ha fun j => y.get b j (source (args.outShape x.shape) τ δ p)]
  refine Finset.sum_congr rfl fun j hj => ?_
  rw [e5 k r hk j (Finset.mem_range.1 hj) b _, n1, Option.getD_some, hq1']

/-! ### The condition on the sizes is necessary -/

/-- The value of max pooling without padding and dilation at the position `p`. -/
theorem PointwisePool.max_value (ninf : ℝ) {k s W : ℕ} (hk : 0 < k) (hs : 0 < s) (hW : k ≤ W) {t : FType S (Rep G J)} {x : FMap 2 B} {y : GMap 2 B S (Rep G J)} (hx : x.shape = fun _ => W)
    (h : forwardMax ninf ⟨t, PoolArgs.ofInt 2 k (some s) 0 1 false⟩ ⟨x, t⟩ = .ok y) :
    y.type = t ∧ y.map.chans = x.chans ∧ (y.map.shape = fun _ => (W - k) / s + 1) ∧ ∀ b c, ∀ p : Fin 2 → ℕ, (∀ i, p i < (W - k) / s + 1) →
      IsGreatest {v | ∃ q : Fin 2 → ℕ, (∀ i, p i * s ≤ q i ∧ q i < p i * s + k) ∧ x.get b c q = v} (y.map.get b c p) := by
  unfold forwardMax at h
  rw [if_neg (by simp)] at h
  obtain ⟨z, h1, h2⟩ := bind_ok h
  obtain ⟨rfl, -⟩ := GMap.mk'_ok h2
  obtain ⟨e1, e2, e3⟩ := (maxPool_channelwise ninf _).spec _ _ h1
  have hq : poolSize W k s 0 1 false = (((W - k) / s + 1 : ℕ) : ℤ) := by
    unfold poolSize
    simp only [Bool.false_eq_true, if_false, false_and, Nat.cast_zero, mul_zero, add_zero, Nat.cast_one, one_mul]
    rw [show (W : ℤ) - (k - 1) - 1 = ((W - k : ℕ) : ℤ) by omega]
    push_cast
    rfl
  refine ⟨rfl, e1, ?_, fun b c p hp => ?_⟩
  · rw [e2, hx]
    funext i
    show (poolSize W k s 0 1 false).toNat = _
    rw [hq, Int.toNat_natCast]
  have hle : ∀ i, p i * s + k ≤ W := by
    intro i
    have h3 : p i ≤ (W - k) / s := by have := hp i; omega
    have := (Nat.le_div_iff_mul_le hs).1 h3
    omega
  have hwin : ∀ q, InWindow (PoolArgs.ofInt 2 k (some s) 0 1 false) x.shape p q ↔ ∀ i, p i * s ≤ q i ∧ q i < p i * s + k := by
    intro q
    refine forall_congr' fun i => ?_
    rw [hx]
    show (q i < W ∧ ∃ u < k, q i + 0 = p i * s + u * 1) ↔ _
    have := hle i
    constructor
    · rintro ⟨h4, u, h5, h6⟩
      omega
    · rintro ⟨h4, h5⟩
      exact ⟨by omega, q i - p i * s, by omega, by omega⟩
  obtain ⟨q, f1, f2, f3⟩ := maxPoolIdx_spec (v := x.get b c) ⟨fun i => p i * s, (hwin _).2 fun i => ⟨le_rfl, by omega⟩⟩
  rw [e3, f1]
  refine ⟨⟨q, (hwin q).1 f2, rfl⟩, ?_⟩
  rintro _ ⟨q', hq', rfl⟩
  exact f3 q' ((hwin q').2 hq')

/-- **C72** For the half turn and scalar images of `W × W` pixels, without padding and dilation, the condition is necessary. -/
theorem PointwisePool.C72_max_iff (ninf : ℝ) {k s W : ℕ} (hk : 0 < k) (hs : 0 < s) (hW : k ≤ W) (interp : NdArr 2 (Unit × ℕ) → NpMat ℝ → Except Err (NdArr 2 (Unit × ℕ))) :
    (∀ f : Unit → ℕ → (Fin 2 → ℕ) → ℝ, CommutesWith (Cyclic.irrepMat 4 1) interp (forwardMax ninf ⟨Upsampling.scalars, PoolArgs.ofInt 2 k (some s) 0 1 false⟩) 2 ⟨⟨1, fun _ => W, f⟩, Upsampling.scalars⟩) ↔ s ∣ W - k := by
  constructor
  · intro h
    obtain ⟨y, gx, gy, gy', h1, h2, h3, h4, h5, h6⟩ := h fun _ _ q => q 0
    obtain ⟨gx', e1, e2, e3, e4⟩ := Upsampling.half_turn interp (⟨1, fun _ => W, fun _ _ q => q 0⟩ : FMap 2 Unit) rfl
    obtain rfl := Except.ok.inj (h2.symm.trans e1)
    obtain ⟨a1, a2, a3, a4⟩ := max_value ninf hk hs hW rfl h1
    obtain ⟨b1, b2, b3, b4⟩ := max_value ninf hk hs hW e3 h3
    obtain ⟨y, ty⟩ := y
    obtain rfl : Upsampling.scalars = ty := a1.symm
    obtain ⟨gy2, f1, f2, f3, f4⟩ := Upsampling.half_turn interp y a2
    obtain rfl := Except.ok.inj (h4.symm.trans f1)
    simp only at a3 a2 f3 f4
    have hd : (W - k) / s * s ≤ W - k := Nat.div_mul_le_self _ _
    -- the window at the origin
    have h8 := h6.2.2 () 0 (by rw [b2, e2]; exact Nat.one_pos) (fun _ => 0) (by rw [b3]; exact fun i => Nat.succ_pos _)
    rw [f4 () _ (by rw [f3, a3]; exact fun i => Nat.succ_pos _)] at h8
    simp only [a3, Nat.sub_zero, Nat.add_sub_cancel] at h8
    obtain ⟨⟨q, hq, hq'⟩, hup⟩ := b4 () 0 (fun _ => 0) fun i => Nat.succ_pos _
    have g1 : gy.map.get () 0 (fun _ => 0) = ((W - 1 : ℕ) : ℝ) := by
      refine le_antisymm ?_ (hup ⟨fun _ => 0, fun i => by show 0 * s ≤ 0 ∧ 0 < 0 * s + k; omega, ?_⟩)
      · rw [← hq', e4 () _ (by rw [e3]; exact fun i => by have := hq i; show q i < W; simp only [zero_mul] at this; omega)]
        show ((W - 1 - q 0 : ℕ) : ℝ) ≤ _
        exact_mod_cast Nat.sub_le _ _
      · rw [e4 () _ (by rw [e3]; exact fun i => by show 0 < W; omega)]
        rfl
    have g2 : y.get () 0 (fun _ => (W - k) / s) = (((W - k) / s * s + k - 1 : ℕ) : ℝ) := by
      obtain ⟨⟨q, hq, hq'⟩, hup⟩ := a4 () 0 (fun _ => (W - k) / s) fun i => Nat.lt_succ_self _
      refine le_antisymm ?_ (hup ⟨fun _ => (W - k) / s * s + k - 1, fun i => by show _ ≤ (W - k) / s * s + k - 1 ∧ (W - k) / s * s + k - 1 < _; omega, rfl⟩)
      rw [← hq']
      have := hq 0
      show ((q 0 : ℕ) : ℝ) ≤ _
      exact_mod_cast (by omega : q 0 ≤ (W - k) / s * s + k - 1)
    rw [g1, g2, Nat.cast_inj] at h8
    exact ⟨(W - k) / s, by rw [mul_comm]; omega⟩
  · intro h f
    refine C72_max (Cyclic.table_valid 4 (by norm_num)) ninf ⟨Upsampling.scalars, PoolArgs.ofInt 2 k (some s) 0 1 false⟩ Upsampling.scalars_wf (fun i j => ⟨rfl, rfl, rfl, rfl⟩) _ interp (by decide) (Cyclic.signedPerm 2) ?_ _
      Upsampling.scalars_size.symm ?_ ?_
    · intro r hr
      obtain rfl : r = _ := List.mem_singleton.1 hr
      refine ⟨rfl, rfl, 1, fun i j => ?_⟩
      have hi : (i : ℕ) = 0 := by have := i.2; simp only [irrepRep, Rep.size, eye, Cyclic.table, Cyclic.irrepSize] at this; simpa using this
      have hj : (j : ℕ) = 0 := by have := j.2; simp only [irrepRep, Rep.size, eye, Cyclic.table, Cyclic.irrepSize] at this; simpa using this
      rw [Equiv.Perm.one_apply, if_pos (Fin.ext (hi.trans hj.symm)), hi, hj]
      simp [irrepRep, Cyclic.table, Cyclic.irrepMat, eye]
    · intro i
      refine ⟨hk, hs, Nat.one_pos, Nat.zero_le _, ?_⟩
      show 0 < poolSize W k s 0 1 false
      unfold poolSize
      simp only [Bool.false_eq_true, if_false, false_and, Nat.cast_zero, mul_zero, add_zero, Nat.cast_one, one_mul]
      rw [show (W : ℤ) - (k - 1) - 1 = ((W - k : ℕ) : ℤ) by omega]
      positivity
    · intro i
      show (s : ℤ) ∣ (W : ℤ) + 2 * (0 : ℕ) - (1 : ℕ) * ((k : ℤ) - 1) - 1
      rw [show (W : ℤ) + 2 * (0 : ℕ) - (1 : ℕ) * ((k : ℤ) - 1) - 1 = ((W - k : ℕ) : ℤ) by omega]
      exact_mod_cast h

/-- **C72** Pooling an image of 3 × 3 pixels by windows of 2 × 2 pixels, with the default stride, does not commute with the half turn. -/
theorem PointwisePool.C72_stride_violated (ninf : ℝ) (interp : NdArr 2 (Unit × ℕ) → NpMat ℝ → Except Err (NdArr 2 (Unit × ℕ))) :
    ¬ ∀ f : Unit → ℕ → (Fin 2 → ℕ) → ℝ, CommutesWith (Cyclic.irrepMat 4 1) interp (forwardMax ninf ⟨Upsampling.scalars, PoolArgs.ofInt 2 2 none 0 1 false⟩) 2 ⟨⟨1, fun _ => 3, f⟩, Upsampling.scalars⟩ := by
  intro h
  have := (C72_max_iff ninf (k := 2) (s := 2) (W := 3) (by norm_num) (by norm_num) (by norm_num) interp).1 h
  omega

/-! ### Concrete cases -/

/-- Max pooling of a regular field of `C_4` on 5 × 7 pixels, with windows of size 3, stride 2 and padding 1. -/
example (ninf : ℝ) (f : Unit → ℕ → (Fin 2 → ℕ) → ℝ) (interp : NdArr 2 (Unit × ℕ) → NpMat ℝ → Except Err (NdArr 2 (Unit × ℕ))) (g : ℤ) (hg : g ∈ Cyclic.elements 4) :
    ∃ r : Rep ℤ ℕ, r.size = 4 ∧ CommutesWith (Cyclic.irrepMat 4 1) interp (PointwisePool.forwardMax ninf ⟨⟨(), [r]⟩, PoolArgs.ofInt 2 3 (some 2) 1 1 false⟩) g ⟨⟨4, ![5, 7], f⟩, ⟨(), [r]⟩⟩ := by
  obtain ⟨r, -, h1, h2, h3, -⟩ := Cyclic.C16_cyclic 4 (by norm_num) [] (by simp)
  refine ⟨r, h2, PointwisePool.C72_max (Cyclic.table_valid_mem 4 (by norm_num)) ninf ⟨⟨(), [r]⟩, PoolArgs.ofInt 2 3 (some 2) 1 1 false⟩ (fun q hq => ?_) (fun i j => ⟨rfl, rfl, rfl, rfl⟩) _ interp hg (Cyclic.signedPerm g) (fun q hq => ?_)
    ⟨4, ![5, 7], f⟩ ?_ ?_ ?_⟩
  · obtain rfl := List.mem_singleton.1 hq
    exact h1
  · obtain rfl := List.mem_singleton.1 hq
    have := IsLeftMul.perm (Cyclic.finGroup 4 (by norm_num)) hg (h3 g hg)
    rw [h2]
    exact this
  · rw [FType.size_eq]
    simp [h2]
  · intro i
    fin_cases i <;> simp [PoolArgs.ofInt, poolSize]
  · intro i
    fin_cases i <;> simp [PoolArgs.ofInt]

/-- Average pooling of a scalar and a vector field of `C_4` on 4 × 6 pixels. -/
example (f : Unit → ℕ → (Fin 2 → ℕ) → ℝ) (interp : NdArr 2 (Unit × ℕ) → NpMat ℝ → Except Err (NdArr 2 (Unit × ℕ))) (g : ℤ) (hg : Cyclic.isElement 4 g = true) :
    CommutesWith (Cyclic.irrepMat 4 1) interp (PointwisePool.forwardAvg ⟨convDemo, PoolArgs.ofInt 2 2 none 0 1 true⟩) g ⟨⟨3, ![4, 6], f⟩, convDemo⟩ := by
  refine PointwisePool.C72_avg (Cyclic.table_valid 4 (by norm_num)) ⟨convDemo, PoolArgs.ofInt 2 2 none 0 1 true⟩ convDemo_wf (fun i j => ⟨rfl, rfl, rfl, rfl⟩) (fun _ => rfl) _ interp hg (Cyclic.signedPerm g) ⟨3, ![4, 6], f⟩
    (by simp [convDemo, FType.size_eq, irrepRep, Rep.size, eye, Cyclic.table, Cyclic.irrepSize]) ?_ ?_
  · intro i
    fin_cases i <;> simp [PoolArgs.ofInt, poolSize]
  · intro i
    fin_cases i <;> simp [PoolArgs.ofInt] <;> decide

/-- Adaptive average pooling of 5 × 8 pixels to 3 × 3. -/
example (f : Unit → ℕ → (Fin 2 → ℕ) → ℝ) (interp : NdArr 2 (Unit × ℕ) → NpMat ℝ → Except Err (NdArr 2 (Unit × ℕ))) (g : ℤ) (hg : Cyclic.isElement 4 g = true) :
    CommutesWith (Cyclic.irrepMat 4 1) interp (AdaptivePool.forward adaptiveAvg ⟨convDemo, fun _ => 3⟩) g ⟨⟨3, ![5, 8], f⟩, convDemo⟩ :=
  AdaptivePool.C72_avg (Cyclic.table_valid 4 (by norm_num)) ⟨convDemo, fun _ => 3⟩ convDemo_wf (fun _ _ => rfl) _ interp hg (Cyclic.signedPerm g) ⟨3, ![5, 8], f⟩
    (by simp [convDemo, FType.size_eq, irrepRep, Rep.size, eye, Cyclic.table, Cyclic.irrepSize]) (by intro i; fin_cases i <;> simp)

/-- Antialiased average pooling with a filter of size 5, padding 2 and stride 2 of 5 × 7 pixels. -/
example (sigma : ℝ) (f : Unit → ℕ → (Fin 2 → ℕ) → ℝ) (interp : NdArr 2 (Unit × ℕ) → NpMat ℝ → Except Err (NdArr 2 (Unit × ℕ))) (g : ℤ) (hg : Cyclic.isElement 4 g = true) :
    CommutesWith (Cyclic.irrepMat 4 1) interp (AntialiasedPool.forwardAvg ⟨convDemo, PoolArgs.ofInt 2 5 (some 2) 2 1 false, sigma, 2⟩) g ⟨⟨3, ![5, 7], f⟩, convDemo⟩ :=
  AntialiasedPool.C72_avg (Cyclic.table_valid 4 (by norm_num)) ⟨convDemo, PoolArgs.ofInt 2 5 (some 2) 2 1 false, sigma, 2⟩ convDemo_wf (fun i j => ⟨rfl, rfl, rfl, rfl⟩) _ interp hg (Cyclic.signedPerm g) ⟨3, ![5, 7], f⟩
    (by simp [convDemo, FType.size_eq, irrepRep, Rep.size, eye, Cyclic.table, Cyclic.irrepSize]) (by intro i; fin_cases i <;> simp [PoolArgs.ofInt, AntialiasedPool.filterSize])
    (by intro i; fin_cases i <;> simp [PoolArgs.ofInt, AntialiasedPool.filterSize])

/-- Adaptive max pooling of a regular field of `C_4`, 5 × 8 pixels to 3 × 3, and antialiased max pooling of 5 × 7 pixels: the max pooling keeps the size, and the blur, with padding 4 and stride 2, has the ranges 5 + 8 - 7 and 7 + 8 - 7. -/
example (ninf sigma : ℝ) (f : Unit → ℕ → (Fin 2 → ℕ) → ℝ) (interp : NdArr 2 (Unit × ℕ) → NpMat ℝ → Except Err (NdArr 2 (Unit × ℕ))) (g : ℤ) (hg : g ∈ Cyclic.elements 4) :
    ∃ r : Rep ℤ ℕ, r.size = 4 ∧ CommutesWith (Cyclic.irrepMat 4 1) interp (AdaptivePool.forward (adaptiveMax ninf) ⟨⟨(), [r]⟩, fun _ => 3⟩) g ⟨⟨4, ![5, 8], f⟩, ⟨(), [r]⟩⟩ ∧
      CommutesWith (Cyclic.irrepMat 4 1) interp (AntialiasedPool.forwardMax ninf ⟨⟨(), [r]⟩, PoolArgs.ofInt 2 3 (some 2) 1 1 false, sigma, 3⟩) g ⟨⟨4, ![5, 7], f⟩, ⟨(), [r]⟩⟩ := by
  obtain ⟨r, -, h1, h2, h3, -⟩ := Cyclic.C16_cyclic 4 (by norm_num) [] (by simp)
  have hwf : ∀ q ∈ [r], q.WF (Cyclic.table 4) (· ∈ Cyclic.elements 4) := fun q hq => by
    obtain rfl := List.mem_singleton.1 hq
    exact h1
  have hperm : ∀ q ∈ [r], IsPermMat q.size (q.mat g) := fun q hq => by
    obtain rfl := List.mem_singleton.1 hq
    have := IsLeftMul.perm (Cyclic.finGroup 4 (by norm_num)) hg (h3 g hg)
    rw [h2]
    exact this
  have hsz : 4 = FType.size Rep.size (⟨(), [r]⟩ : FType Unit (Rep ℤ ℕ)) := by
    rw [FType.size_eq]
    simp [h2]
  refine ⟨r, h2, AdaptivePool.C72_max (Cyclic.table_valid_mem 4 (by norm_num)) ninf ⟨⟨(), [r]⟩, fun _ => 3⟩ hwf (fun _ _ => rfl) _ interp hg (Cyclic.signedPerm g) hperm ⟨4, ![5, 8], f⟩ hsz (by intro i; fin_cases i <;> simp),
    AntialiasedPool.C72_max (Cyclic.table_valid_mem 4 (by norm_num)) ninf ⟨⟨(), [r]⟩, PoolArgs.ofInt 2 3 (some 2) 1 1 false, sigma, 3⟩ hwf (fun i j => ⟨rfl, rfl, rfl, rfl⟩) _ interp hg (Cyclic.signedPerm g) hperm
      ⟨4, ![5, 7], f⟩ hsz ?_ (fun _ => by simp [PoolArgs.ofInt]) ?_⟩
  · intro i
    fin_cases i <;> simp [PoolArgs.ofInt, poolSize]
  · intro i
    fin_cases i <;> simp [PoolArgs.ofInt, AntialiasedPool.filterSize, PoolArgs.outShape, poolSize] <;> decide

/-- Norm pooling of a scalar and a vector field of `C_4` on 4 × 4 pixels; no two pixels have the same norm. -/
example (dflt : (Fin 2 → ℕ) → Fin 2 → ℕ) (junk : Unit → ℕ → (Fin 2 → ℕ) → ℝ) (interp : NdArr 2 (Unit × ℕ) → NpMat ℝ → Except Err (NdArr 2 (Unit × ℕ))) (g : ℤ) (hg : Cyclic.isElement 4 g = true) :
    ∃ l, NormMaxPool.init (fun _ => 2) convDemo (PoolArgs.ofInt 2 2 none 0 1 false) = .ok l ∧
      CommutesWith (Cyclic.irrepMat 4 1) interp (l.forward dflt junk) g ⟨⟨3, fun _ => 4, fun _ _ q => ((4 * q 0 + q 1 : ℕ) : ℝ)⟩, convDemo⟩ := by
  have hl : NormMaxPool.init (fun _ => 2) convDemo (PoolArgs.ofInt 2 2 none 0 1 false) = .ok ⟨convDemo, PoolArgs.ofInt 2 2 none 0 1 false, [(1, true, [0, 1]), (2, true, [1, 3])]⟩ := rfl
  have hpos : ∀ r ∈ convDemo.reprs, 0 < r.size := by
    intro r hr
    simp only [convDemo, List.mem_cons, List.not_mem_nil, or_false] at hr
    rcases hr with rfl | rfl <;> simp [irrepRep, Rep.size, eye, Cyclic.table, Cyclic.irrepSize]
  refine ⟨_, hl, NormMaxPool.C72_norm (Cyclic.table_valid 4 (by norm_num)) dflt junk (fun _ => 2) hpos hl convDemo_wf (fun i j => ⟨rfl, rfl, rfl, rfl⟩) _ interp hg (Cyclic.signedPerm g) (fun r hr => convDemo_orth r hr g hg) _
    (by simp [convDemo, FType.size_eq, irrepRep, Rep.size, eye, Cyclic.table, Cyclic.irrepSize]) ?_ ?_ ?_⟩
  · intro i
    simp [PoolArgs.ofInt, poolSize]
  · intro i
    simp [PoolArgs.ofInt]
  · intro k r hk b p hp
    have hp' : ∀ i, p i < 2 := fun i => by
      have := hp i
      simpa [PoolArgs.outShape, PoolArgs.ofInt, poolSize] using this
    obtain ⟨q, -, h2, h3⟩ := maxPoolIdx_spec (a := PoolArgs.ofInt 2 2 none 0 1 false) (shape := fun _ => 4) (v := fun q => (((4 * q 0 + q 1 : ℕ) : ℝ))) (p := p)
      ⟨fun i => p i * 2, fun i => ⟨by have := hp' i; show p i * 2 < 4; omega, 0, Nat.succ_pos 1, by simp [PoolArgs.ofInt]⟩⟩
    refine ⟨q, h2, fun q' hq' hne => ?_⟩
    simp only [Finset.sum_const, Finset.card_range, nsmul_eq_mul]
    have hr := hpos r (List.mem_of_getElem? hk)
    have hlt : 4 * q' 0 + q' 1 < 4 * q 0 + q 1 := by
      refine lt_of_le_of_ne (by exact_mod_cast h3 q' hq') fun e => hne ?_
      have b1 : q' 1 < 4 := (hq' 1).1
      have b2 : q 1 < 4 := (h2 1).1
      funext i
      fin_cases i
      · show q' 0 = q 0
        omega
      · show q' 1 = q 1
        omega
    have : (((4 * q' 0 + q' 1 : ℕ) : ℝ)) ^ 2 < (((4 * q 0 + q 1 : ℕ) : ℝ)) ^ 2 := pow_lt_pow_left₀ (by exact_mod_cast hlt) (by positivity) (by norm_num)
    exact mul_lt_mul_of_pos_left this (by exact_mod_cast hr)

end Escnn
