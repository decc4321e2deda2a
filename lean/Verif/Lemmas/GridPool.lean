import Verif.Lemmas.Separable
import Verif.Props.C59_Pool

/-!
# Poolings and the action on the grid
-/

namespace Escnn

open NpMat NdArr

variable {n : ℕ} {B : Type}

/-! ### Operations on each channel -/

/-- The operation `F` on the maps of one channel (with output sizes `sh`) of the shape `s` is moved with the pixels. -/
def Moves (F : (Fin n → ℕ) → ((Fin n → ℕ) → ℝ) → (Fin n → ℕ) → ℝ) (sh : (Fin n → ℕ) → Fin n → ℕ) (τ : Equiv.Perm (Fin n)) (δ : Fin n → ℝ) (s s' : Fin n → ℕ) : Prop :=
  (∀ i, sh s' i = sh s (τ i)) ∧ ∀ v v', (∀ k ∈ Box s', v' k = v (source s τ δ k)) → ∀ o ∈ Box (sh s'), F s' v' o = F s v (source (sh s) τ δ o)

theorem Moved.linear {τ : Equiv.Perm (Fin n)} {δ : Fin n → ℝ} {A : NpMat ℝ} {x y x' y' : FMap n B} (h : Moved τ δ A x y) {pool : FMap n B → Except Err (FMap n B)} {F sh} (hp : Channelwise pool F sh)
    (hl : LinearPool F) (hm : Moves F sh τ δ x.shape y.shape) (hx : pool x = .ok x') (hy : pool y = .ok y') : Moved τ δ A x' y' := by
  obtain ⟨a1, a2, a3⟩ := hp.spec _ _ hx
  obtain ⟨b1, b2, b3⟩ := hp.spec _ _ hy
  refine ⟨h.rows.trans a1.symm, h.cols.trans a1.symm, b1.trans (h.chans.trans a1.symm), fun i => by rw [b2, a2, hm.1], fun b c hc o ho => ?_⟩
  rw [a1] at hc
  rw [b2] at ho
  rw [b3, hm.2 (fun q => ∑ c' ∈ Finset.range x.chans, A.get c c' * x.get b c' q) _ (fun k hk => h.get b c hc k hk) o ho, hl, a1, a2]
  exact Finset.sum_congr rfl fun c' _ => by rw [a3]

theorem Moved.perm {τ : Equiv.Perm (Fin n)} {δ : Fin n → ℝ} {A : NpMat ℝ} {x y x' y' : FMap n B} (h : Moved τ δ A x y) {pool : FMap n B → Except Err (FMap n B)} {F sh} (hp : Channelwise pool F sh)
    (hA : ∀ c < x.chans, ∃ c', ∀ f : ℕ → ℝ, ∑ j ∈ Finset.range x.chans, A.get c j * f j = f c') (hm : Moves F sh τ δ x.shape y.shape) (hx : pool x = .ok x') (hy : pool y = .ok y') : Moved τ δ A x' y' := by
  obtain ⟨a1, a2, a3⟩ := hp.spec _ _ hx
  obtain ⟨b1, b2, b3⟩ := hp.spec _ _ hy
  refine ⟨h.rows.trans a1.symm, h.cols.trans a1.symm, b1.trans (h.chans.trans a1.symm), fun i => by rw [b2, a2, hm.1], fun b c hc o ho => ?_⟩
  rw [a1] at hc
  rw [b2] at ho
  obtain ⟨c', hc'⟩ := hA c hc
  rw [b3, hm.2 (x.get b c') _ (fun k hk => by rw [h.get b c hc k hk, hc' fun j => x.get b j _]) o ho, a1, a2, hc' fun j => x'.get b j _, a3]

/-! ### Lists of positions -/

theorem boxList_nodup : ∀ {n : ℕ} {s : Fin n → ℕ}, (boxList n s).Nodup := by
  intro n
  induction n with
  | zero => intro s; simp [boxList]
  | succ n ih =>
    intro s
    unfold boxList
    rw [List.nodup_flatMap]
    refine ⟨fun a _ => ih.map fun r r' h => (Fin.cons_inj.1 h).2, ?_⟩
    refine List.Pairwise.imp_of_mem (fun {a b} _ _ hab => ?_) (List.nodup_range (n := s 0))
    intro u hu hu'
    obtain ⟨r, -, rfl⟩ := List.mem_map.1 hu
    obtain ⟨r', -, h'⟩ := List.mem_map.1 hu'
    exact hab (Fin.cons_inj.1 h').1.symm

/-- The positions of a box, moved. -/
theorem boxList_source {s s' : Fin n → ℕ} {τ : Equiv.Perm (Fin n)} (δ : Fin n → ℝ) (hs : ∀ i, s' i = s (τ i)) : List.Perm ((boxList n s').map (source s τ δ)) (boxList n s) := by
  refine (List.perm_ext_iff_of_nodup (List.Nodup.map_on (fun k hk k' hk' he => ?_) boxList_nodup) boxList_nodup).2 fun q => ?_
  · rw [mem_boxList] at hk hk'
    funext i
    have h1 := congrFun he (τ i)
    have b1 := hk i
    have b2 := hk' i
    rw [hs] at b1 b2
    simp only [source, Equiv.symm_apply_apply] at h1
    split_ifs at h1 <;> omega
  · rw [List.mem_map, mem_boxList]
    constructor
    · rintro ⟨k, hk, rfl⟩
      rw [mem_boxList] at hk
      exact source_box fun i => hs i ▸ hk i
    · intro hq
      refine ⟨fun i => if δ i = -1 then s (τ i) - 1 - q (τ i) else q (τ i), mem_boxList.2 fun i => ?_, funext fun j => ?_⟩
      · have := hq (τ i)
        rw [hs]
        split_ifs <;> omega
      · have := hq j
        simp only [source, Equiv.apply_symm_apply]
        split_ifs <;> omega

/-- The greatest value depends only on the values. -/
theorem argmax_value {α β : Type} {L : List α} {L' : List β} {g : α → ℝ} {g' : β → ℝ} (h : List.Perm (L.map g) (L'.map g')) : (L.argmax g).map g = (L'.argmax g').map g' := by
  cases hm : L.argmax g with
  | none =>
    rw [List.argmax_eq_none] at hm
    subst hm
    have : L' = [] := by simpa using h.length_eq.symm
    subst this
    rfl
  | some q =>
    cases hm' : L'.argmax g' with
    | none =>
      rw [List.argmax_eq_none] at hm'
      subst hm'
      have : L = [] := by simpa using h.length_eq
      subst this
      simp at hm
    | some q' =>
      have hq := List.argmax_mem (Option.mem_def.2 hm)
      have hq' := List.argmax_mem (Option.mem_def.2 hm')
      obtain ⟨p', hp', e'⟩ := List.mem_map.1 ((h.mem_iff).1 (List.mem_map_of_mem (f := g) hq))
      obtain ⟨p, hp, e⟩ := List.mem_map.1 ((h.mem_iff).2 (List.mem_map_of_mem (f := g') hq'))
      have h1 := List.le_of_mem_argmax hp (Option.mem_def.2 hm)
      have h2 := List.le_of_mem_argmax hp' (Option.mem_def.2 hm')
      simp only [Option.map_some, Option.some.injEq]
      linarith

/-! ### Windows -/

/-- The same arguments for each axis. -/
def PoolArgs.Uniform (a : PoolArgs n) : Prop := ∀ i j, a.kernel i = a.kernel j ∧ a.stride i = a.stride j ∧ a.padding i = a.padding j ∧ a.dilation i = a.dilation j

/-- The windows reach both ends of each axis: the stride divides the range of the window. -/
def PoolArgs.Fits (a : PoolArgs n) (shape : Fin n → ℕ) : Prop := ∀ i, (a.stride i : ℤ) ∣ shape i + 2 * a.padding i - a.dilation i * (a.kernel i - 1) - 1

theorem poolSize_fit {w k s p d : ℕ} {ceil : Bool} (hk : 0 < k) (hs : 0 < s) (h2 : 2 * p ≤ (k - 1) * d + 1) (hp : 0 < poolSize w k s p d ceil) (hf : (s : ℤ) ∣ w + 2 * p - d * ((k : ℤ) - 1) - 1) :
    w + 2 * p = ((poolSize w k s p d ceil).toNat - 1) * s + (k - 1) * d + 1 := by
  obtain ⟨q, hq⟩ := hf
  have hs' : (0 : ℤ) < s := by exact_mod_cast hs
  have hk' : ((k - 1 : ℕ) : ℤ) = (k : ℤ) - 1 := by rw [Nat.cast_sub hk, Nat.cast_one]
  have h2' : 2 * (p : ℤ) ≤ ((k : ℤ) - 1) * d + 1 := by rw [← hk']; exact_mod_cast h2
  have e : poolSize w k s p d ceil = q + 1 := by
    unfold poolSize at hp ⊢
    simp only at hp ⊢
    rw [hq] at hp ⊢
    have hdiv : (s * q + if ceil then (s : ℤ) - 1 else 0) / s = q := by
      rw [Int.add_ediv_of_dvd_left (dvd_mul_right _ _), Int.mul_ediv_cancel_left _ hs'.ne']
      have : (if ceil then (s : ℤ) - 1 else 0) / s = 0 := by
        split_ifs
        · exact Int.ediv_eq_zero_of_lt (by omega) (by omega)
        · simp
      rw [this, add_zero]
    rw [hdiv] at hp ⊢
    rw [if_neg]
    rintro ⟨-, hc⟩
    rw [add_sub_cancel_right, mul_comm, ← hq] at hc
    rw [mul_comm (d : ℤ)] at hc
    have h3 : (1 : ℤ) ≤ p := by
      by_contra h0
      have : (p : ℤ) = 0 := by omega
      have h4 : 0 ≤ ((k : ℤ) - 1) * d := by rw [← hk']; positivity
      omega
    omega
  rw [e] at hp ⊢
  have hq0 : 0 ≤ q := by omega
  obtain ⟨m, rfl⟩ := Int.eq_ofNat_of_zero_le hq0
  rw [show ((m : ℤ) + 1).toNat - 1 = m by omega]
  zify
  rw [hk']
  linarith [mul_comm (d : ℤ) ((k : ℤ) - 1), mul_comm (s : ℤ) m]

variable {a : PoolArgs n} {τ : Equiv.Perm (Fin n)} {δ : Fin n → ℝ}

theorem outShape_moved (hu : a.Uniform) {s s' : Fin n → ℕ} (hs : ∀ i, s' i = s (τ i)) (i : Fin n) : a.outShape s' i = a.outShape s (τ i) := by
  obtain ⟨h1, h2, h3, h4⟩ := hu i (τ i)
  simp only [PoolArgs.outShape, hs, h1, h2, h3, h4]

theorem ok_moved (hu : a.Uniform) {s s' : Fin n → ℕ} (hs : ∀ i, s' i = s (τ i)) (h : a.Ok s) : a.Ok s' := by
  intro i
  obtain ⟨h1, h2, h3, h4⟩ := hu i (τ i)
  rw [h1, h2, h3, h4, hs]
  exact h (τ i)

/-- The windows are moved with the output position. -/
theorem poolWindow_moved (hu : a.Uniform) {s s' : Fin n → ℕ} (hs : ∀ i, s' i = s (τ i)) (hok : a.Ok s) (hfit : a.Fits s) {o : Fin n → ℕ} (ho : o ∈ Box (a.outShape s')) :
    List.Perm ((poolWindow a s' o).map (source s τ δ)) (poolWindow a s (source (a.outShape s) τ δ o)) := by
  unfold poolWindow
  refine List.Perm.trans ?_ (List.Perm.filterMap _ (boxList_source δ fun i => (hu i (τ i)).1))
  rw [List.filterMap_map, List.map_filterMap]
  refine List.Perm.of_eq (List.filterMap_congr fun u hk => ?_)
  rw [mem_boxList] at hk
  have key : ∀ j, ((source (a.outShape s) τ δ o j * a.stride j + source a.kernel τ δ u j * a.dilation j : ℕ) : ℤ) - a.padding j =
      if δ (τ.symm j) = -1 then (s j : ℤ) - 1 - (((o (τ.symm j) * a.stride (τ.symm j) + u (τ.symm j) * a.dilation (τ.symm j) : ℕ) : ℤ) - a.padding (τ.symm j))
      else ((o (τ.symm j) * a.stride (τ.symm j) + u (τ.symm j) * a.dilation (τ.symm j) : ℕ) : ℤ) - a.padding (τ.symm j) := by
    intro j
    obtain ⟨h1, h2, h3, h4⟩ := hu (τ.symm j) j
    obtain ⟨k1, k2, k3, k4, k5⟩ := hok j
    have hoj := ho (τ.symm j)
    have huj := hk (τ.symm j)
    rw [outShape_moved hu hs, Equiv.apply_symm_apply] at hoj
    rw [h1] at huj
    rw [h2, h3, h4]
    have hp := poolSize_fit k1 k2 k4 k5 (hfit j)
    have hoj' : o (τ.symm j) < (poolSize (s j) (a.kernel j) (a.stride j) (a.padding j) (a.dilation j) a.ceilMode).toNat := hoj
    simp only [source]
    split_ifs
    · obtain ⟨m, hm⟩ : ∃ m, (poolSize (s j) (a.kernel j) (a.stride j) (a.padding j) (a.dilation j) a.ceilMode).toNat - 1 = o (τ.symm j) + m := ⟨_, (Nat.add_sub_of_le (by omega)).symm⟩
      obtain ⟨l, hl⟩ : ∃ l, a.kernel j - 1 = u (τ.symm j) + l := ⟨_, (Nat.add_sub_of_le (by omega)).symm⟩
      rw [hm, hl] at hp
      have e1 : a.outShape s j - 1 - o (τ.symm j) = m := by
        show (poolSize (s j) (a.kernel j) (a.stride j) (a.padding j) (a.dilation j) a.ceilMode).toNat - 1 - o (τ.symm j) = m
        omega
      rw [e1, show a.kernel j - 1 - u (τ.symm j) = l by omega]
      zify at hp
      push_cast
      linarith
    · rfl
  push_cast at key
  simp only [Function.comp, key]
  have hc : (∀ i, 0 ≤ (o i * a.stride i + u i * a.dilation i : ℤ) - a.padding i ∧ (o i * a.stride i + u i * a.dilation i : ℤ) - a.padding i < s' i) ↔ ∀ j,
      (0 ≤ if δ (τ.symm j) = -1 then (s j : ℤ) - 1 - ((o (τ.symm j) * a.stride (τ.symm j) + u (τ.symm j) * a.dilation (τ.symm j) : ℤ) - a.padding (τ.symm j))
        else (o (τ.symm j) * a.stride (τ.symm j) + u (τ.symm j) * a.dilation (τ.symm j) : ℤ) - a.padding (τ.symm j)) ∧
      (if δ (τ.symm j) = -1 then (s j : ℤ) - 1 - ((o (τ.symm j) * a.stride (τ.symm j) + u (τ.symm j) * a.dilation (τ.symm j) : ℤ) - a.padding (τ.symm j))
        else (o (τ.symm j) * a.stride (τ.symm j) + u (τ.symm j) * a.dilation (τ.symm j) : ℤ) - a.padding (τ.symm j)) < s j := by
    constructor
    · intro h j
      have := h (τ.symm j)
      rw [hs, Equiv.apply_symm_apply] at this
      split_ifs <;> omega
    · intro h i
      have := h (τ i)
      rw [Equiv.symm_apply_apply] at this
      rw [hs]
      split_ifs at this <;> omega
  by_cases h : ∀ i, 0 ≤ (o i * a.stride i + u i * a.dilation i : ℤ) - a.padding i ∧ (o i * a.stride i + u i * a.dilation i : ℤ) - a.padding i < s' i
  · rw [if_pos h, if_pos (hc.1 h), Option.map_some]
    congr 1
    funext j
    have h' := h (τ.symm j)
    rw [hs, Equiv.apply_symm_apply] at h'
    simp only [source]
    split_ifs <;> omega
  · rw [if_neg h, if_neg (mt hc.2 h), Option.map_none]

theorem poolWindow_box {s o q : Fin n → ℕ} (h : q ∈ poolWindow a s o) : q ∈ Box s := fun i => (mem_poolWindow.1 h i).1

/-- The values in the windows. -/
theorem window_values (hu : a.Uniform) {s s' : Fin n → ℕ} (hs : ∀ i, s' i = s (τ i)) (hok : a.Ok s) (hfit : a.Fits s) {o : Fin n → ℕ} (ho : o ∈ Box (a.outShape s')) {v v' : (Fin n → ℕ) → ℝ}
    (hv : ∀ k ∈ Box s', v' k = v (source s τ δ k)) : List.Perm ((poolWindow a s' o).map v') ((poolWindow a s (source (a.outShape s) τ δ o)).map v) := by
  refine List.Perm.trans (List.Perm.of_eq ?_) ((poolWindow_moved hu hs hok hfit ho).map v)
  rw [List.map_map]
  exact List.map_congr_left fun q hq => hv q (poolWindow_box hq)

theorem maxPool_moves (ninf : ℝ) (hu : a.Uniform) {s s' : Fin n → ℕ} (hs : ∀ i, s' i = s (τ i)) (hok : a.Ok s) (hfit : a.Fits s) :
    Moves (fun s v p => ((maxPoolIdx a s v p).map v).getD ninf) a.outShape τ δ s s' :=
  ⟨outShape_moved hu hs, fun v v' hv o ho => congrArg (Option.getD · ninf) (argmax_value (window_values hu hs hok hfit ho hv))⟩

/-- The divisor of the average. -/
theorem avgDivisor_fit {s : Fin n → ℕ} (hd : ∀ i, a.dilation i = 1) (hok : a.Ok s) (hfit : a.Fits s) {o : Fin n → ℕ} (ho : o ∈ Box (a.outShape s)) : avgDivisor a s o = ∏ i, (a.kernel i : ℤ) := by
  unfold avgDivisor
  refine Finset.prod_congr rfl fun i _ => ?_
  obtain ⟨k1, k2, k3, k4, k5⟩ := hok i
  have hp := poolSize_fit k1 k2 k4 k5 (hfit i)
  have hoi : o i < (poolSize (s i) (a.kernel i) (a.stride i) (a.padding i) (a.dilation i) a.ceilMode).toNat := ho i
  obtain ⟨m, hm⟩ : ∃ m, (poolSize (s i) (a.kernel i) (a.stride i) (a.padding i) (a.dilation i) a.ceilMode).toNat - 1 = o i + m := ⟨_, (Nat.add_sub_of_le (by omega)).symm⟩
  rw [hm, hd i, mul_one, Nat.add_mul] at hp
  have e : ((o i * a.stride i : ℕ) : ℤ) = (o i : ℤ) * a.stride i := by push_cast; ring
  rw [min_eq_left]
  · ring
  · rw [← e]
    have : 0 ≤ m * a.stride i := Nat.zero_le _
    omega

theorem avgPool_moves (hu : a.Uniform) (hd : ∀ i, a.dilation i = 1) {s s' : Fin n → ℕ} (hs : ∀ i, s' i = s (τ i)) (hok : a.Ok s) (hfit : a.Fits s) (hfit' : a.Fits s') :
    Moves (fun s v p => ((poolWindow a s p).map v).sum / avgDivisor a s p) a.outShape τ δ s s' := by
  refine ⟨outShape_moved hu hs, fun v v' hv o ho => ?_⟩
  beta_reduce
  rw [(window_values hu hs hok hfit ho hv).sum_eq, avgDivisor_fit hd (ok_moved hu hs hok) hfit' ho, avgDivisor_fit hd hok hfit (source_box fun i => by rw [← outShape_moved hu hs]; exact ho i)]

/-! ### Adaptive pooling -/

theorem adaptiveBounds_rev {w m o : ℕ} (hm : o < m) : (adaptiveBounds w m (m - 1 - o)).1 = w - (adaptiveBounds w m o).2 ∧ (adaptiveBounds w m (m - 1 - o)).2 = w - (adaptiveBounds w m o).1 ∧
    (adaptiveBounds w m o).2 ≤ w ∧ (adaptiveBounds w m o).1 ≤ (adaptiveBounds w m o).2 := by
  have hm0 : 0 < m := by omega
  simp only [adaptiveBounds]
  have key : ∀ A C : ℕ, A + C = m * w → C / m = w - (A + m - 1) / m ∧ (A + m - 1) / m ≤ w := by
    intro A C h
    have f := Nat.div_add_mod (A + m - 1) m
    have g := Nat.mod_lt (A + m - 1) hm0
    set q := (A + m - 1) / m
    set r := (A + m - 1) % m
    have hq : q ≤ w := by
      by_contra hc
      have := Nat.mul_le_mul_left m (show w + 1 ≤ q by omega)
      rw [Nat.mul_add, Nat.mul_one] at this
      omega
    obtain ⟨d, rfl⟩ := Nat.exists_eq_add_of_le hq
    rw [Nat.mul_add] at h
    refine ⟨?_, hq⟩
    rw [show C = m - 1 - r + m * d by omega, Nat.add_mul_div_left _ _ hm0, Nat.div_eq_of_lt (by omega)]
    omega
  have h1 : (m - o) * w + o * w = m * w := by rw [← Nat.add_mul]; congr 1; omega
  have h2 : (o + 1) * w + (m - 1 - o) * w = m * w := by rw [← Nat.add_mul]; congr 1; omega
  obtain ⟨k1, k2⟩ := key _ _ h2
  obtain ⟨k3, k4⟩ := key _ _ h1
  have e1 : m - 1 - o + 1 = m - o := by omega
  rw [e1]
  refine ⟨k1, by rw [k3, Nat.sub_sub_self k4], k2, ?_⟩
  refine Nat.div_le_div_right ?_
  rw [Nat.add_mul]
  omega

/-- The values in the windows of adaptive pooling. -/
theorem adaptive_values {s s' out : Fin n → ℕ} (hs : ∀ i, s' i = s (τ i)) (hu : ∀ i j, out i = out j) {o : Fin n → ℕ} (ho : o ∈ Box out) {v v' : (Fin n → ℕ) → ℝ}
    (hv : ∀ k ∈ Box s', v' k = v (source s τ δ k)) :
    List.Perm ((boxList n fun i => (adaptiveBounds (s' i) (out i) (o i)).2 - (adaptiveBounds (s' i) (out i) (o i)).1).map fun u => v' fun i => (adaptiveBounds (s' i) (out i) (o i)).1 + u i)
      ((boxList n fun i => (adaptiveBounds (s i) (out i) (source out τ δ o i)).2 - (adaptiveBounds (s i) (out i) (source out τ δ o i)).1).map
        fun u => v fun i => (adaptiveBounds (s i) (out i) (source out τ δ o i)).1 + u i) := by
  have hb : ∀ j, (adaptiveBounds (s j) (out j) (source out τ δ o j)).1 = (if δ (τ.symm j) = -1 then s j - (adaptiveBounds (s j) (out j) (o (τ.symm j))).2 else (adaptiveBounds (s j) (out j) (o (τ.symm j))).1) ∧
      (adaptiveBounds (s j) (out j) (source out τ δ o j)).2 = if δ (τ.symm j) = -1 then s j - (adaptiveBounds (s j) (out j) (o (τ.symm j))).1 else (adaptiveBounds (s j) (out j) (o (τ.symm j))).2 := by
    intro j
    have hoj := ho (τ.symm j)
    rw [hu _ j] at hoj
    obtain ⟨r1, r2, -, -⟩ := adaptiveBounds_rev (w := s j) hoj
    unfold source
    split_ifs
    · exact ⟨r1, r2⟩
    · exact ⟨rfl, rfl⟩
  have hlen : ∀ i, (adaptiveBounds (s' i) (out i) (o i)).2 - (adaptiveBounds (s' i) (out i) (o i)).1 =
      (adaptiveBounds (s (τ i)) (out (τ i)) (source out τ δ o (τ i))).2 - (adaptiveBounds (s (τ i)) (out (τ i)) (source out τ δ o (τ i))).1 := by
    intro i
    obtain ⟨b1, b2⟩ := hb (τ i)
    rw [b1, b2, Equiv.symm_apply_apply, hs, hu i (τ i)]
    have hoi := ho i
    rw [hu i (τ i)] at hoi
    obtain ⟨-, -, r3, r4⟩ := adaptiveBounds_rev (w := s (τ i)) hoi
    split_ifs <;> omega
  refine List.Perm.trans (List.Perm.of_eq ?_) ((boxList_source δ hlen).map _)
  rw [List.map_map]
  refine List.map_congr_left fun u hk => ?_
  rw [mem_boxList] at hk
  have hbd : ∀ i, (adaptiveBounds (s' i) (out i) (o i)).2 ≤ s' i := fun i => (adaptiveBounds_rev (w := s' i) (ho i)).2.2.1
  rw [hv _ fun i => by have := hk i; have := hbd i; show _ + _ < _; omega]
  simp only [Function.comp]
  congr 1
  funext j
  obtain ⟨b1, b2⟩ := hb j
  have hkj := hk (τ.symm j)
  rw [hs, Equiv.apply_symm_apply, hu _ j] at hkj
  have hoj := ho (τ.symm j)
  rw [hu _ j] at hoj
  obtain ⟨-, -, r3, r4⟩ := adaptiveBounds_rev (w := s j) hoj
  simp only [source] at b1 b2 ⊢
  rw [b1, b2, hs, Equiv.apply_symm_apply, hu _ j]
  split_ifs <;> omega

/-- The windows have the same sizes. -/
theorem adaptive_prod {s s' out : Fin n → ℕ} (hs : ∀ i, s' i = s (τ i)) (hu : ∀ i j, out i = out j) {o : Fin n → ℕ} (ho : o ∈ Box out) :
    ∏ i, (((adaptiveBounds (s' i) (out i) (o i)).2 - (adaptiveBounds (s' i) (out i) (o i)).1 : ℕ) : ℝ) =
      ∏ i, (((adaptiveBounds (s i) (out i) (source out τ δ o i)).2 - (adaptiveBounds (s i) (out i) (source out τ δ o i)).1 : ℕ) : ℝ) := by
  rw [← Equiv.prod_comp τ fun i => (((adaptiveBounds (s i) (out i) (source out τ δ o i)).2 - (adaptiveBounds (s i) (out i) (source out τ δ o i)).1 : ℕ) : ℝ)]
  refine Finset.prod_congr rfl fun i _ => ?_
  have hoi := ho i
  rw [hu i (τ i)] at hoi
  obtain ⟨r1, r2, r3, r4⟩ := adaptiveBounds_rev (w := s (τ i)) hoi
  simp only [source, Equiv.symm_apply_apply, hs]
  rw [hu i (τ i)]
  congr 1
  split_ifs
  · rw [r1, r2]
    omega
  · rfl

/-! ### Blurring -/

/-- The convolution of each channel with a filter which is moved into itself. -/
theorem blur_moves {f : (Fin n → ℕ) → ℝ} {size : ℕ} {stride : Fin n → ℕ} (hst : ∀ i j, stride i = stride j) (hpos : ∀ i, 0 < stride i) (hsize : 0 < size)
    (hf : ∀ u : Fin n → ℕ, (∀ i, u i < size) → f (source (fun _ => size) τ δ u) = f u) {s s' : Fin n → ℕ} (hs : ∀ i, s' i = s (τ i)) (hle : ∀ i, size ≤ s i) (hdiv : ∀ i, stride i ∣ s i - size) :
    Moves (fun _ v o => ∑ u : Fin n → Fin size, f (fun i => u i) * v fun i => o i * stride i + u i) (fun s i => (s i - size) / stride i + 1) τ δ s s' := by
  refine ⟨fun i => by simp only [hs, hst i (τ i)], fun v v' hv o ho => ?_⟩
  have ho : ∀ i, o i < (s' i - size) / stride i + 1 := ho
  beta_reduce
  rw [← Function.Bijective.sum_comp (sourceFin_bij (k := size) τ δ) fun u : Fin n → Fin size => f (fun i => u i) * v fun i => source (fun i => (s i - size) / stride i + 1) τ δ o i * stride i + u i]
  refine Finset.sum_congr rfl fun u _ => ?_
  have hkey : ∀ j, ∃ q, s j = (o (τ.symm j) + q) * stride j + size ∧ (s j - size) / stride j = o (τ.symm j) + q := by
    intro j
    have hoj := ho (τ.symm j)
    rw [hs, Equiv.apply_symm_apply, hst _ j] at hoj
    obtain ⟨q, hq⟩ := hdiv j
    rw [hq, Nat.mul_div_cancel_left _ (hpos j)] at hoj ⊢
    refine ⟨q - o (τ.symm j), ?_, by omega⟩
    have := hle j
    rw [show o (τ.symm j) + (q - o (τ.symm j)) = q by omega, Nat.mul_comm, ← hq]
    omega
  rw [hv]
  · have e1 : f (fun i => (sourceFin τ δ u i : ℕ)) = f fun i => (u i : ℕ) := hf (fun i => (u i : ℕ)) fun i => (u i).2
    rw [e1]
    congr 2
    funext j
    obtain ⟨q, hq, hq'⟩ := hkey j
    have huj := (u (τ.symm j)).2
    simp only [source, sourceFin]
    rw [hq', hst (τ.symm j) j]
    split_ifs
    · rw [show o (τ.symm j) + q + 1 - 1 - o (τ.symm j) = q by omega, hq, Nat.add_mul]
      omega
    · rfl
  · intro i
    obtain ⟨q, hq, -⟩ := hkey (τ i)
    rw [Equiv.symm_apply_apply] at hq
    have hui := (u i).2
    show o i * stride i + u i < s' i
    rw [hs, hq, Nat.add_mul, hst i (τ i)]
    omega

/-- The Gaussian filter is moved into itself. -/
theorem gaussFilter_moved {size : ℕ} (sigma : ℝ) {u : Fin n → ℕ} (hu : ∀ i, u i < size) : gaussFilter size sigma (source (fun _ => size) τ δ u) = gaussFilter size sigma u := by
  have : gaussAt size sigma (source (fun _ => size) τ δ u) = gaussAt size sigma u := by
    unfold gaussAt
    congr 3
    rw [← Equiv.sum_comp τ]
    refine Finset.sum_congr rfl fun i _ => ?_
    simp only [source, Equiv.symm_apply_apply]
    have hi := hu i
    split_ifs
    · rw [Nat.cast_sub (by omega), Nat.cast_sub (by omega), Nat.cast_one]
      ring
    · rfl
  unfold gaussFilter
  rw [this]

/-- Blurring commutes with the transformation. -/
theorem Moved.blur {A : NpMat ℝ} {x y x' : FMap n B} (h : Moved τ δ A x y) {f : (Fin n → ℕ) → ℝ} {size : ℕ} {stride pad : Fin n → ℕ} (hx : blurPool f size stride pad x = .ok x') (hst : ∀ i j, stride i = stride j)
    (hpad : ∀ i j, pad i = pad j) (hf : ∀ u : Fin n → ℕ, (∀ i, u i < size) → f (source (fun _ => size) τ δ u) = f u) (hdiv : ∀ i, stride i ∣ x.shape i + 2 * pad i - size) :
    ∃ y', blurPool f size stride pad y = .ok y' ∧ Moved τ δ A x' y' := by
  classical
  unfold blurPool at hx
  obtain ⟨x1, h1, h2⟩ := bind_ok hx
  obtain ⟨y1, h3, h4⟩ := h.pad .zeros hpad h1
  split_ifs at h2 with hok
  have hok' : 0 < size ∧ ∀ i, 0 < stride i ∧ size ≤ y1.shape i := ⟨hok.1, fun i => by rw [h4.shape, hst i (τ i)]; exact hok.2 _⟩
  have hx1 : ∀ i, x1.shape i = x.shape i + 2 * pad i := by
    unfold padMap at h1
    split_ifs at h1
    obtain rfl := Except.ok.inj h1
    exact fun _ => rfl
  obtain ⟨F, hF⟩ : ∃ F : FMap n B → Except Err (FMap n B), F = fun y => if 0 < size ∧ ∀ i, 0 < stride i ∧ size ≤ y.shape i then
      .ok ⟨y.chans, fun i => (y.shape i - size) / stride i + 1, fun b c o => ∑ u : Fin n → Fin size, f (fun i => u i) * y.get b c fun i => o i * stride i + u i⟩ else .error .runtime := ⟨_, rfl⟩
  have hch : Channelwise F (fun _ v o => ∑ u : Fin n → Fin size, f (fun i => u i) * v fun i => o i * stride i + u i) (fun s i => (s i - size) / stride i + 1) := by
    rw [hF]
    constructor
    · intro x y h
      beta_reduce at h
      split_ifs at h
      obtain rfl := Except.ok.inj h
      exact ⟨rfl, rfl, fun _ _ _ => rfl⟩
    · intro x x' y h hs
      beta_reduce at h ⊢
      split_ifs at h with h1
      rw [hs, if_pos h1]
      exact ⟨_, rfl⟩
  have hlin : LinearPool (n := n) (fun _ v o => ∑ u : Fin n → Fin size, f (fun i => u i) * v fun i => o i * stride i + u i) := by
    intro s m a v p
    beta_reduce
    simp only [Finset.mul_sum]
    rw [Finset.sum_comm]
    exact Finset.sum_congr rfl fun j _ => Finset.sum_congr rfl fun u _ => by ring
  have hm := blur_moves (τ := τ) (δ := δ) (f := f) hst (fun i => (hok.2 i).1) hok.1 hf h4.shape (fun i => (hok.2 i).2) fun i => by rw [hx1]; exact hdiv i
  refine ⟨_, ?_, h4.linear hch hlin hm (by rw [hF]; beta_reduce; rw [if_pos hok]; exact h2) (by rw [hF]; beta_reduce; rw [if_pos hok'])⟩
  unfold blurPool
  rw [h3]
  exact if_pos hok'

end Escnn
