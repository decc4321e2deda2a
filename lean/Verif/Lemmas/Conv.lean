import Verif.Model.Conv
import Verif.Props.C44_GridAction
import Mathlib.Algebra.BigOperators.Fin
import Mathlib.Logic.Equiv.Fin.Basic

/-!
# Convolution and the action on the grid
-/

namespace Escnn

open NpMat NdArr

variable {n : ℕ} {B : Type}

/-! ## The grid of the filter -/

theorem flatIndex_eq {k : ℕ} (u : Fin n → Fin k) : flatIndex k u = (finFunctionFinEquiv fun j => u j.rev : ℕ) := by
  rw [finFunctionFinEquiv_apply, flatIndex]
  exact Fintype.sum_equiv Fin.revPerm _ _ fun l => by simp

theorem flatIndex_lt {k : ℕ} (u : Fin n → Fin k) : flatIndex k u < k ^ n := by rw [flatIndex_eq]; exact Fin.is_lt _

theorem flatIndex_digit {k : ℕ} (u : Fin n → Fin k) (j : Fin n) : flatIndex k u / k ^ (j : ℕ) % k = u j.rev := by
  rw [flatIndex_eq]
  have h := congrFun (finFunctionFinEquiv.symm_apply_apply fun j => u j.rev) j
  rw [← h]
  simp [finFunctionFinEquiv]

theorem exists_flatIndex {k i : ℕ} (hi : i < k ^ n) : ∃ u : Fin n → Fin k, flatIndex k u = i := by
  refine ⟨fun l => finFunctionFinEquiv.symm (⟨i, hi⟩ : Fin (k ^ n)) l.rev, ?_⟩
  rw [flatIndex_eq]
  simp only [Fin.rev_rev]
  rw [show (fun j => finFunctionFinEquiv.symm (⟨i, hi⟩ : Fin (k ^ n)) j) = finFunctionFinEquiv.symm (⟨i, hi⟩ : Fin (k ^ n)) from rfl, Equiv.apply_symm_apply]

/-- The points of the grid are the pixels of the filter in centred coordinates, times the dilation. -/
theorem gridCoords_get {k : ℕ} (dil : ℕ) (u : Fin n → Fin k) :
    (gridCoords n k dil)[flatIndex k u]? = some fun a => dil * coord (fun _ => k) (fun l => (u l : ℕ)) a := by
  rw [gridCoords, List.getElem?_map, List.getElem?_range (flatIndex_lt u)]
  simp only [Option.map_some, Option.some.injEq]
  funext a
  rw [flatIndex_digit]
  simp only [coord]
  by_cases h : a.val = 0
  · rw [if_neg (by omega), if_pos h]; ring
  · rw [if_pos (by omega), if_neg h]; ring

theorem gridCoords_length (k dil : ℕ) : (gridCoords n k dil).length = k ^ n := by simp [gridCoords]

/-- The pixel of the filter which moves to `u`. -/
noncomputable def sourceFin {k : ℕ} (τ : Equiv.Perm (Fin n)) (δ : Fin n → ℝ) (u : Fin n → Fin k) (j : Fin n) : Fin k :=
  ⟨source (fun _ => k) τ δ (fun l => (u l : ℕ)) j, source_box (shape := fun _ => k) (fun i => (u i).2) j⟩

theorem sourceFin_bij {k : ℕ} (τ : Equiv.Perm (Fin n)) (δ : Fin n → ℝ) : Function.Bijective (sourceFin (k := k) τ δ) := by
  refine Finite.injective_iff_bijective.1 fun u v h => ?_
  funext i
  have h' := congrArg Fin.val (congrFun h (τ i))
  simp only [sourceFin, source, Equiv.symm_apply_apply] at h'
  have h1 := (u i).2
  have h2 := (v i).2
  apply Fin.ext
  split_ifs at h' <;> omega

theorem grid_source {k : ℕ} {M : NpMat ℝ} {σ : Equiv.Perm (Fin n)} {ε : Fin n → ℝ} (h : Signed n M σ ε) (u : Fin n → Fin k) (a : Fin n) :
    coord (fun _ => k) (fun l => (u l : ℕ)) a = ∑ b : Fin n, M.get a b * coord (fun _ => k) (fun l => (sourceFin (arrPerm σ) (arrSign σ ε) u l : ℕ)) b := by
  rw [Finset.sum_eq_single (σ a)]
  · rw [h.get, if_pos rfl]
    have := coord_source (shape := fun _ => k) (σ := σ) h.sign (k := fun l => (u l : ℕ)) (fun i => (u i).2) a
    show _ = ε a * coord (fun _ => k) (source (fun _ => k) (arrPerm σ) (arrSign σ ε) fun l => (u l : ℕ)) (σ a)
    rw [this, ← mul_assoc]
    rcases h.sign a with h' | h' <;> rw [h'] <;> ring
  · intro b _ hb
    rw [h.get, if_neg hb, zero_mul]
  · intro hn; exact absurd (Finset.mem_univ _) hn

/-! ## Transformed feature maps -/

/-- `y` is `x` with the fibres transformed by `A` and the pixels moved. -/
structure Moved (τ : Equiv.Perm (Fin n)) (δ : Fin n → ℝ) (A : NpMat ℝ) (x y : FMap n B) : Prop where
  rows : A.rows = x.chans
  cols : A.cols = x.chans
  chans : y.chans = x.chans
  shape : ∀ i, y.shape i = x.shape (τ i)
  get : ∀ b, ∀ c < x.chans, ∀ k ∈ Box y.shape, y.get b c k = ∑ c' ∈ Finset.range x.chans, A.get c c' * x.get b c' (source x.shape τ δ k)

theorem Moved.unique {τ : Equiv.Perm (Fin n)} {δ : Fin n → ℝ} {A : NpMat ℝ} {x y z : FMap n B} (h : Moved τ δ A x y) (h' : Moved τ δ A x z) : y ≈ z := by
  have hs : y.shape = z.shape := funext fun i => (h.shape i).trans (h'.shape i).symm
  refine ⟨h.chans.trans h'.chans.symm, hs, fun b c hc k hk => ?_⟩
  rw [h.chans] at hc
  rw [h.get b c hc k hk, h'.get b c hc k (hs ▸ hk)]

theorem padIndex_lt {m : PadMode} {W p : ℕ} (hok : padOk m W p) {q : ℤ} (h1 : -(p : ℤ) ≤ q) (h2 : q < W + p) {i : ℕ} (hi : padIndex m W q = some i) : i < W := by
  cases m <;> simp only [padIndex, padOk] at hi hok
  · split_ifs at hi with h
    have := Option.some.inj hi; omega
  · have := Option.some.inj hi
    split_ifs at this <;> omega
  · have := Option.some.inj hi
    split_ifs at this <;> omega
  · have h3 := Option.some.inj hi
    have := Int.emod_nonneg q (show (W : ℤ) ≠ 0 by omega)
    have := Int.emod_lt_of_pos q (show (0 : ℤ) < W by omega)
    omega
  · split_ifs at hi with h
    have := Option.some.inj hi; omega

/-- Every padding mode treats the two ends of an axis alike. -/
theorem padIndex_rev {m : PadMode} {W p : ℕ} (hok : padOk m W p) {q : ℤ} (h1 : -(p : ℤ) ≤ q) (h2 : q < W + p) :
    padIndex m W ((W : ℤ) - 1 - q) = (padIndex m W q).map fun i => W - 1 - i := by
  cases m <;> simp only [padIndex, padOk] at hok ⊢
  · by_cases h : 0 ≤ q ∧ q < W
    · rw [if_pos h, if_pos (by omega), Option.map_some]
      congr 1; omega
    · rw [if_neg h, if_neg (by omega), Option.map_none]
  · rw [Option.map_some]
    congr 1
    split_ifs <;> omega
  · rw [Option.map_some]
    congr 1
    split_ifs <;> omega
  · rw [Option.map_some]
    congr 1
    have hW : (0 : ℤ) < W := by omega
    have e1 := Int.emod_nonneg q hW.ne'
    have e2 := Int.emod_lt_of_pos q hW
    have e3 : ((W : ℤ) - 1 - q) % W = (W : ℤ) - 1 - q % W := by
      rw [← Int.emod_eq_of_lt (show 0 ≤ (W : ℤ) - 1 - q % W by omega) (show (W : ℤ) - 1 - q % W < W by omega)]
      exact Int.ModEq.sub_left _ (Int.mod_modEq q W).symm
    rw [e3]; omega
  · by_cases h : 0 ≤ q ∧ q < W
    · rw [if_pos h, if_pos (by omega), Option.map_some]
      congr 1; omega
    · rw [if_neg h, if_neg (by omega), Option.map_none]

/-- Padding commutes with the transformation. -/
theorem Moved.pad {τ : Equiv.Perm (Fin n)} {δ : Fin n → ℝ} {A : NpMat ℝ} {x y x' : FMap n B} (h : Moved τ δ A x y) (m : PadMode) {p : Fin n → ℕ} (hp : ∀ i j, p i = p j) (hx : padMap m p x = .ok x') :
    ∃ y', padMap m p y = .ok y' ∧ Moved τ δ A x' y' := by
  unfold padMap at hx
  split_ifs at hx with hok
  obtain rfl := Except.ok.inj hx
  have hok' : ∀ i, padOk m (y.shape i) (p i) := fun i => by rw [h.shape, hp i (τ i)]; exact hok _
  refine ⟨_, (if_pos hok' : padMap m p y = _), h.rows, h.cols, h.chans, fun i => by simp only [h.shape, hp i (τ i)], fun b c hc k hk => ?_⟩
  have hsrc : ∀ j, padIndex m (x.shape j) ((source (fun i => x.shape i + 2 * p i) τ δ k j : ℤ) - p j) =
      (padIndex m (y.shape (τ.symm j)) ((k (τ.symm j) : ℤ) - p (τ.symm j))).map fun i => if δ (τ.symm j) = -1 then x.shape j - 1 - i else i := by
    intro j
    have hs : y.shape (τ.symm j) = x.shape j := by rw [h.shape, Equiv.apply_symm_apply]
    have hk' : k (τ.symm j) < x.shape j + 2 * p j := by
      have := hk (τ.symm j)
      simpa only [hs, hp (τ.symm j) j] using this
    rw [hs, hp (τ.symm j) j]
    unfold source
    by_cases hd : δ (τ.symm j) = -1
    · simp only [if_pos hd]
      rw [← padIndex_rev (hok j) (by omega) (by omega)]
      congr 1
      omega
    · simp only [if_neg hd]
      rw [Option.map_id']
  have hall : (∀ i, (padIndex m (y.shape i) ((k i : ℤ) - p i)).isSome) ↔ ∀ j, (padIndex m (x.shape j) ((source (fun i => x.shape i + 2 * p i) τ δ k j : ℤ) - p j)).isSome := by
    constructor
    · intro hi j
      rw [hsrc, Option.isSome_map]
      exact hi _
    · intro hj i
      have := hj (τ i)
      rwa [hsrc, Option.isSome_map, Equiv.symm_apply_apply] at this
  simp only
  by_cases ha : ∀ i, (padIndex m (y.shape i) ((k i : ℤ) - p i)).isSome
  · rw [if_pos ha]
    simp only [if_pos (hall.1 ha)]
    rw [h.get b c hc]
    · refine Finset.sum_congr rfl fun c' _ => ?_
      congr 2
      funext j
      have hh := hsrc j
      obtain ⟨v, hv⟩ := Option.isSome_iff_exists.1 (ha (τ.symm j))
      rw [hv, Option.map_some] at hh
      rw [hh]
      simp only [source, hv, Option.getD_some]
    · intro i
      obtain ⟨v, hv⟩ := Option.isSome_iff_exists.1 (ha i)
      simp only [hv, Option.getD_some]
      have hki : k i < y.shape i + 2 * p i := hk i
      exact padIndex_lt (hok' i) (by omega) (by omega) hv
  · rw [if_neg ha]
    simp only [if_neg (fun hh => ha (hall.2 hh)), mul_zero, Finset.sum_const_zero]

/-- The convolution commutes with the transformation, if the filter intertwines and the strides fit. -/
theorem Moved.conv {τ : Equiv.Perm (Fin n)} {δ : Fin n → ℝ} {Ai A' Ao : NpMat ℝ} {F : Kern} {k stride dil groups : ℕ} {bias : Option (ℕ → ℝ)} {x y x' : FMap n B} (h : Moved τ δ Ai x y)
    (hx : convValid F k stride dil groups bias x = .ok x') (hro : Ao.rows = F.rows) (hco : Ao.cols = F.rows)
    (hdiv : ∀ i, stride ∣ x.shape i - dil * (k - 1) - 1)
    (hA : ∀ t < groups, ∀ c < F.cols, ∀ f : ℕ → ℝ, ∑ c' ∈ Finset.range (groups * F.cols), Ai.get (t * F.cols + c) c' * f c' = ∑ c' ∈ Finset.range F.cols, A'.get c c' * f (t * F.cols + c'))
    (hO : ∀ o < F.rows, ∀ f : ℕ → ℕ → ℝ, ∑ o' ∈ Finset.range F.rows, Ao.get o o' * f o' (o' / (F.rows / groups)) = ∑ o' ∈ Finset.range F.rows, Ao.get o o' * f o' (o / (F.rows / groups)))
    (hF : ∀ (u : Fin n → Fin k), ∀ o < F.rows, ∀ c' < F.cols, ∑ c ∈ Finset.range F.cols, F.get o c (flatIndex k u) * A'.get c c' = ∑ o' ∈ Finset.range F.rows, Ao.get o o' * F.get o' c' (flatIndex k (sourceFin τ δ u)))
    (hb : ∀ o < F.rows, ∑ o' ∈ Finset.range F.rows, Ao.get o o' * Linear.biasAt bias o' = Linear.biasAt bias o) :
    ∃ y', convValid F k stride dil groups bias y = .ok y' ∧ Moved τ δ Ao x' y' := by
  unfold convValid at hx
  split_ifs at hx with hok
  obtain rfl := Except.ok.inj hx
  obtain ⟨hk, hs, hd, hg, hmod, hch, hsh⟩ := hok
  have hok' : 0 < k ∧ 0 < stride ∧ 0 < dil ∧ 0 < groups ∧ F.rows % groups = 0 ∧ y.chans = groups * F.cols ∧ ∀ i, dil * (k - 1) + 1 ≤ y.shape i :=
    ⟨hk, hs, hd, hg, hmod, h.chans.trans hch, fun i => by rw [h.shape]; exact hsh _⟩
  refine ⟨_, (if_pos hok' : convValid F k stride dil groups bias y = _), hro, hco, rfl, fun i => by simp only [h.shape], fun b o ho p hp => ?_⟩
  simp only
  have ho : o < F.rows := ho
  -- the position read by the convolution moves with the pixel and the entry of the filter
  have hidx : ∀ (u : Fin n → Fin k), (fun i => p i * stride + u i * dil) ∈ Box y.shape ∧ source x.shape τ δ (fun i => p i * stride + u i * dil) =
      fun j => source (fun i => (x.shape i - dil * (k - 1) - 1) / stride + 1) τ δ p j * stride + sourceFin τ δ u j * dil := by
    intro u
    have hkey : ∀ i, ∃ a', x.shape (τ i) = (p i + a') * stride + ((k - 1) * dil) + 1 ∧ (x.shape (τ i) - dil * (k - 1) - 1) / stride = p i + a' := by
      intro i
      have hpi : p i < (y.shape i - dil * (k - 1) - 1) / stride + 1 := hp i
      rw [h.shape] at hpi
      obtain ⟨a, ha⟩ := hdiv (τ i)
      rw [ha, Nat.mul_div_cancel_left _ hs] at hpi
      refine ⟨a - p i, ?_, by rw [ha, Nat.mul_div_cancel_left _ hs]; omega⟩
      have := hsh (τ i)
      have e : (p i + (a - p i)) = a := by omega
      rw [e, Nat.mul_comm a, ← ha, Nat.mul_comm (k - 1)]
      omega
    constructor
    · intro i
      obtain ⟨a', ha, -⟩ := hkey i
      simp only
      rw [h.shape, ha, Nat.add_mul]
      have hu : (u i : ℕ) ≤ k - 1 := by have := (u i).2; omega
      have := Nat.mul_le_mul_right dil hu
      omega
    · funext j
      obtain ⟨a', ha, hdv⟩ := hkey (τ.symm j)
      rw [Equiv.apply_symm_apply] at ha hdv
      simp only [source, sourceFin]
      have hu := (u (τ.symm j)).2
      obtain ⟨v', hv'⟩ : ∃ v', k - 1 = u (τ.symm j) + v' := ⟨k - 1 - u (τ.symm j), by omega⟩
      by_cases hδ : δ (τ.symm j) = -1
      · simp only [if_pos hδ]
        rw [hdv, ha, hv']
        have e : (p (τ.symm j) + a') * stride + (u (τ.symm j) + v') * dil + 1 - 1 - (p (τ.symm j) * stride + u (τ.symm j) * dil) = a' * stride + v' * dil := by
          rw [Nat.add_mul, Nat.add_mul]; omega
        rw [e]
        congr 2 <;> omega
      · simp only [if_neg hδ]
  -- the group of the channel
  have hmo : F.rows / groups * groups = F.rows := Nat.div_mul_cancel (Nat.dvd_of_mod_eq_zero hmod)
  have ht : o / (F.rows / groups) < groups := by
    rw [Nat.div_lt_iff_lt_mul (Nat.pos_of_ne_zero fun e => by rw [e] at hmo; omega)]
    rw [Nat.mul_comm, hmo]; exact ho
  set t := o / (F.rows / groups) with htdef
  have hcl : ∀ c < F.cols, t * F.cols + c < x.chans := fun c hc => by
    rw [hch]
    calc t * F.cols + c < t * F.cols + F.cols := by omega
      _ = (t + 1) * F.cols := by ring
      _ ≤ groups * F.cols := Nat.mul_le_mul_right _ ht
  have e1 : ∀ (u : Fin n → Fin k), ∀ c ∈ Finset.range F.cols, y.get b (t * F.cols + c) (fun i => p i * stride + u i * dil) =
      ∑ c' ∈ Finset.range F.cols, A'.get c c' * x.get b (t * F.cols + c') (source x.shape τ δ fun i => p i * stride + u i * dil) := by
    intro u c hc
    have hc := Finset.mem_range.1 hc
    rw [h.get b _ (hcl c hc) _ (hidx u).1, hch, hA t ht c hc]
  have e2 : ∑ c ∈ Finset.range F.cols, ∑ u : Fin n → Fin k, F.get o c (flatIndex k u) * y.get b (t * F.cols + c) (fun i => p i * stride + u i * dil) =
      ∑ u : Fin n → Fin k, ∑ c' ∈ Finset.range F.cols, ∑ o' ∈ Finset.range F.rows, Ao.get o o' * (F.get o' c' (flatIndex k (sourceFin τ δ u)) *
        x.get b (t * F.cols + c') (source x.shape τ δ fun i => p i * stride + u i * dil)) := by
    rw [Finset.sum_comm]
    refine Finset.sum_congr rfl fun u _ => ?_
    have e3 : ∑ c ∈ Finset.range F.cols, F.get o c (flatIndex k u) * y.get b (t * F.cols + c) (fun i => p i * stride + u i * dil) =
        ∑ c ∈ Finset.range F.cols, ∑ c' ∈ Finset.range F.cols, F.get o c (flatIndex k u) * A'.get c c' * x.get b (t * F.cols + c') (source x.shape τ δ fun i => p i * stride + u i * dil) :=
      Finset.sum_congr rfl fun c hc => by
        rw [e1 u c hc, Finset.mul_sum]
        exact Finset.sum_congr rfl fun c' _ => by ring
    rw [e3, Finset.sum_comm]
    refine Finset.sum_congr rfl fun c' hc' => ?_
    rw [← Finset.sum_mul, hF u o ho c' (Finset.mem_range.1 hc'), Finset.sum_mul]
    exact Finset.sum_congr rfl fun o' _ => by ring
  rw [e2]
  -- the sum over the filter is reordered
  have e4 : ∀ o', ∑ u : Fin n → Fin k, ∑ c' ∈ Finset.range F.cols, F.get o' c' (flatIndex k (sourceFin τ δ u)) * x.get b (t * F.cols + c') (source x.shape τ δ fun i => p i * stride + u i * dil) =
      ∑ c' ∈ Finset.range F.cols, ∑ u : Fin n → Fin k, F.get o' c' (flatIndex k u) * x.get b (t * F.cols + c')
        (fun j => source (fun i => (x.shape i - dil * (k - 1) - 1) / stride + 1) τ δ p j * stride + u j * dil) := by
    intro o'
    rw [Finset.sum_comm]
    refine Finset.sum_congr rfl fun c' _ => ?_
    rw [← (sourceFin_bij (k := k) τ δ).sum_comp (fun u => F.get o' c' (flatIndex k u) * x.get b (t * F.cols + c')
        (fun j => source (fun i => (x.shape i - dil * (k - 1) - 1) / stride + 1) τ δ p j * stride + u j * dil))]
    exact Finset.sum_congr rfl fun u _ => by rw [(hidx u).2]
  have e5 : ∑ u : Fin n → Fin k, ∑ c' ∈ Finset.range F.cols, ∑ o' ∈ Finset.range F.rows, Ao.get o o' * (F.get o' c' (flatIndex k (sourceFin τ δ u)) *
        x.get b (t * F.cols + c') (source x.shape τ δ fun i => p i * stride + u i * dil)) =
      ∑ o' ∈ Finset.range F.rows, Ao.get o o' * ∑ c' ∈ Finset.range F.cols, ∑ u : Fin n → Fin k, F.get o' c' (flatIndex k u) * x.get b (t * F.cols + c')
        (fun j => source (fun i => (x.shape i - dil * (k - 1) - 1) / stride + 1) τ δ p j * stride + u j * dil) := by
    have e6 : ∀ (u : Fin n → Fin k), ∑ c' ∈ Finset.range F.cols, ∑ o' ∈ Finset.range F.rows, Ao.get o o' * (F.get o' c' (flatIndex k (sourceFin τ δ u)) *
          x.get b (t * F.cols + c') (source x.shape τ δ fun i => p i * stride + u i * dil)) =
        ∑ o' ∈ Finset.range F.rows, Ao.get o o' * ∑ c' ∈ Finset.range F.cols, F.get o' c' (flatIndex k (sourceFin τ δ u)) * x.get b (t * F.cols + c') (source x.shape τ δ fun i => p i * stride + u i * dil) := by
      intro u
      rw [Finset.sum_comm]
      exact Finset.sum_congr rfl fun o' _ => (Finset.mul_sum _ _ _).symm
    simp only [e6]
    rw [Finset.sum_comm]
    refine Finset.sum_congr rfl fun o' _ => ?_
    rw [← Finset.mul_sum, e4]
  rw [e5]
  have e7 := hO o ho fun o' t' => ∑ c' ∈ Finset.range F.cols, ∑ u : Fin n → Fin k, F.get o' c' (flatIndex k u) * x.get b (t' * F.cols + c')
    (fun j => source (fun i => (x.shape i - dil * (k - 1) - 1) / stride + 1) τ δ p j * stride + u j * dil)
  rw [← htdef] at e7
  rw [← e7, ← hb o ho, ← Finset.sum_add_distrib]
  exact Finset.sum_congr rfl fun o' _ => by ring

/-- Padding by zero pixels changes nothing. -/
theorem padMap_zero {x : FMap n B} : ∃ y, padMap .zeros (fun _ => 0) x = .ok y ∧ y ≈ x := by
  refine ⟨_, (if_pos fun _ => trivial : padMap .zeros (fun _ => 0) x = _), rfl, by simp, fun b c _ k hk => ?_⟩
  have hk' : ∀ i, k i < x.shape i := by simpa [Box] using hk
  have e : ∀ i, padIndex .zeros (x.shape i) (k i : ℤ) = some (k i) := fun i => by
    have := hk' i
    simp only [padIndex]
    rw [if_pos (by omega)]
    congr 1
  simp [e]

end Escnn
