import Verif.Spec.Grid
import Verif.Model.Irreps
import Mathlib.Tactic

/-!
# C44: transforming a feature map on the grid is a group action
-/

namespace Escnn

open NpMat

namespace NdArr

variable {n : ℕ} {L : Type}

theorem Eqv.refl (x : NdArr n L) : x ≈ x := ⟨rfl, fun _ _ _ => rfl⟩
theorem Eqv.symm {x y : NdArr n L} (h : x ≈ y) : y ≈ x := ⟨h.1.symm, fun l k hk => (h.2 l k (by rw [h.1]; exact hk)).symm⟩
theorem Eqv.trans {x y z : NdArr n L} (h : x ≈ y) (h' : y ≈ z) : x ≈ z := ⟨h.1.trans h'.1, fun l k hk => (h.2 l k hk).trans (h'.2 l k (by rw [← h.1]; exact hk))⟩

/-- The matrix has the entry `ε i` in row `i` and column `σ i`. -/
structure Signed (n : ℕ) (M : NpMat ℝ) (σ : Equiv.Perm (Fin n)) (ε : Fin n → ℝ) : Prop where
  rows : M.rows = n
  cols : M.cols = n
  sign : ∀ i, ε i = 1 ∨ ε i = -1
  get : ∀ i j : Fin n, M.get i j = if j = σ i then ε i else 0

/-- The sign of an axis. -/
noncomputable def axisSign (i : Fin n) : ℝ := if i.val < n - 1 then -1 else 1

theorem axisSign_sq (i : Fin n) : axisSign i * axisSign i = 1 := by
  unfold axisSign; split_ifs <;> norm_num
theorem axisSign_cases (i : Fin n) : axisSign i = 1 ∨ axisSign i = -1 := by
  unfold axisSign; split_ifs <;> simp

/-- The permutation of the array axes. -/
def arrPerm (σ : Equiv.Perm (Fin n)) : Equiv.Perm (Fin n) := (Fin.revPerm.trans σ).trans Fin.revPerm

theorem arrPerm_apply (σ : Equiv.Perm (Fin n)) (i : Fin n) : arrPerm σ i = (σ i.rev).rev := rfl

/-- The signs of the array axes. -/
noncomputable def arrSign (σ : Equiv.Perm (Fin n)) (ε : Fin n → ℝ) (i : Fin n) : ℝ := axisSign i * axisSign (arrPerm σ i) * ε i.rev

theorem arrTrafo_signed {M : NpMat ℝ} {σ : Equiv.Perm (Fin n)} {ε : Fin n → ℝ} (h : Signed n M σ ε) : Signed n (arrTrafo M) (arrPerm σ) (arrSign σ ε) := by
  refine ⟨h.rows, h.cols, fun i => ?_, fun i j => ?_⟩
  · unfold arrSign
    rcases axisSign_cases i with h1 | h1 <;> rcases axisSign_cases (arrPerm σ i) with h2 | h2 <;> rcases h.sign i.rev with h3 | h3 <;> rw [h1, h2, h3] <;> norm_num
  · have e1 : (arrTrafo M).get i j = axisSign i * axisSign j * M.get (n - 1 - i) (n - 1 - j) := by
      simp only [arrTrafo, h.rows, h.cols, axisSign]
      split_ifs <;> ring
    have e2 : M.get (n - 1 - (i : ℕ)) (n - 1 - (j : ℕ)) = M.get (i.rev : ℕ) (j.rev : ℕ) := by
      congr 1 <;> simp only [Fin.val_rev] <;> omega
    rw [e1, e2, h.get]
    by_cases hj : j = arrPerm σ i
    · have : j.rev = σ i.rev := by rw [hj, arrPerm_apply, Fin.rev_rev]
      rw [if_pos this, if_pos hj, arrSign, ← hj]
    · have : ¬ j.rev = σ i.rev := fun h' => hj (by rw [arrPerm_apply, ← h', Fin.rev_rev])
      rw [if_neg this, if_neg hj, mul_zero]

theorem Signed.sum_row {M : NpMat ℝ} {σ : Equiv.Perm (Fin n)} {ε : Fin n → ℝ} (h : Signed n M σ ε) (i : Fin n) (f : ℝ → ℕ → ℝ) (hf : ∀ j, f 0 j = 0) :
    ∑ j ∈ Finset.range M.cols, f (M.get i j) j = f (ε i) (σ i) := by
  rw [h.cols, Finset.sum_range fun j => f (M.get i j) j, Finset.sum_eq_single (σ i)]
  · rw [h.get, if_pos rfl]
  · intro j _ hj
    rw [h.get, if_neg hj, hf]
  · intro hn; exact absurd (Finset.mem_univ _) hn

theorem Signed.exact {M : NpMat ℝ} {σ : Equiv.Perm (Fin n)} {ε : Fin n → ℝ} (h : Signed n M σ ε) : IsExact M := by
  have habs : ∀ i, |ε i| = 1 := fun i => by rcases h.sign i with h | h <;> rw [h] <;> norm_num
  refine ⟨fun j hj => ?_, fun i hi => ?_, fun i hi j hj => ?_⟩
  · rw [h.cols] at hj
    rw [h.rows, Finset.sum_range fun i => |M.get i j|, Finset.sum_eq_single (σ.symm ⟨j, hj⟩)]
    · have := h.get (σ.symm ⟨j, hj⟩) ⟨j, hj⟩
      rw [this, if_pos (by simp), habs]
    · intro i _ hi
      have := h.get i ⟨j, hj⟩
      rw [this, if_neg (fun e => hi (by rw [e]; simp)), abs_zero]
    · intro hn; exact absurd (Finset.mem_univ _) hn
  · rw [h.rows] at hi
    rw [h.sum_row ⟨i, hi⟩ (fun v _ => |v|) (by simp), habs]
  · rw [h.rows] at hi
    rw [h.cols] at hj
    have := h.get ⟨i, hi⟩ ⟨j, hj⟩
    rw [this]
    split_ifs
    · exact .inl (habs _)
    · exact .inr abs_zero

theorem Signed.axs {M : NpMat ℝ} {σ : Equiv.Perm (Fin n)} {ε : Fin n → ℝ} (h : Signed n M σ ε) (i : Fin n) :
    NdArr.axs M i = (if ε i = -1 then -1 else 1) * ((σ i : ℕ) + 1 : ℤ) := by
  unfold NdArr.axs
  rw [h.cols, Finset.sum_range fun j => round (M.get i j) * ((j : ℤ) + 1), Finset.sum_eq_single (σ i)]
  · rw [h.get, if_pos rfl]
    congr 1
    rcases h.sign i with h' | h'
    · rw [h', if_neg (by norm_num)]; simp
    · rw [h', if_pos rfl]
      have : round ((-1 : ℤ) : ℝ) = -1 := round_intCast (-1)
      simpa using this
  · intro j _ hj
    rw [h.get, if_neg hj]; simp
  · intro hn; exact absurd (Finset.mem_univ _) hn

/-- Where the pixel `k` of the transformed array comes from. -/
noncomputable def source (shape : Fin n → ℕ) (τ : Equiv.Perm (Fin n)) (δ : Fin n → ℝ) (k : Fin n → ℕ) (j : Fin n) : ℕ :=
  if δ (τ.symm j) = -1 then shape j - 1 - k (τ.symm j) else k (τ.symm j)

/-- The exact transformation. -/
theorem linearTransform_signed (interp : NdArr n L → NpMat ℝ → Except Err (NdArr n L)) (x : NdArr n L) {M : NpMat ℝ} {σ : Equiv.Perm (Fin n)} {ε : Fin n → ℝ} (h : Signed n M σ ε) :
    ∃ y, linearTransform interp x M = .ok y ∧ (∀ i, y.shape i = x.shape (arrPerm σ i)) ∧ ∀ l k, y.get l k = x.get l (source x.shape (arrPerm σ) (arrSign σ ε) k) := by
  have ht := arrTrafo_signed h
  set t := arrTrafo M
  set τ := arrPerm σ
  set δ := arrSign σ ε
  have hax : ∀ i : Fin n, (NdArr.axs t i).natAbs = (τ i : ℕ) + 1 := fun i => by
    rw [ht.axs i, Int.natAbs_mul]
    split_ifs
    · rw [show (-1 : ℤ).natAbs = 1 from rfl]; omega
    · rw [show (1 : ℤ).natAbs = 1 from rfl]; omega
  have hneg : ∀ i : Fin n, NdArr.axs t i < 0 ↔ δ i = -1 := fun i => by
    rw [ht.axs i]
    split_ifs with h1
    · simp only [h1, iff_true]; omega
    · simp only [h1, iff_false]; omega
  have hb : ∀ i : Fin n, 1 ≤ (NdArr.axs t i).natAbs ∧ (NdArr.axs t i).natAbs ≤ n := fun i => by
    rw [hax]; have := (τ i).2; omega
  have hπ : (fun i : Fin n => (⟨(NdArr.axs t i).natAbs - 1, by have := hb i; omega⟩ : Fin n)) = τ := by
    funext i
    apply Fin.ext
    show (NdArr.axs t i).natAbs - 1 = _
    rw [hax]; rfl
  refine ⟨flip (transpose x τ) fun i => NdArr.axs t i < 0, ?_, fun i => rfl, fun l k => ?_⟩
  · rw [linearTransform, if_neg (by simp [h.rows, h.cols]), if_pos ht.exact, dif_pos hb]
    simp only
    rw [hπ, if_pos τ.injective]
  · simp only [flip, transpose]
    congr 1
    funext j
    rw [Finset.sum_eq_single (τ.symm j)]
    · rw [if_pos (by simp), source]
      simp only [hneg, Equiv.apply_symm_apply]
    · intro i _ hi
      rw [if_neg fun e => hi (by rw [← e]; simp)]
    · intro hn; exact absurd (Finset.mem_univ _) hn

theorem coord_inj {shape k k' : Fin n → ℕ} (h : ∀ a, coord shape k a = coord shape k' a) : k = k' := by
  funext i
  have := h i.rev
  simp only [coord, Fin.rev_rev] at this
  have h0 : (if (i.rev : Fin n).val = 0 then (1 : ℝ) else -1) ≠ 0 := by split_ifs <;> norm_num
  have := mul_left_cancel₀ h0 this
  exact_mod_cast (sub_left_inj.1 this)

theorem source_box {shape : Fin n → ℕ} {τ : Equiv.Perm (Fin n)} {δ : Fin n → ℝ} {k : Fin n → ℕ} (hk : ∀ i, k i < shape (τ i)) : source shape τ δ k ∈ Box shape := by
  intro j
  have := hk (τ.symm j)
  rw [Equiv.apply_symm_apply] at this
  unfold source
  split_ifs <;> omega

theorem axisSign_rev (a : Fin n) : axisSign a.rev = if a.val = 0 then 1 else -1 := by
  unfold axisSign
  rw [Fin.val_rev]
  have := a.2
  by_cases h : a.val = 0
  · rw [if_neg (by omega), if_pos h]
  · rw [if_pos (by omega), if_neg h]

theorem coord_source {shape : Fin n → ℕ} {σ : Equiv.Perm (Fin n)} {ε : Fin n → ℝ} (hε : ∀ i, ε i = 1 ∨ ε i = -1) {k : Fin n → ℕ} (hk : ∀ i, k i < shape (arrPerm σ i)) (b : Fin n) :
    coord shape (source shape (arrPerm σ) (arrSign σ ε) k) (σ b) = ε b * coord (fun i => shape (arrPerm σ i)) k b := by
  have e1 : (arrPerm σ).symm (σ b).rev = b.rev := by
    rw [Equiv.symm_apply_eq, arrPerm_apply, Fin.rev_rev]
  have e2 : arrPerm σ b.rev = (σ b).rev := by rw [arrPerm_apply, Fin.rev_rev]
  have hk' := hk b.rev
  rw [e2] at hk'
  unfold coord
  simp only
  rw [e2, ← axisSign_rev, ← axisSign_rev b, source, e1, arrSign, e2, Fin.rev_rev]
  by_cases h : axisSign b.rev * axisSign (σ b).rev * ε b = -1
  · rw [if_pos h]
    push_cast [Nat.sub_sub, Nat.cast_sub (show 1 + k b.rev ≤ shape (σ b).rev by omega)]
    have e3 : axisSign (σ b).rev = -(ε b * axisSign b.rev) := by
      rcases axisSign_cases b.rev with h1 | h1 <;> rcases axisSign_cases (σ b).rev with h2 | h2 <;> rcases hε b with h3 | h3 <;> rw [h1, h2, h3] at h ⊢ <;> first | (norm_num; done) | (exfalso; norm_num at h)
    rw [e3]; ring
  · rw [if_neg h]
    have e3 : axisSign (σ b).rev = ε b * axisSign b.rev := by
      rcases axisSign_cases b.rev with h1 | h1 <;> rcases axisSign_cases (σ b).rev with h2 | h2 <;> rcases hε b with h3 | h3 <;> rw [h1, h2, h3] at h ⊢ <;> first | (norm_num; done) | (exfalso; norm_num at h)
    rw [e3]; ring

/-- **C44** For each array and each signed permutation matrix `M`, the transformed array is `f'(x) = f(M⁻¹ x)`: the values are those of the pixels `φ k`, where `φ` is a bijection between the
pixels of the two arrays, and the coordinates of `φ k` are `Mᵀ = M⁻¹` times those of `k`.  The sizes are permuted likewise. -/
theorem C44_pixels (interp : NdArr n L → NpMat ℝ → Except Err (NdArr n L)) (x : NdArr n L) (M : NpMat ℝ) (hM : IsSignedPerm n M) :
    ∃ y φ, linearTransform interp x M = .ok y ∧ Set.BijOn φ (Box y.shape) (Box x.shape) ∧ (∀ l, ∀ k ∈ Box y.shape, y.get l k = x.get l (φ k)) ∧
      (∀ k ∈ Box y.shape, ∀ a : Fin n, coord x.shape (φ k) a = ∑ b : Fin n, M.get b a * coord y.shape k b) ∧
      ∀ a : Fin n, (x.shape a.rev : ℝ) = ∑ b : Fin n, |M.get b a| * y.shape b.rev := by
  obtain ⟨hr, hc, σ, ε, hε, hg⟩ := hM
  obtain ⟨y, hy, hs, hget⟩ := linearTransform_signed interp x ⟨hr, hc, hε, hg⟩
  have hs' : y.shape = fun i => x.shape (arrPerm σ i) := funext hs
  have hcoord : ∀ k ∈ Box y.shape, ∀ a, coord x.shape (source x.shape (arrPerm σ) (arrSign σ ε) k) a = ∑ b : Fin n, M.get b a * coord y.shape k b := by
    intro k hk a
    rw [Finset.sum_eq_single (σ.symm a)]
    · rw [hg, if_pos (by simp), hs']
      have := coord_source hε (shape := x.shape) (σ := σ) (k := k) (fun i => by have := hk i; rw [hs i] at this; exact this) (σ.symm a)
      rw [Equiv.apply_symm_apply] at this
      exact this
    · intro b _ hb
      rw [hg, if_neg (fun e => hb (by rw [e]; simp)), zero_mul]
    · intro hn; exact absurd (Finset.mem_univ _) hn
  refine ⟨y, source x.shape (arrPerm σ) (arrSign σ ε), hy, ⟨fun k hk => source_box fun i => by have := hk i; rw [hs i] at this; exact this, fun k hk k' hk' he => ?_, fun m hm => ?_⟩,
    fun l k _ => hget l k, hcoord, fun a => ?_⟩
  · funext i
    have h1 := congrFun he (arrPerm σ i)
    have b1 := hk i
    have b2 := hk' i
    rw [hs i] at b1 b2
    simp only [source, Equiv.symm_apply_apply] at h1
    split_ifs at h1 <;> omega
  · refine ⟨fun i => if arrSign σ ε i = -1 then x.shape (arrPerm σ i) - 1 - m (arrPerm σ i) else m (arrPerm σ i), fun i => ?_, ?_⟩
    · have := hm (arrPerm σ i)
      rw [hs i]
      simp only
      split_ifs <;> omega
    · funext j
      have := hm j
      simp only [source, Equiv.apply_symm_apply]
      split_ifs <;> omega
  · rw [Finset.sum_eq_single (σ.symm a)]
    · rw [hg, if_pos (by simp), hs, arrPerm_apply, Fin.rev_rev, Equiv.apply_symm_apply]
      rcases hε (σ.symm a) with h | h <;> rw [h] <;> simp
    · intro b _ hb
      rw [hg, if_neg (fun e => hb (by rw [e]; simp)), abs_zero, zero_mul]
    · intro hn; exact absurd (Finset.mem_univ _) hn

theorem isSignedPerm_mul {M N : NpMat ℝ} (hM : IsSignedPerm n M) (hN : IsSignedPerm n N) : IsSignedPerm n (mul N M) := by
  obtain ⟨hr, hc, σ, ε, hε, hg⟩ := hM
  obtain ⟨hr', hc', σ', ε', hε', hg'⟩ := hN
  refine ⟨hr', hc, σ'.trans σ, fun i => ε' i * ε (σ' i), fun i => ?_, fun i j => ?_⟩
  · show ε' i * ε (σ' i) = 1 ∨ ε' i * ε (σ' i) = -1
    rcases hε' i with h | h <;> rcases hε (σ' i) with h' | h' <;> rw [h, h'] <;> norm_num
  · rw [show (mul N M).get i j = ∑ c ∈ Finset.range N.cols, N.get i c * M.get c j from rfl, hc', Finset.sum_range fun c => N.get i c * M.get c j, Finset.sum_eq_single (σ' i)]
    · rw [hg', if_pos rfl, hg]
      simp only [Equiv.trans_apply, mul_ite, mul_zero]
      congr
    · intro b _ hb
      rw [hg', if_neg hb, zero_mul]
    · intro hn; exact absurd (Finset.mem_univ _) hn

theorem isSignedPerm_eye : IsSignedPerm n (eye n : NpMat ℝ) :=
  ⟨rfl, rfl, Equiv.refl _, fun _ => 1, fun _ => .inl rfl, fun i j => by
    simp only [eye, Equiv.refl_apply, Fin.ext_iff]
    have := i.2
    split_ifs with h1 h2 h2 <;> first | rfl | omega⟩

/-- **C44** The transformation is a group action: the identity changes nothing, and transforming by `M` and then by `N` is transforming by `N M`. -/
theorem C44_action (interp : NdArr n L → NpMat ℝ → Except Err (NdArr n L)) (x : NdArr n L) :
    (∃ y, linearTransform interp x (eye n) = .ok y ∧ y ≈ x) ∧
    ∀ M N, IsSignedPerm n M → IsSignedPerm n N → ∃ y z w, linearTransform interp x M = .ok y ∧ linearTransform interp y N = .ok z ∧ linearTransform interp x (mul N M) = .ok w ∧ z ≈ w := by
  constructor
  · obtain ⟨y, φ, hy, hb, hget, hco, hsh⟩ := C44_pixels interp x (eye n) isSignedPerm_eye
    have hse : ∀ a : Fin n, ∀ f : Fin n → ℝ, ∑ b : Fin n, (eye n : NpMat ℝ).get b a * f b = f a := fun a f => by
      rw [Finset.sum_eq_single a]
      · simp [eye]
      · intro b _ hb
        have : ¬ (b : ℕ) = a := fun h => hb (Fin.ext h)
        simp [eye, this]
      · intro hn; exact absurd (Finset.mem_univ _) hn
    have hse' : ∀ a : Fin n, ∀ f : Fin n → ℝ, ∑ b : Fin n, |(eye n : NpMat ℝ).get b a| * f b = f a := fun a f => by
      rw [← hse a f]
      refine Finset.sum_congr rfl fun b _ => ?_
      simp only [eye]
      split_ifs <;> simp
    have hs : y.shape = x.shape := by
      funext i
      have := hsh i.rev
      rw [hse'] at this
      simp only [Fin.rev_rev] at this
      exact_mod_cast this.symm
    refine ⟨y, hy, hs, fun l k hk => ?_⟩
    rw [hget l k hk]
    congr 1
    refine coord_inj (shape := x.shape) fun a => ?_
    rw [hco k hk a, hse, hs]
  · intro M N hM hN
    obtain ⟨y, φ, hy, hb, hget, hco, hsh⟩ := C44_pixels interp x M hM
    obtain ⟨z, ψ, hz, hb', hget', hco', hsh'⟩ := C44_pixels interp y N hN
    obtain ⟨w, χ, hw, hb'', hget'', hco'', hsh''⟩ := C44_pixels interp x (mul N M) (isSignedPerm_mul hM hN)
    have hmulc : ∀ (b a : Fin n), (mul N M).get b a = ∑ c : Fin n, N.get b c * M.get c a := fun b a => by
      rw [show (mul N M).get b a = ∑ c ∈ Finset.range N.cols, N.get b c * M.get c a from rfl, hN.2.1, Finset.sum_range fun c => N.get b c * M.get c a]
    have hmula : ∀ (b a : Fin n), |(mul N M).get b a| = ∑ c : Fin n, |N.get b c| * |M.get c a| := fun b a => by
      obtain ⟨-, -, σ', ε', -, hg'⟩ := hN
      rw [hmulc, Finset.sum_eq_single (σ' b), Finset.sum_eq_single (σ' b), abs_mul]
      · intro c _ hc; rw [hg', if_neg hc, abs_zero, zero_mul]
      · intro hn; exact absurd (Finset.mem_univ _) hn
      · intro c _ hc; rw [hg', if_neg hc, zero_mul]
      · intro hn; exact absurd (Finset.mem_univ _) hn
    have hassoc : ∀ (f : Fin n → ℝ) (P Q : Fin n → Fin n → ℝ) (a : Fin n), ∑ c : Fin n, Q c a * ∑ b : Fin n, P b c * f b = ∑ b : Fin n, (∑ c : Fin n, P b c * Q c a) * f b := fun f P Q a => by
      simp only [Finset.mul_sum, Finset.sum_mul]
      rw [Finset.sum_comm]
      exact Finset.sum_congr rfl fun _ _ => Finset.sum_congr rfl fun _ _ => by ring
    have hs : z.shape = w.shape := by
      have key : ∀ a : Fin n, ∑ b : Fin n, |(mul N M).get b a| * (z.shape b.rev : ℝ) = ∑ b : Fin n, |(mul N M).get b a| * (w.shape b.rev : ℝ) := fun a => by
        have e1 : ∑ b : Fin n, |M.get b a| * (y.shape b.rev : ℝ) = ∑ c : Fin n, |M.get c a| * ∑ b : Fin n, |N.get b c| * (z.shape b.rev : ℝ) :=
          Finset.sum_congr rfl fun c _ => by rw [hsh' c]
        rw [← hsh'' a, hsh a, e1, hassoc (fun b => (z.shape b.rev : ℝ)) (fun b c => |N.get b c|) (fun c a => |M.get c a|) a]
        exact Finset.sum_congr rfl fun b _ => by rw [hmula]
      obtain ⟨-, -, ρ, ζ, hζ, hgz⟩ := isSignedPerm_mul hM hN
      funext i
      have := key (ρ i.rev)
      rw [Finset.sum_eq_single i.rev, Finset.sum_eq_single i.rev] at this
      · rw [hgz, if_pos rfl] at this
        simp only [Fin.rev_rev] at this
        rcases hζ i.rev with h | h <;> rw [h] at this <;> simp at this <;> exact_mod_cast this
      · intro b _ hb; rw [hgz, if_neg (fun e => hb (ρ.injective e).symm), abs_zero, zero_mul]
      · intro hn; exact absurd (Finset.mem_univ _) hn
      · intro b _ hb; rw [hgz, if_neg (fun e => hb (ρ.injective e).symm), abs_zero, zero_mul]
      · intro hn; exact absurd (Finset.mem_univ _) hn
    refine ⟨y, z, w, hy, hz, hw, hs, fun l k hk => ?_⟩
    rw [hget' l k hk, hget l _ (hb'.mapsTo hk), hget'' l k (hs ▸ hk)]
    congr 1
    refine coord_inj (shape := x.shape) fun a => ?_
    rw [hco _ (hb'.mapsTo hk), hco'' k (hs ▸ hk), Finset.sum_congr rfl fun c _ => by rw [hco' k hk c], hassoc (fun b => coord z.shape k b) (fun b c => N.get b c) (fun c a => M.get c a) a]
    exact Finset.sum_congr rfl fun b _ => by rw [hmulc, hs]

/-- The test of the code accepts exactly the signed permutation matrices. -/
theorem isExact_iff {M : NpMat ℝ} (hr : M.rows = n) (hc : M.cols = n) : IsExact M ↔ IsSignedPerm n M := by
  constructor
  · rintro ⟨hcol, hrow, hent⟩
    have hent' : ∀ i j : Fin n, |M.get i j| = 1 ∨ |M.get i j| = 0 := fun i j => hent i (hr ▸ i.2) j (hc ▸ j.2)
    have hrow' : ∀ i : Fin n, ∑ j : Fin n, |M.get i j| = 1 := fun i => by
      have := hrow i (hr ▸ i.2)
      rwa [hc, Finset.sum_range fun j => |M.get i j|] at this
    have hcol' : ∀ j : Fin n, ∑ i : Fin n, |M.get i j| = 1 := fun j => by
      have := hcol j (hc ▸ j.2)
      rwa [hr, Finset.sum_range fun i => |M.get i j|] at this
    have hex : ∀ i : Fin n, ∃ j : Fin n, |M.get i j| = 1 := fun i => by
      by_contra hn
      push Not at hn
      have := hrow' i
      rw [Finset.sum_eq_zero fun j _ => (hent' i j).resolve_left (hn j)] at this
      norm_num at this
    choose f hf using hex
    have huniq : ∀ (g : Fin n → ℝ), (∀ i, 0 ≤ g i) → ∑ i, g i = 1 → ∀ i j, g i = 1 → g j = 1 → i = j := by
      intro g h0 h1 i j hi hj
      by_contra hne
      have := Finset.sum_le_sum_of_subset_of_nonneg (Finset.subset_univ {i, j}) fun k _ _ => h0 k
      rw [Finset.sum_pair hne, h1, hi, hj] at this
      norm_num at this
    have hinj : Function.Injective f := fun i i' h => huniq (fun k => |M.get k (f i)|) (fun _ => abs_nonneg _) (hcol' (f i)) i i' (hf i) (by rw [h]; exact hf i')
    refine ⟨hr, hc, Equiv.ofBijective f (Finite.injective_iff_bijective.1 hinj), fun i => M.get i (f i), fun i => (abs_eq zero_le_one).1 (hf i), fun i j => ?_⟩
    rw [Equiv.ofBijective_apply]
    split_ifs with h
    · rw [h]
    · have := (hent' i j).resolve_left fun h' => h (huniq (fun k => |M.get i k|) (fun _ => abs_nonneg _) (hrow' i) j (f i) h' (hf i))
      exact abs_eq_zero.1 this
  · rintro ⟨h1, h2, σ, ε, h3, h4⟩
    exact Signed.exact ⟨h1, h2, h3, h4⟩

theorem arrTrafo_abs (M : NpMat ℝ) (i j : ℕ) : |(arrTrafo M).get i j| = |M.get (M.rows - 1 - i) (M.cols - 1 - j)| := by
  simp only [arrTrafo]
  split_ifs <;> simp

theorem isExact_arrTrafo (M : NpMat ℝ) : IsExact (arrTrafo M) ↔ IsExact M := by
  have hr : (arrTrafo M).rows = M.rows := rfl
  have hc : (arrTrafo M).cols = M.cols := rfl
  have h1 : ∀ j, ∑ i ∈ Finset.range M.rows, |(arrTrafo M).get i j| = ∑ i ∈ Finset.range M.rows, |M.get i (M.cols - 1 - j)| := fun j => by
    rw [← Finset.sum_range_reflect]
    refine Finset.sum_congr rfl fun i hi => ?_
    rw [arrTrafo_abs]
    have := Finset.mem_range.1 hi
    congr 2
    omega
  have h2 : ∀ i, ∑ j ∈ Finset.range M.cols, |(arrTrafo M).get i j| = ∑ j ∈ Finset.range M.cols, |M.get (M.rows - 1 - i) j| := fun i => by
    rw [← Finset.sum_range_reflect]
    refine Finset.sum_congr rfl fun j hj => ?_
    rw [arrTrafo_abs]
    have := Finset.mem_range.1 hj
    congr 2
    omega
  unfold IsExact
  rw [hr, hc]
  simp only [h1, h2]
  simp only [arrTrafo_abs]
  constructor
  · rintro ⟨a, b, c⟩
    refine ⟨fun j hj => ?_, fun i hi => ?_, fun i hi j hj => ?_⟩
    · have := a (M.cols - 1 - j) (by omega)
      rwa [show M.cols - 1 - (M.cols - 1 - j) = j by omega] at this
    · have := b (M.rows - 1 - i) (by omega)
      rwa [show M.rows - 1 - (M.rows - 1 - i) = i by omega] at this
    · have := c (M.rows - 1 - i) (by omega) (M.cols - 1 - j) (by omega)
      rwa [show M.cols - 1 - (M.cols - 1 - j) = j by omega, show M.rows - 1 - (M.rows - 1 - i) = i by omega] at this
  · rintro ⟨a, b, c⟩
    exact ⟨fun j hj => a _ (by omega), fun i hi => b _ (by omega), fun i hi j hj => c _ (by omega) _ (by omega)⟩

/-- **C44** The code moves pixels without interpolation for the signed permutation matrices, and for no other matrix. -/
theorem C44_exact (interp : NdArr n L → NpMat ℝ → Except Err (NdArr n L)) (x : NdArr n L) (M : NpMat ℝ) (hr : M.rows = n) (hc : M.cols = n) :
    (IsSignedPerm n M → ∀ interp', linearTransform interp x M = linearTransform interp' x M) ∧ (¬ IsSignedPerm n M → linearTransform interp x M = interp x (arrTrafo M)) := by
  constructor
  · intro h interp'
    have h' := (isExact_arrTrafo M).2 ((isExact_iff hr hc).2 h)
    rw [linearTransform, linearTransform, if_neg (not_not.2 ⟨hr, hc⟩), if_neg (not_not.2 ⟨hr, hc⟩), if_pos h', if_pos h']
  · intro h
    rw [linearTransform, if_neg (not_not.2 ⟨hr, hc⟩), if_neg (fun h' => h ((isExact_iff hr hc).1 ((isExact_arrTrafo M).1 h')))]

end NdArr

theorem sgnR_pm_one (s : ℤ) : sgnR s = 1 ∨ sgnR s = -1 := by
  unfold sgnR; split_ifs <;> simp

theorem psichi_signedPerm (θ : ℝ) (s : ℤ) (h : Real.sin θ = 0 ∨ Real.cos θ = 0) : IsSignedPerm 2 (psichi θ s 1) := by
  refine (NdArr.isExact_iff rfl rfl).1 ?_
  have h1 : |Real.cos θ| = 1 ∧ |Real.sin θ| = 0 ∨ |Real.cos θ| = 0 ∧ |Real.sin θ| = 1 := by
    have := Real.sin_sq_add_cos_sq θ
    rcases h with h | h
    · rw [h] at this
      left
      exact ⟨by rw [← sq_eq_sq₀ (abs_nonneg _) zero_le_one, sq_abs]; nlinarith, by rw [h, abs_zero]⟩
    · rw [h] at this
      right
      exact ⟨by rw [h, abs_zero], by rw [← sq_eq_sq₀ (abs_nonneg _) zero_le_one, sq_abs]; nlinarith⟩
  have h2 : |sgnR s| = 1 := by rcases sgnR_pm_one s with h | h <;> rw [h] <;> norm_num
  have e00 : |(psichi θ s 1).get 0 0| = |Real.cos θ| := by simp [psichi, of2]
  have e01 : |(psichi θ s 1).get 0 1| = |Real.sin θ| := by simp [psichi, of2, abs_mul, h2]
  have e10 : |(psichi θ s 1).get 1 0| = |Real.sin θ| := by simp [psichi, of2]
  have e11 : |(psichi θ s 1).get 1 1| = |Real.cos θ| := by simp [psichi, of2, abs_mul, h2]
  have hr : (psichi θ s 1).rows = 2 := rfl
  have hc : (psichi θ s 1).cols = 2 := rfl
  unfold NdArr.IsExact
  rw [hr, hc]
  simp only [Finset.sum_range_succ, Finset.sum_range_zero, zero_add]
  refine ⟨fun j hj => ?_, fun i hi => ?_, fun i hi j hj => ?_⟩
  · interval_cases j <;> simp only [e00, e01, e10, e11] <;> rcases h1 with ⟨a, b⟩ | ⟨a, b⟩ <;> rw [a, b] <;> norm_num
  · interval_cases i <;> simp only [e00, e01, e10, e11] <;> rcases h1 with ⟨a, b⟩ | ⟨a, b⟩ <;> rw [a, b] <;> norm_num
  · interval_cases i <;> interval_cases j <;> simp only [e00, e01, e10, e11] <;> rcases h1 with ⟨a, b⟩ | ⟨a, b⟩ <;> simp [a, b]

theorem sin_or_cos_quarter (k : ℤ) : Real.sin (k * (Real.pi / 2)) = 0 ∨ Real.cos (k * (Real.pi / 2)) = 0 := by
  have h := Real.sin_int_mul_pi k
  rw [show (k : ℝ) * Real.pi = 2 * (k * (Real.pi / 2)) by ring, Real.sin_two_mul] at h
  rcases mul_eq_zero.1 h with h | h
  · left; simpa using h
  · right; exact h

/-- The matrices of the elements of `O(2)` whose angle is a multiple of 90 degrees. -/
theorem O2.signedPerm (s : ℤ) (k : ℤ) : IsSignedPerm 2 (O2.irrepMat 1 1 (s, k * (Real.pi / 2))) := by
  have : O2.irrepMat 1 1 (s, k * (Real.pi / 2)) = psichi (k * (Real.pi / 2)) s 1 := by simp [O2.irrepMat]
  rw [this]
  exact psichi_signedPerm _ _ (sin_or_cos_quarter k)

/-- The matrices of all the elements of `C_4`. -/
theorem Cyclic.signedPerm (e : ℤ) : IsSignedPerm 2 (Cyclic.irrepMat 4 1 e) := by
  have e0 : Cyclic.irrepMat 4 1 e = psi (Cyclic.radians 4 e) 1 := by simp [Cyclic.irrepMat]
  rw [e0]
  have h := psichi_signedPerm (Cyclic.radians 4 e) 0 (by
    rw [show Cyclic.radians 4 e = e * (Real.pi / 2) by unfold Cyclic.radians; push_cast; ring]
    exact sin_or_cos_quarter e)
  simpa [psichi, psi, sgnR] using h

/-- The matrices of all the elements of `D_4`. -/
theorem Dihedral.signedPerm (e : Dihedral.Elem) : IsSignedPerm 2 (Dihedral.irrepMat 4 1 1 e) := by
  have e0 : Dihedral.irrepMat 4 1 1 e = psichi (Dihedral.radians 4 e) e.1 1 := by simp [Dihedral.irrepMat]
  rw [e0]
  refine psichi_signedPerm _ _ ?_
  rw [show Dihedral.radians 4 e = e.2 * (Real.pi / 2) by unfold Dihedral.radians; push_cast; ring]
  exact sin_or_cos_quarter e.2

/-- A 2 × 3 image rotated by 90 degrees counterclockwise: the first row of the result is the last column of the image. -/
example : ∃ y, NdArr.linearTransform (n := 2) (L := Unit) (fun _ _ => .error .notImplemented) ⟨![2, 3], fun _ k => 3 * k 0 + k 1⟩ (psichi (1 * (Real.pi / 2)) 0 1) = .ok y ∧ y.shape = ![3, 2] ∧
    y.get () ![0, 0] = 2 ∧ y.get () ![0, 1] = 5 := by
  have h : NdArr.Signed 2 (psichi (1 * (Real.pi / 2)) 0 1) (Equiv.swap 0 1) ![-1, 1] := by
    refine ⟨rfl, rfl, fun i => by fin_cases i <;> simp, fun i j => ?_⟩
    fin_cases i <;> fin_cases j <;> simp [psichi, of2, sgnR]
  obtain ⟨y, hy, hs, hg⟩ := NdArr.linearTransform_signed (fun _ _ => .error .notImplemented) ⟨![2, 3], fun (_ : Unit) k => 3 * k 0 + k 1⟩ h
  refine ⟨y, hy, ?_, ?_, ?_⟩
  · funext i
    rw [hs]
    fin_cases i <;> rfl
  · rw [hg]
    simp [NdArr.source, NdArr.arrPerm, NdArr.arrSign, NdArr.axisSign]
    norm_num
  · rw [hg]
    simp [NdArr.source, NdArr.arrPerm, NdArr.arrSign, NdArr.axisSign]
    norm_num

end Escnn
