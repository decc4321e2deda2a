import Verif.Lemmas.CGNumerical
import Verif.Spec.FinGroup
import Mathlib.Analysis.InnerProductSpace.PiL2

/-!
# Exact routines and the dimension of the space of intertwiners
-/

namespace Escnn

open NpMat CGComplete

/-- The columns are orthonormal. -/
def OrthoCols (B : NpMat ℝ) : Prop := ∀ k < B.cols, ∀ k' < B.cols, ∑ a ∈ Finset.range B.rows, B.get a k * B.get a k' = if k = k' then 1 else 0

/-- The singular value decomposition is exact: the columns of `null` are an orthonormal basis of the kernel. -/
structure NullExact (N : Numerics) : Prop where
  rows : ∀ C, (N.null C).rows = C.cols
  span : ∀ C v, InKer C v ↔ InSpan (N.null C) v
  ortho : ∀ C, OrthoCols (N.null C)

theorem exists_null (C : NpMat ℝ) : ∃ B : NpMat ℝ, B.rows = C.cols ∧ (∀ v, InKer C v ↔ InSpan B v) ∧ OrthoCols B := by
  classical
  let M : Matrix (Fin C.rows) (Fin C.cols) ℝ := fun i j => C.get i j
  let K : Submodule ℝ (EuclideanSpace ℝ (Fin C.cols)) := LinearMap.ker (Matrix.toLpLin 2 2 M)
  let b := stdOrthonormalBasis ℝ K
  let n := Module.finrank ℝ K
  let B : NpMat ℝ := ⟨C.cols, n, fun a k => if hk : k < n then (if ha : a < C.cols then (b ⟨k, hk⟩ : EuclideanSpace ℝ (Fin C.cols)) ⟨a, ha⟩ else 0) else 0⟩
  have hM : ∀ v : ℕ → ℝ, InKer C v ↔ WithLp.toLp 2 (fun j : Fin C.cols => v j) ∈ K := by
    intro v
    rw [LinearMap.mem_ker, Matrix.toLpLin_toLp]
    constructor
    · intro h
      have : M.mulVec (fun j : Fin C.cols => v j) = 0 := by
        funext i
        simpa [Matrix.mulVec, dotProduct, M, Fin.sum_univ_eq_sum_range (fun c => C.get i c * v c)] using h i i.2
      rw [Matrix.toLin'_apply, this]; rfl
    · intro h i hi
      rw [Matrix.toLin'_apply] at h
      have := congrFun (congrArg WithLp.ofLp h) ⟨i, hi⟩
      simpa [Matrix.mulVec, dotProduct, M, Fin.sum_univ_eq_sum_range (fun c => C.get i c * v c)] using this
  have hcomb : ∀ (x : ℕ → ℝ) (a : ℕ) (ha : a < C.cols), ∑ k ∈ Finset.range n, B.get a k * x k = ((∑ k : Fin n, x k • b k : K) : EuclideanSpace ℝ (Fin C.cols)) ⟨a, ha⟩ := by
    intro x a ha
    rw [Submodule.coe_sum, WithLp.ofLp_sum, Finset.sum_apply, ← Fin.sum_univ_eq_sum_range (fun k => B.get a k * x k)]
    refine Finset.sum_congr rfl fun k _ => ?_
    simp only [B, dif_pos k.2, dif_pos ha, Submodule.coe_smul, PiLp.smul_apply, smul_eq_mul]
    rw [mul_comm]
  refine ⟨B, rfl, fun v => ?_, fun k hk k' hk' => ?_⟩
  · rw [hM]
    constructor
    · intro hv
      refine ⟨fun k => if hk : k < n then b.repr ⟨_, hv⟩ ⟨k, hk⟩ else 0, fun a ha => ?_⟩
      show v a = ∑ k ∈ Finset.range n, _
      rw [hcomb _ a ha]
      have := congrArg (fun z : K => (z : EuclideanSpace ℝ (Fin C.cols)) ⟨a, ha⟩) (b.sum_repr ⟨_, hv⟩)
      simp only at this
      rw [← this]
      refine congrArg (fun z : K => (z : EuclideanSpace ℝ (Fin C.cols)) ⟨a, ha⟩) (Finset.sum_congr rfl fun k _ => ?_)
      rw [dif_pos k.2]
    · rintro ⟨x, hx⟩
      have : WithLp.toLp 2 (fun j : Fin C.cols => v j) = ((∑ k : Fin n, x k • b k : K) : EuclideanSpace ℝ (Fin C.cols)) := by
        ext j
        show v j = _
        rw [hx j j.2, ← hcomb x j j.2]
      rw [this]
      exact Submodule.coe_mem _
  · have hk : k < n := hk
    have hk' : k' < n := hk'
    have h := (orthonormal_iff_ite.1 b.orthonormal) ⟨k, hk⟩ ⟨k', hk'⟩
    rw [Submodule.coe_inner, EuclideanSpace.inner_eq_star_dotProduct] at h
    show ∑ a ∈ Finset.range C.cols, B.get a k * B.get a k' = _
    rw [← Fin.sum_univ_eq_sum_range (fun a => B.get a k * B.get a k')]
    simp only [dotProduct, Fin.mk.injEq] at h
    rw [← h]
    refine Finset.sum_congr rfl fun a _ => ?_
    simp only [B, dif_pos hk, dif_pos hk', dif_pos a.2]
    exact mul_comm _ _

theorem NullExact.exists : ∃ N, NullExact N := by
  choose null h1 h2 h3 using exists_null
  exact ⟨⟨null, id, fun _ _ _ _ => 0⟩, h1, h2, h3⟩

/-! ### Averages over a finite group -/

variable {G : Type} {els : List G} {op : G → G → G} {inv : G → G} {one : G}

theorem FinGroup.sum_op (hG : FinGroup els op inv one) {h : G} (hh : h ∈ els) (f : G → ℝ) : (els.map fun g => f (op h g)).sum = (els.map f).sum := by
  have hp : (els.map (op h)).Perm els := by
    refine (List.perm_ext_iff_of_nodup (hG.nodup.map_on fun a ha b hb e => hG.cancel_left hh ha hb e) hG.nodup).2 fun x => ?_
    constructor
    · intro hx
      obtain ⟨a, ha, rfl⟩ := List.mem_map.1 hx
      exact hG.mul_mem h hh a ha
    · intro hx
      exact List.mem_map.2 ⟨op (inv h) x, hG.mul_mem _ (hG.inv_mem h hh) x hx, hG.mul_inv_cancel_left hh hx⟩
  rw [← (hp.map f).sum_eq, List.map_map]
  rfl

theorem FinGroup.sum_inv (hG : FinGroup els op inv one) (f : G → ℝ) : (els.map fun g => f (inv g)).sum = (els.map f).sum := by
  have hp : (els.map inv).Perm els := by
    refine (List.perm_ext_iff_of_nodup (hG.nodup.map_on fun a ha b hb e => ?_) hG.nodup).2 fun x => ?_
    · rw [← hG.inv_inv ha, ← hG.inv_inv hb, e]
    · constructor
      · intro hx
        obtain ⟨a, ha, rfl⟩ := List.mem_map.1 hx
        exact hG.inv_mem a ha
      · intro hx
        exact List.mem_map.2 ⟨inv x, hG.inv_mem x hx, hG.inv_inv hx⟩
  rw [← (hp.map f).sum_eq, List.map_map]
  rfl

theorem list_sum_finset (L : List G) (n : ℕ) (f : ℕ → G → ℝ) : ∑ k ∈ Finset.range n, (L.map (f k)).sum = (L.map fun g => ∑ k ∈ Finset.range n, f k g).sum := by
  induction L with
  | nil => simp
  | cons g L ih => simp [Finset.sum_add_distrib, ih]

theorem list_mul_sum (L : List G) (c : ℝ) (f : G → ℝ) : c * (L.map f).sum = (L.map fun g => c * f g).sum := by
  induction L with
  | nil => simp
  | cons g L ih => simp [mul_add, ih]

/-- An orthonormal basis of the invariant vectors has as many elements as the average of the character. -/
theorem invariants_trace (hG : FinGroup els op inv one) {D : ℕ} {τ : G → NpMat ℝ} (hτ : OrthoRep (· ∈ els) op one D τ) {B : NpMat ℝ} (hr : B.rows = D) (hB : OrthoCols B)
    (h : ∀ v : ℕ → ℝ, (∀ g ∈ els, ∀ i < D, ∑ j ∈ Finset.range D, (τ g).get i j * v j = v i) ↔ InSpan B v) :
    (B.cols : ℝ) * els.length = (els.map fun g => trace (τ g)).sum := by
  have hn : (els.length : ℝ) ≠ 0 := by exact_mod_cast hG.length_pos.ne'
  let P : ℕ → ℕ → ℝ := fun i k => (els.map fun g => (τ g).get i k).sum
  have hmul : ∀ g ∈ els, ∀ e ∈ els, ∀ i < D, ∀ k < D, (τ (op g e)).get i k = ∑ j ∈ Finset.range D, (τ g).get i j * (τ e).get j k := fun g hg e he i hi k hk => by
    rw [(hτ.map_mul g e hg he).2.2 i k (by rw [hτ.rows _ (hG.mul_mem g hg e he)]; exact hi) (by rw [hτ.cols _ (hG.mul_mem g hg e he)]; exact hk)]
    simp only [mul, hτ.cols g hg]
  have hinvg : ∀ g ∈ els, ∀ i < D, ∀ k < D, (τ (inv g)).get i k = (τ g).get k i := fun g hg i hi k hk => by
    have hi' := hG.inv_mem g hg
    have e1 : τ (inv g) ≈ transpose (τ g) := by
      refine ortho_inv_unique (hτ.ortho g hg) (hτ.rows g hg) (hτ.rows _ hi') ?_
      refine (hτ.map_mul g (inv g) hg hi').symm.trans ?_
      rw [hG.mul_inv g hg]
      exact hτ.map_one
    exact e1.2.2 i k (by rw [hτ.rows _ hi']; exact hi) (by rw [hτ.cols _ hi']; exact hk)
  -- the columns of the average are invariant
  have hPinv : ∀ k < D, InSpan B fun i => P i k := fun k hk => by
    rw [← h]
    intro g hg i hi
    have e : ∀ j ∈ Finset.range D, (τ g).get i j * P j k = (els.map fun e => (τ g).get i j * (τ e).get j k).sum := fun j _ => list_mul_sum _ _ _
    rw [Finset.sum_congr rfl e, list_sum_finset els D (fun j e => (τ g).get i j * (τ e).get j k)]
    have e2 : (els.map fun e => ∑ j ∈ Finset.range D, (τ g).get i j * (τ e).get j k) = els.map fun e => (τ (op g e)).get i k := List.map_congr_left fun e he => (hmul g hg e he i hi k hk).symm
    rw [e2]
    exact hG.sum_op hg fun e => (τ e).get i k
  -- the columns of the basis are fixed by the average
  have hcol : ∀ m < B.cols, ∀ i < D, ∑ k ∈ Finset.range D, P i k * B.get k m = els.length * B.get i m := fun m hm i hi => by
    have hs : InSpan B fun a => B.get a m := ⟨fun x => if x = m then 1 else 0, fun a _ => by simp [hm]⟩
    have hv := (h _).2 hs
    have e : ∀ k ∈ Finset.range D, P i k * B.get k m = (els.map fun e => (τ e).get i k * B.get k m).sum := fun k _ => by
      rw [mul_comm, list_mul_sum]
      exact congrArg List.sum (List.map_congr_left fun e _ => mul_comm _ _)
    rw [Finset.sum_congr rfl e, list_sum_finset els D (fun k e => (τ e).get i k * B.get k m)]
    have e2 : (els.map fun e => ∑ k ∈ Finset.range D, (τ e).get i k * B.get k m) = els.map fun _ => B.get i m := List.map_congr_left fun e he => hv e he i hi
    rw [e2]
    simp
  have hsymm : ∀ i < D, ∀ k < D, P i k = P k i := fun i hi k hk => by
    show (els.map fun g => (τ g).get i k).sum = (els.map fun g => (τ g).get k i).sum
    rw [← hG.sum_inv fun g => (τ g).get i k]
    exact congrArg List.sum (List.map_congr_left fun g hg => hinvg g hg i hi k hk)
  -- the average is `B Bᵀ`
  have hP : ∀ i < D, P i i = els.length * ∑ m ∈ Finset.range B.cols, B.get i m * B.get i m := fun i hi => by
    obtain ⟨x, hx⟩ := hPinv i hi
    rw [hr] at hx
    dsimp only at hx
    have hxm : ∀ m < B.cols, x m = els.length * B.get i m := fun m hm => by
      rw [← hcol m hm i hi]
      have e1 : ∀ k ∈ Finset.range D, P i k * B.get k m = ∑ l ∈ Finset.range B.cols, x l * (B.get k l * B.get k m) := fun k hk => by
        rw [hsymm i hi k (Finset.mem_range.1 hk), hx k (Finset.mem_range.1 hk), Finset.sum_mul]
        exact Finset.sum_congr rfl fun _ _ => by ring
      rw [Finset.sum_congr rfl e1, Finset.sum_comm]
      have e2 : ∀ l ∈ Finset.range B.cols, ∑ k ∈ Finset.range D, x l * (B.get k l * B.get k m) = x l * if l = m then 1 else 0 := fun l hl => by
        rw [← Finset.mul_sum, ← hr, hB l (Finset.mem_range.1 hl) m hm]
      rw [Finset.sum_congr rfl e2]
      simp [hm]
    rw [hx i hi, Finset.mul_sum]
    exact Finset.sum_congr rfl fun m hm => by rw [hxm m (Finset.mem_range.1 hm)]; ring
  have htr : (els.map fun g => trace (τ g)).sum = ∑ i ∈ Finset.range D, P i i := by
    rw [list_sum_finset els D (fun i g => (τ g).get i i)]
    exact congrArg List.sum (List.map_congr_left fun g hg => by rw [trace, hτ.rows g hg])
  rw [htr, Finset.sum_congr rfl fun i hi => hP i (Finset.mem_range.1 hi), ← Finset.mul_sum, Finset.sum_comm]
  have e : ∀ m ∈ Finset.range B.cols, ∑ i ∈ Finset.range D, B.get i m * B.get i m = 1 := fun m hm => by
    have := hB m (Finset.mem_range.1 hm) m (Finset.mem_range.1 hm)
    rwa [hr, if_pos rfl] at this
  rw [Finset.sum_congr rfl e]
  simp [mul_comm]

end Escnn
