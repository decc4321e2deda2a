import Verif.Model.Fourier
import Verif.Props.C50_Uniform
import Verif.Lemmas.Regular
import Verif.Lemmas.MatKinds
import Verif.Spec.FinGroup
import Mathlib.LinearAlgebra.Matrix.PosDef
import Mathlib.Data.Real.StarOrdered

/-!
# Lemmas on the Fourier nonlinearity
-/

namespace Escnn.Fourier

open NpMat Matrix

/-- The array as a Mathlib matrix of a given shape. -/
def toM (n m : ℕ) (A : NpMat ℝ) : Matrix (Fin n) (Fin m) ℝ := Matrix.of fun i j => A.get i j

theorem toM_congr {n m : ℕ} {A B : NpMat ℝ} (h : A ≈ B) (hr : A.rows = n) (hc : A.cols = m) : toM n m A = toM n m B := by
  ext i j
  exact h.2.2 i j (by rw [hr]; exact i.2) (by rw [hc]; exact j.2)

theorem toM_mul {n m l : ℕ} {A B : NpMat ℝ} (hc : A.cols = m) : toM n l (NpMat.mul A B) = toM n m A * toM m l B := by
  ext i j
  simp only [toM, Matrix.of_apply, NpMat.mul, Matrix.mul_apply, hc, Finset.sum_range]

theorem toM_transpose {n m : ℕ} (A : NpMat ℝ) : toM m n (NpMat.transpose A) = (toM n m A)ᵀ := rfl

theorem toM_eye (n : ℕ) : toM n n (NpMat.eye n) = 1 := by
  ext i j
  simp [toM, NpMat.eye, Matrix.one_apply, Fin.ext_iff]

theorem eqv_of_toM {n m : ℕ} {A B : NpMat ℝ} (hr : A.rows = n) (hc : A.cols = m) (hr' : B.rows = n) (hc' : B.cols = m)
    (h : toM n m A = toM n m B) : A ≈ B := by
  refine ⟨hr.trans hr'.symm, hc.trans hc'.symm, fun i j hi hj => ?_⟩
  exact congrFun (congrFun h ⟨i, hr ▸ hi⟩) ⟨j, hc ▸ hj⟩

/-- The regularised normal matrix is invertible. -/
theorem normal_unit {N e : ℕ} (A : Matrix (Fin N) (Fin e) ℝ) {ε : ℝ} (hε : 0 < ε) : IsUnit (Aᵀ * A + ε • (1 : Matrix (Fin e) (Fin e) ℝ)) := by
  have h1 : (Aᵀ * A).PosSemidef := by
    have := Matrix.posSemidef_conjTranspose_mul_self A
    rwa [Matrix.conjTranspose_eq_transpose_of_trivial] at this
  have h2 : (ε • (1 : Matrix (Fin e) (Fin e) ℝ)).PosDef := Matrix.PosDef.one.smul hε
  exact (h2.posSemidef_add h1).isUnit

/-- The algebra behind the module: sampling on a grid permuted by the group, a pointwise function, and the regularised least squares. -/
theorem core {N d e : ℕ} {A : Matrix (Fin N) (Fin d) ℝ} {Ao : Matrix (Fin N) (Fin e) ℝ} {R : Matrix (Fin d) (Fin d) ℝ} {Q : Matrix (Fin e) (Fin e) ℝ}
    (hR : Rᵀ * R = 1) (hQ : Qᵀ * Q = 1) (π : Equiv.Perm (Fin N)) (hA : ∀ i, A (π i) = R *ᵥ A i) (hAo : ∀ i, Ao (π i) = Q *ᵥ Ao i)
    {ε : ℝ} {Mi : Matrix (Fin e) (Fin e) ℝ} (hi : (Aoᵀ * Ao + ε • 1) * Mi = 1) (φ : ℝ → ℝ) (x : Fin d → ℝ) :
    (Mi * Aoᵀ) *ᵥ (fun i => φ ((A *ᵥ (R *ᵥ x)) i)) = Q *ᵥ ((Mi * Aoᵀ) *ᵥ fun i => φ ((A *ᵥ x) i)) := by
  have hA' : ∀ i, (A *ᵥ (R *ᵥ x)) (π i) = (A *ᵥ x) i := by
    intro i
    show A (π i) ⬝ᵥ (R *ᵥ x) = A i ⬝ᵥ x
    rw [hA, Matrix.dotProduct_mulVec, ← Matrix.mulVec_transpose, Matrix.mulVec_mulVec, hR, Matrix.one_mulVec]
  have hT : ∀ y y' : Fin N → ℝ, (∀ i, y' (π i) = y i) → Aoᵀ *ᵥ y' = Q *ᵥ (Aoᵀ *ᵥ y) := by
    intro y y' hy
    ext f
    simp only [Matrix.mulVec, dotProduct, Matrix.transpose_apply, Finset.mul_sum]
    rw [← Equiv.sum_comp π, Finset.sum_comm]
    refine Finset.sum_congr rfl fun i _ => ?_
    rw [hAo, hy, Matrix.mulVec, dotProduct, Finset.sum_mul]
    exact Finset.sum_congr rfl fun j _ => by ring
  have hQ' : Q * Qᵀ = 1 := mul_eq_one_comm.1 hQ
  have hM0 : Aoᵀ * Ao = Q * (Aoᵀ * Ao) * Qᵀ := by
    ext f f'
    simp only [Matrix.mul_apply, Matrix.transpose_apply, Finset.mul_sum, Finset.sum_mul]
    rw [← Equiv.sum_comp π]
    simp only [hAo, Matrix.mulVec, dotProduct, Finset.mul_sum, Finset.sum_mul]
    rw [Finset.sum_comm]
    refine Finset.sum_congr rfl fun k _ => ?_
    rw [Finset.sum_comm]
    refine Finset.sum_congr rfl fun j _ => Finset.sum_congr rfl fun i _ => by ring
  have hM : (Aoᵀ * Ao + ε • 1) * Q = Q * (Aoᵀ * Ao + ε • 1) := by
    rw [Matrix.add_mul, Matrix.mul_add]
    congr 1
    · conv_lhs => rw [hM0]
      rw [Matrix.mul_assoc, hQ, Matrix.mul_one]
    · simp
  have hi' : Mi * (Aoᵀ * Ao + ε • 1) = 1 := mul_eq_one_comm.1 hi
  have hMi : Mi * Q = Q * Mi := by
    calc Mi * Q = Mi * Q * ((Aoᵀ * Ao + ε • 1) * Mi) := by rw [hi, Matrix.mul_one]
      _ = Mi * ((Q * (Aoᵀ * Ao + ε • 1)) * Mi) := by simp only [Matrix.mul_assoc]
      _ = (Mi * (Aoᵀ * Ao + ε • 1)) * (Q * Mi) := by rw [← hM]; simp only [Matrix.mul_assoc]
      _ = Q * Mi := by rw [hi', Matrix.one_mul]
  rw [← Matrix.mulVec_mulVec, hT _ _ (fun i => by rw [hA']), Matrix.mulVec_mulVec, hMi, ← Matrix.mulVec_mulVec, ← Matrix.mulVec_mulVec]

/-- Left multiplication permutes the positions of a grid which contains each element once. -/
theorem grid_perm {G : Type} {els grid : List G} {op : G → G → G} {inv : G → G} {one : G} (hG : FinGroup els op inv one) (hg : grid.Perm els) {h : G} (hh : h ∈ els) :
    ∃ π : Equiv.Perm (Fin grid.length), ∀ i, grid[π i] = op h grid[i] := by
  have hmem : ∀ i : Fin grid.length, ∃ j : Fin grid.length, grid[j] = op h grid[i] := by
    intro i
    have : op h grid[i] ∈ grid := hg.mem_iff.2 (hG.mul_mem _ hh _ (hg.mem_iff.1 (List.getElem_mem _)))
    obtain ⟨n, hn, e⟩ := List.mem_iff_getElem.1 this
    exact ⟨⟨n, hn⟩, e⟩
  choose f hf using hmem
  have hnd : grid.Nodup := hg.nodup_iff.2 hG.nodup
  have hinj : Function.Injective f := by
    intro i j e
    have h1 : op h grid[i] = op h grid[j] := by rw [← hf i, ← hf j, e]
    have h2 := hG.cancel_left hh (hg.mem_iff.1 (List.getElem_mem _)) (hg.mem_iff.1 (List.getElem_mem _)) h1
    exact Fin.ext ((hnd.getElem_inj_iff (hi := i.2) (hj := j.2)).1 h2)
  exact ⟨Equiv.ofBijective f (Finite.injective_iff_bijective.1 hinj), hf⟩

end Escnn.Fourier

namespace Escnn.Fourier

open NpMat Matrix

variable {G Id S B P C : Type} {els grid : List G} {op : G → G → G} {inv : G → G} {one : G} {T : IrrepTable G Id}

theorem toM_ortho {n : ℕ} {M : NpMat ℝ} (h : IsOrtho M) (hr : M.rows = n) (hc : M.cols = n) : (toM n n M)ᵀ * toM n n M = 1 := by
  rw [← toM_transpose, ← toM_mul (m := n) (by exact hr), toM_congr h.2.2 (by exact hc) (by exact hc), hr, toM_eye]

/-- Representations which are direct sums of irreps. -/
structure Split (T : IrrepTable G Id) (El : G → Prop) (r : Rep G Id) : Prop where
  wf : r.WF T El
  cob : r.cob ≈ NpMat.eye r.size

theorem Split.ortho (hT : T.Valid (· ∈ els) op one) (hone : one ∈ els) (hop : ∀ a ∈ els, ∀ b ∈ els, op a b ∈ els) {r : Rep G Id} (h : Split T (· ∈ els) r) : OrthoRep (· ∈ els) op one r.size r.mat := by
  have h0 := irrepsBlock_orthoRep hT hone h.wf.ok
  rw [show (r.irreps.map T.size).sum = r.size from h.wf.size] at h0
  have h1 : ∀ g ∈ els, r.mat g ≈ irrepsBlock T r.irreps g := fun g hg => h.wf.mat_eye hT h.cob hg
  refine ⟨fun g hg => h.wf.rows hg, fun g hg => h.wf.cols hg, (h1 _ hone).trans h0.map_one, fun g k hg hk => ?_, fun g hg => ?_⟩
  · refine (h1 _ (hop g hg k hk)).trans ((h0.map_mul g k hg hk).trans (mul_congr (h1 g hg).symm (h1 k hk).symm ?_))
    rw [h0.cols g hg, h0.rows k hk]
  · have e := h0.ortho g hg
    have := (IsInv.of_ortho e).congr (h1 g hg).symm (transpose_congr (h1 g hg).symm)
    exact ⟨this.1, this.2.2.2.1, this.2.2.2.2⟩

/-- The rows of the sampling matrix are permuted by the action. -/
theorem sampling_perm {r : Rep G Id} (hr : OrthoRep (· ∈ els) op one r.size r.mat) (hg : ∀ g ∈ grid, g ∈ els) (K : List ℝ) {h : G} (hh : h ∈ els)
    (π : Equiv.Perm (Fin grid.length)) (hπ : ∀ i, grid[π i] = op h grid[i]) (i : Fin grid.length) :
    toM grid.length r.size (samplingMatrix r K grid) (π i) = toM r.size r.size (r.mat h) *ᵥ toM grid.length r.size (samplingMatrix r K grid) i := by
  have hgi : grid[i] ∈ els := hg _ (List.getElem_mem _)
  ext f
  have e1 : ∀ (i : Fin grid.length) (f : ℕ), (samplingMatrix r K grid).get i f = ∑ j ∈ Finset.range r.size, (r.mat grid[i]).get f j * K.getD j 0 := by
    intro i f
    have : grid[(i : ℕ)]? = some grid[i] := by simp
    simp only [samplingMatrix, this]
    rw [hr.cols grid[i] (hg _ (List.getElem_mem _))]
  simp only [toM, Matrix.of_apply, Matrix.mulVec, dotProduct, e1, hπ]
  have hm := hr.map_mul h _ hh hgi
  have e2 : ∀ j ∈ Finset.range r.size, (r.mat (op h grid[i])).get f j * K.getD j 0 = ∑ l ∈ Finset.range r.size, (r.mat h).get f l * (r.mat grid[i]).get l j * K.getD j 0 := by
    intro j hj
    rw [hm.2.2 f j (by rw [hm.1]; show (f : ℕ) < (r.mat h).rows; rw [hr.rows h hh]; exact f.2) (by rw [hm.2.1]; show j < (r.mat grid[i]).cols; rw [hr.cols _ hgi]; exact Finset.mem_range.1 hj)]
    simp only [NpMat.mul]
    rw [hr.cols h hh, Finset.sum_mul]
  rw [Finset.sum_congr rfl e2, Finset.sum_comm, Finset.sum_range]
  refine Finset.sum_congr rfl fun l _ => ?_
  rw [Finset.mul_sum]
  exact Finset.sum_congr rfl fun j _ => by ring

theorem normalMatrix_toM {A : NpMat ℝ} {N e : ℕ} (hr : A.rows = N) : toM e e (normalMatrix A e) = (toM N e A)ᵀ * toM N e A + (1 / 100000000 : ℝ) • 1 := by
  ext i j
  have h1 : (NpMat.mul (NpMat.transpose A) A).get i j = ((toM N e A)ᵀ * toM N e A) i j := by
    rw [← toM_transpose, ← toM_mul (m := N) (by exact hr)]
    rfl
  have h2 : (NpMat.eye e : NpMat ℝ).get i j = (1 : Matrix (Fin e) (Fin e) ℝ) i j := by rw [← toM_eye]; rfl
  simp only [toM, Matrix.of_apply, normalMatrix, Matrix.add_apply, Matrix.smul_apply, smul_eq_mul]
  rw [h1, h2]
  rfl

/-- The inversion in the constructor succeeds. -/
theorem normal_inv (A : NpMat ℝ) : ∃ N, npInv (normalMatrix A A.cols) = .ok N := by
  have hu := normal_unit (toM A.rows A.cols A) (ε := 1 / 100000000) (by norm_num)
  rw [← normalMatrix_toM rfl] at hu
  obtain ⟨u, hu⟩ := hu
  let D : NpMat ℝ := ⟨A.cols, A.cols, fun i j => if h : i < A.cols ∧ j < A.cols then (↑u⁻¹ : Matrix (Fin A.cols) (Fin A.cols) ℝ) ⟨i, h.1⟩ ⟨j, h.2⟩ else 0⟩
  have hD : toM A.cols A.cols D = (↑u⁻¹ : Matrix (Fin A.cols) (Fin A.cols) ℝ) := by
    ext i j
    simp [toM, D]
  obtain ⟨N, hN, -⟩ := npInv_of (A := normalMatrix A A.cols) (B := D) ⟨rfl, rfl, rfl, by
    refine eqv_of_toM (n := A.cols) (m := A.cols) rfl rfl rfl rfl ?_
    rw [toM_mul (A := normalMatrix A A.cols) (m := A.cols) rfl, hD, ← hu]
    exact (Units.mul_inv u).trans (toM_eye _).symm, by
    refine eqv_of_toM (n := A.cols) (m := A.cols) rfl rfl rfl rfl ?_
    rw [toM_mul (A := D) (m := A.cols) rfl, hD, ← hu]
    exact (Units.inv_mul u).trans (toM_eye _).symm⟩
  exact ⟨N, hN⟩

/-- The module on one field, in terms of arrays: `ext` contains `out` as its first block. -/
theorem field_equivariant (hT : T.Valid (· ∈ els) op one) (hG : FinGroup els op inv one) (hgrid : grid.Perm els) {rho out ext : Rep G Id} (hrho : Split T (· ∈ els) rho)
    (hext : Split T (· ∈ els) ext) (hout : ∀ g ∈ els, (out.mat g).rows = out.size ∧ (out.mat g).cols = out.size) {Q : G → NpMat ℝ}
    (hQ : ∀ g ∈ els, ext.mat g ≈ diag2 (out.mat g) (Q g)) (K K' : List ℝ) {N : NpMat ℝ} (hN : IsInv (normalMatrix (samplingMatrix ext K' grid) ext.size) N)
    (φ : ℝ → ℝ) {h : G} (hh : h ∈ els) {x gx : ℕ → ℝ} (hact : ∀ o < rho.size, gx o = ∑ j ∈ Finset.range rho.size, (rho.mat h).get o j * x j) {o : ℕ} (ho : o < out.size) :
    ∑ g ∈ Finset.range grid.length, φ (∑ f ∈ Finset.range rho.size, gx f * (samplingMatrix rho K grid).get g f) * (NpMat.mul N (NpMat.transpose (samplingMatrix ext K' grid))).get o g =
      ∑ j ∈ Finset.range out.size, (out.mat h).get o j *
        ∑ g ∈ Finset.range grid.length, φ (∑ f ∈ Finset.range rho.size, x f * (samplingMatrix rho K grid).get g f) * (NpMat.mul N (NpMat.transpose (samplingMatrix ext K' grid))).get j g := by
  have hop : ∀ a ∈ els, ∀ b ∈ els, op a b ∈ els := hG.mul_mem
  have o1 := hrho.ortho hT hG.one_mem hop
  have o2 := hext.ortho hT hG.one_mem hop
  obtain ⟨π, hπ⟩ := grid_perm hG hgrid hh
  have hmem : ∀ g ∈ grid, g ∈ els := fun g hg => hgrid.mem_iff.1 hg
  have hNr : N.rows = ext.size := hN.2.1
  have hNc : N.cols = ext.size := hN.2.2.1
  have hi : ((toM grid.length ext.size (samplingMatrix ext K' grid))ᵀ * toM grid.length ext.size (samplingMatrix ext K' grid) + (1 / 100000000 : ℝ) • 1) * toM ext.size ext.size N = 1 := by
    rw [← normalMatrix_toM (A := samplingMatrix ext K' grid) (N := grid.length) rfl, ← toM_mul (A := normalMatrix (samplingMatrix ext K' grid) ext.size) (m := ext.size) rfl, toM_congr (n := ext.size) (m := ext.size) hN.2.2.2.1 rfl hNc]
    exact toM_eye _
  have key := core (toM_ortho (o1.ortho h hh) (o1.rows h hh) (o1.cols h hh)) (toM_ortho (o2.ortho h hh) (o2.rows h hh) (o2.cols h hh)) π
    (sampling_perm o1 hmem K hh π hπ) (sampling_perm o2 hmem K' hh π hπ) hi φ (fun j => x j)
  have hes : ext.size = out.size + (Q h).rows := by
    rw [← o2.rows h hh, (hQ h hh).1, diag2_rows, (hout h hh).1]
  have k := congrFun key ⟨o, by omega⟩
  rw [← toM_transpose, ← toM_mul (m := ext.size) hNc] at k
  have hx : ∀ (g : Fin grid.length), (toM grid.length rho.size (samplingMatrix rho K grid) *ᵥ (toM rho.size rho.size (rho.mat h) *ᵥ fun j => x j)) g =
      ∑ f ∈ Finset.range rho.size, gx f * (samplingMatrix rho K grid).get g f := by
    intro g
    rw [Finset.sum_range, Matrix.mulVec, dotProduct]
    refine Finset.sum_congr rfl fun f _ => ?_
    rw [hact f f.2, mul_comm]
    simp only [toM, Matrix.of_apply, Matrix.mulVec, dotProduct, Finset.sum_range]
  have hx' : ∀ (g : Fin grid.length), (toM grid.length rho.size (samplingMatrix rho K grid) *ᵥ fun j => x j) g =
      ∑ f ∈ Finset.range rho.size, x f * (samplingMatrix rho K grid).get g f := by
    intro g
    rw [Finset.sum_range, Matrix.mulVec, dotProduct]
    exact Finset.sum_congr rfl fun f _ => mul_comm _ _
  simp only [hx, hx'] at k
  have hL : ∀ (v : Fin grid.length → ℝ) (j : Fin ext.size), (toM ext.size grid.length (NpMat.mul N (NpMat.transpose (samplingMatrix ext K' grid))) *ᵥ v) j =
      ∑ g : Fin grid.length, v g * (NpMat.mul N (NpMat.transpose (samplingMatrix ext K' grid))).get j g := by
    intro v j
    rw [Matrix.mulVec, dotProduct]
    exact Finset.sum_congr rfl fun g _ => mul_comm _ _
  rw [hL] at k
  rw [Finset.sum_range, k]
  have hR : ∀ w : Fin ext.size → ℝ, ∀ w' : ℕ → ℝ, (∀ j : Fin ext.size, w j = w' j) → (toM ext.size ext.size (ext.mat h) *ᵥ w) ⟨o, by omega⟩ = ∑ j ∈ Finset.range out.size, (out.mat h).get o j * w' j := by
    intro w w' hw
    have e1 : (toM ext.size ext.size (ext.mat h) *ᵥ w) ⟨o, by omega⟩ = ∑ j ∈ Finset.range ext.size, (ext.mat h).get o j * w' j := by
      rw [Finset.sum_range, Matrix.mulVec, dotProduct]
      exact Finset.sum_congr rfl fun j _ => by rw [hw]; rfl
    rw [e1]
    have e2 : ∀ j ∈ Finset.range ext.size, (ext.mat h).get o j * w' j = (diag2 (out.mat h) (Q h)).get o j * w' j := by
      intro j hj
      rw [(hQ h hh).2.2 o j (by rw [o2.rows h hh]; omega) (by rw [o2.cols h hh]; exact Finset.mem_range.1 hj)]
    rw [Finset.sum_congr rfl e2, hes, Finset.sum_range_add]
    rw [Finset.sum_eq_zero (s := Finset.range (Q h).rows), add_zero]
    · refine Finset.sum_congr rfl fun j hj => ?_
      simp only [diag2, (hout h hh).1, (hout h hh).2, if_pos ho, if_pos (Finset.mem_range.1 hj)]
    · intro j _
      simp only [diag2, (hout h hh).1, (hout h hh).2, if_pos ho]
      rw [if_neg (by omega), zero_mul]
  refine hR _ _ fun j => ?_
  rw [hL, Finset.sum_range]

end Escnn.Fourier
