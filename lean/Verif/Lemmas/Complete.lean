import Verif.Props.C67_Tensor
import Verif.Props.C61_Instances
import Verif.Lemmas.Kernels

/-!
# Tensors which commute with three irreps are combinations of Clebsch–Gordan coefficients
-/

namespace Escnn

open NpMat

/-- A sum over all channels, field by field. -/
theorem sum_range_fields {R : Type} (sz : R → ℕ) (f : ℕ → ℝ) : ∀ (L : List R) (p : ℕ), ∑ x ∈ Finset.range (L.map sz).sum, f (p + x) =
    ∑ k ∈ Finset.range L.length, ∑ o ∈ Finset.range ((L.map sz).getD k 0), f (p + (chanOffset sz L k + o))
  | [], _ => rfl
  | r :: L, p => by
    rw [List.map_cons, List.sum_cons, Finset.sum_range_add, List.length_cons, Finset.sum_range_succ']
    rw [add_comm]
    congr 1
    · have := sum_range_fields sz f L (p + sz r)
      simp only [add_assoc] at this ⊢
      rw [this]
      refine Finset.sum_congr rfl fun k _ => ?_
      rw [List.getD_cons_succ]
      refine Finset.sum_congr rfl fun o _ => ?_
      simp [chanOffset, add_assoc]
    · refine Finset.sum_congr rfl fun o _ => ?_
      simp [chanOffset]

/-- The rows of an intertwiner with orthogonal matrices. -/
theorem transpose_intertwines {K X R : NpMat ℝ} {N d : ℕ} (hK : IsOrtho K) (hKr : K.rows = N) (hR : IsOrtho R) (hRr : R.rows = d) (hX : X.rows = N ∧ X.cols = d) (h : mul K X ≈ mul X R) :
    mul (transpose X) K ≈ mul R (transpose X) := by
  have hKc : K.cols = N := hK.1 ▸ hKr
  have hRc : R.cols = d := hR.1 ▸ hRr
  obtain ⟨-, hK1, hK2⟩ := hK
  obtain ⟨-, hR1, hR2⟩ := hR
  rw [hKr] at hK1 hK2
  rw [hRr] at hR1 hR2
  -- Xᵀ Kᵀ = Rᵀ Xᵀ
  have h1 : mul (transpose X) (transpose K) ≈ mul (transpose R) (transpose X) :=
    (transpose_mul K X (by rw [hKc, hX.1])).symm.trans ((transpose_congr h).trans (transpose_mul X R (by rw [hX.2, hRr])))
  have h2 : mul (mul R (mul (transpose X) (transpose K))) K ≈ mul (mul R (mul (transpose R) (transpose X))) K :=
    mul_congr_left _ (mul_congr_right _ h1 (by rw [mul_rows, transpose_rows, hRc, hX.2])) (by rw [mul_cols, mul_cols, transpose_cols])
  have l : mul (mul R (mul (transpose X) (transpose K))) K ≈ mul R (transpose X) := by
    refine (mul_congr_left _ (mul_assoc' R (transpose X) (transpose K)).symm (by rw [mul_cols, mul_cols, transpose_cols])).trans ?_
    exact (mul_assoc' _ _ _).trans ((mul_congr_right _ hK2 (by rw [mul_cols, transpose_cols, mul_rows, transpose_rows, hX.1, hKc])).trans (mul_eye' _ (by rw [mul_cols, transpose_cols, hX.1])))
  have r : mul (mul R (mul (transpose R) (transpose X))) K ≈ mul (transpose X) K := by
    refine mul_congr_left _ ?_ (by rw [mul_cols, mul_cols, transpose_cols, hX.1, hKr])
    exact (mul_assoc' _ _ _).symm.trans ((mul_congr_left _ hR1 (by rw [mul_cols, transpose_cols, transpose_rows, hRr, hX.2])).trans (eye_mul' _ (by rw [transpose_rows, hX.2])))
  exact r.symm.trans (h2.symm.trans l)

namespace CGComplete

variable {G Id : Type} [DecidableEq Id] {T : IrrepTable G Id} {El : G → Prop} {op : G → G → G} {one : G} {tens : Id → Id → List (Id × ℕ)} {cg : Id → Id → Id → CGArray}

/-- The column of the copy `s` of an array. -/
def column (N d2 d : ℕ) (c : CGArray) (s : ℕ) : NpMat ℝ := ⟨N, d, fun r i => c.get (r / d2) (r % d2) s i⟩

/-- A tensor as a matrix. -/
def flatMat (N d2 d : ℕ) (f : ℕ → ℕ → ℕ → ℝ) : NpMat ℝ := ⟨N, d, fun r y => f (r / d2) (r % d2) y⟩

theorem column_intertwines {A B C : NpMat ℝ} {d1 d2 dj : ℕ} (hA : A.rows = d1 ∧ A.cols = d1) (hB : B.rows = d2 ∧ B.cols = d2) (hC : C.rows = dj ∧ C.cols = dj) {c : CGArray} (h : Intertwines A B C c) {s : ℕ} (hs : s < c.mult) :
    mul (kron A B) (column (d1 * d2) d2 dj c s) ≈ mul (column (d1 * d2) d2 dj c s) C := by
  refine ⟨by simp [kron, column, hA.1, hB.1], by simp [column, hC.2], fun r i hr hi => ?_⟩
  have hr : r < d1 * d2 := by simpa [kron, hA.1, hB.1] using hr
  have hi : i < dj := hi
  have hd2 : 0 < d2 := Nat.pos_of_ne_zero fun h => by simp [h] at hr
  have e := h (r / d2) (r % d2) s i (by rw [hA.1]; exact Nat.div_lt_of_lt_mul (by rwa [Nat.mul_comm])) (by rw [hB.1]; exact Nat.mod_lt _ hd2) hs (by rw [hC.1]; exact hi)
  simp only [mul, column, kron]
  rw [hA.2, hB.2, hB.1, sum_range_mul' d1 d2 (fun a b => A.get (r / d2) a * B.get (r % d2) b * c.get a b s i)]
  rw [hA.2, hB.2, hC.1] at e
  exact e

theorem flat_steer {A B R : NpMat ℝ} {d1 d2 dj : ℕ} (hA : A.rows = d1 ∧ A.cols = d1) (hB : B.rows = d2 ∧ B.cols = d2) (hR : R.rows = dj ∧ R.cols = dj) (hBo : IsOrtho B) {f : ℕ → ℕ → ℕ → ℝ}
    (h : CoeffSteer A B R f) : mul (kron A B) (flatMat (d1 * d2) d2 dj f) ≈ mul (flatMat (d1 * d2) d2 dj f) R := by
  refine ⟨by simp [kron, flatMat, hA.1, hB.1], by simp [flatMat, hR.2], fun r z hr hz => ?_⟩
  have hr : r < d1 * d2 := by simpa [kron, hA.1, hB.1] using hr
  have hz : z < dj := hz
  have hd2 : 0 < d2 := Nat.pos_of_ne_zero fun h => by simp [h] at hr
  set p := r / d2 with hp
  set q := r % d2 with hq
  have hp' : p < d1 := Nat.div_lt_of_lt_mul (by rwa [Nat.mul_comm])
  have hq' : q < d2 := Nat.mod_lt _ hd2
  have key : ∀ q'' < d2, ∑ q' ∈ Finset.range d2, (∑ y ∈ Finset.range dj, f p q' y * R.get y z) * B.get q' q'' = ∑ p' ∈ Finset.range d1, A.get p p' * f p' q'' z := by
    intro q'' hq''
    have := h (fun y => if y = z then 1 else 0) (fun y => R.get y z) (fun y _ => by
      rw [Finset.sum_eq_single z (fun b _ hb => by rw [if_neg hb, mul_zero]) (fun hb => absurd (Finset.mem_range.2 (hR.2 ▸ hz)) hb), if_pos rfl, mul_one]) p (hA.1 ▸ hp') q'' (hB.2 ▸ hq'')
    rw [hB.1, hA.2, hR.1] at this
    rw [this]
    refine Finset.sum_congr rfl fun p' _ => ?_
    rw [Finset.sum_eq_single z (fun b _ hb => by rw [if_neg hb, mul_zero]) (fun hb => absurd (Finset.mem_range.2 hz) hb), if_pos rfl, mul_one]
  have horth : ∀ q' < d2, ∑ q'' ∈ Finset.range d2, B.get q' q'' * B.get q q'' = if q' = q then 1 else 0 := fun q' hq2 => by
    have := hBo.2.1.2.2 q' q (by rw [mul_rows, hB.1]; exact hq2) (by rw [mul_cols, transpose_cols, hB.1]; exact hq')
    simp only [mul, transpose] at this
    rw [hB.2] at this
    rw [this]; rfl
  simp only [mul, flatMat, kron]
  rw [hA.2, hB.2, hB.1, sum_range_mul' d1 d2 (fun a b => A.get (r / d2) a * B.get (r % d2) b * f a b z), ← hp, ← hq]
  symm
  calc ∑ y ∈ Finset.range dj, f p q y * R.get y z
      = ∑ q' ∈ Finset.range d2, (∑ y ∈ Finset.range dj, f p q' y * R.get y z) * (if q' = q then 1 else 0) := by
        rw [Finset.sum_eq_single q (fun b _ hb => by rw [if_neg hb, mul_zero]) (fun hb => absurd (Finset.mem_range.2 hq') hb), if_pos rfl, mul_one]
    _ = ∑ q' ∈ Finset.range d2, ∑ q'' ∈ Finset.range d2, (∑ y ∈ Finset.range dj, f p q' y * R.get y z) * B.get q' q'' * B.get q q'' := by
        refine Finset.sum_congr rfl fun q' hq2 => ?_
        rw [← horth q' (Finset.mem_range.1 hq2), Finset.mul_sum]
        exact Finset.sum_congr rfl fun _ _ => by ring
    _ = ∑ q'' ∈ Finset.range d2, (∑ p' ∈ Finset.range d1, A.get p p' * f p' q'' z) * B.get q q'' := by
        rw [Finset.sum_comm]
        refine Finset.sum_congr rfl fun q'' hq2 => ?_
        rw [← key q'' (Finset.mem_range.1 hq2), Finset.sum_mul]
    _ = _ := by
        simp only [Finset.sum_mul]
        rw [Finset.sum_comm]
        exact Finset.sum_congr rfl fun _ _ => Finset.sum_congr rfl fun _ _ => by ring

/-- The component of a tensor along the copy `s` of an irrep. -/
noncomputable def component (d1 d2 d dj : ℕ) (c : CGArray) (s : ℕ) (f : ℕ → ℕ → ℕ → ℝ) : NpMat ℝ := mul (transpose (column (d1 * d2) d2 d c s)) (flatMat (d1 * d2) d2 dj f)

/-- The components intertwine. -/
theorem component_intertwines {A B R C : NpMat ℝ} {d1 d2 dj d : ℕ} (hA : A.rows = d1 ∧ A.cols = d1) (hB : B.rows = d2 ∧ B.cols = d2) (hR : R.rows = dj ∧ R.cols = dj) (hC : C.rows = d ∧ C.cols = d)
    (hAo : IsOrtho A) (hBo : IsOrtho B) (hCo : IsOrtho C) {c : CGArray} (h : Intertwines A B C c) {s : ℕ} (hs : s < c.mult) {f : ℕ → ℕ → ℕ → ℝ} (hf : CoeffSteer A B R f) :
    mul (component d1 d2 d dj c s f) R ≈ mul C (component d1 d2 d dj c s f) := by
  have h1 := transpose_intertwines (hAo.kron hBo) (by rw [kron_rows, hA.1, hB.1]; rfl) hCo hC.1 ⟨rfl, rfl⟩ (column_intertwines hA hB hC h hs)
  have h2 := flat_steer hA hB hR hBo hf
  refine (mul_assoc' _ _ _).trans ((mul_congr_right _ h2.symm ?_).trans ?_)
  · rw [transpose_cols, mul_rows]; rfl
  · refine (mul_assoc' _ _ _).symm.trans ((mul_congr_left _ h1 ?_).trans (mul_assoc' _ _ _))
    rw [mul_cols, kron_cols, hA.2, hB.2]; rfl

/-- A tensor is the sum of its components. -/
theorem resolution {m n : Id} (h : CGLaw El T.ok T.size T.mat tens cg m n) (dj : ℕ) (f : ℕ → ℕ → ℕ → ℝ) {p q y : ℕ} (hp : p < T.size m) (hq : q < T.size n) :
    f p q y = ∑ k ∈ Finset.range (tens m n).length, ∑ o ∈ Finset.range (((tens m n).map fun e => T.size e.1 * e.2).getD k 0),
      (TensorRep.pairMat T tens cg m n).get (p * T.size n + q) (chanOffset (fun e => T.size e.1 * e.2) (tens m n) k + o) *
        ∑ r ∈ Finset.range (T.size m * T.size n), (TensorRep.pairMat T tens cg m n).get r (chanOffset (fun e => T.size e.1 * e.2) (tens m n) k + o) * f (r / T.size n) (r % T.size n) y := by
  obtain ⟨hr, hc⟩ := TensorRep.pairMat_shape h
  have ho := TensorRep.pairMat_ortho h
  have hrow : p * T.size n + q < T.size m * T.size n := mul_add_lt hp hq
  have key : ∀ r < T.size m * T.size n, ∑ x ∈ Finset.range (T.size m * T.size n), (TensorRep.pairMat T tens cg m n).get (p * T.size n + q) x * (TensorRep.pairMat T tens cg m n).get r x =
      if p * T.size n + q = r then 1 else 0 := fun r hr' => by
    have := ho.2.1.2.2 (p * T.size n + q) r (by rw [mul_rows, hr]; exact hrow) (by rw [mul_cols, transpose_cols, hr]; exact hr')
    simp only [mul, transpose] at this
    rw [hc] at this
    rw [this]; rfl
  have hs := sum_range_fields (fun e : Id × ℕ => T.size e.1 * e.2) (fun x => (TensorRep.pairMat T tens cg m n).get (p * T.size n + q) x *
      ∑ r ∈ Finset.range (T.size m * T.size n), (TensorRep.pairMat T tens cg m n).get r x * f (r / T.size n) (r % T.size n) y) (tens m n) 0
  simp only [zero_add] at hs
  rw [← hs, h.dim]
  simp only [Finset.mul_sum]
  rw [Finset.sum_comm]
  have : ∀ r ∈ Finset.range (T.size m * T.size n), ∑ x ∈ Finset.range (T.size m * T.size n), (TensorRep.pairMat T tens cg m n).get (p * T.size n + q) x *
      ((TensorRep.pairMat T tens cg m n).get r x * f (r / T.size n) (r % T.size n) y) = (if p * T.size n + q = r then 1 else 0) * f (r / T.size n) (r % T.size n) y := fun r hr' => by
    rw [← key r (Finset.mem_range.1 hr'), Finset.sum_mul]
    exact Finset.sum_congr rfl fun _ _ => by ring
  rw [Finset.sum_congr rfl this, Finset.sum_eq_single (p * T.size n + q) (fun b _ hb => by rw [if_neg (Ne.symm hb), zero_mul]) (fun hb => absurd (Finset.mem_range.2 hrow) hb), if_pos rfl, one_mul,
    mul_add_div' hq, mul_add_mod'' hq]

theorem pairMat_get {m n : Id} {k : ℕ} {e : Id × ℕ} (hk : (tens m n)[k]? = some e) {o : ℕ} (ho : o < T.size e.1 * e.2) (r : ℕ) :
    (TensorRep.pairMat T tens cg m n).get r (chanOffset (fun e => T.size e.1 * e.2) (tens m n) k + o) = (cg m n e.1).get (r / T.size n) (r % T.size n) (o / T.size e.1) (o % T.size e.1) := by
  obtain ⟨-, hget⟩ := TensorRep.hcats_get (fun e : Id × ℕ => TensorRep.cgMat (T.size m * T.size n) (T.size n) (T.size e.1) e.2 (cg m n e.1)) (tens m n) ⟨T.size m * T.size n, 0, fun _ _ => 0⟩
  have := hget k e hk r o ho
  rwa [zero_add] at this

/-- All irreps of the table are inequivalent and their endomorphisms are known. -/
structure Schur (T : IrrepTable G Id) (typ : Id → IrrType) (El : G → Prop) : Prop where
  type : ∀ j, T.ok j = true → HasType El (T.mat j) (typ j) (T.size j)
  ineq : ∀ i j, T.ok i = true → T.ok j = true → i ≠ j → Inequivalent El (T.mat i) (T.mat j) (T.size i) (T.size j)

/-- The tensors which commute with the irreps `m`, `n`, `j` are combinations of the coefficients of the basis. -/
theorem tensor_complete {typ : Id → IrrType} (hT : T.Valid El op one) (hS : Schur T typ El) {m n j : Id} (hm : T.ok m = true) (hn : T.ok n = true) (hj : T.ok j = true) (h : CGLaw El T.ok T.size T.mat tens cg m n)
    {f : ℕ → ℕ → ℕ → ℝ} (hf : ∀ g, El g → CoeffSteer (T.mat m g) (T.mat n g) (T.mat j g) f) :
    (j ∉ (tens m n).map Prod.fst → ∀ p < T.size m, ∀ q < T.size n, ∀ y < T.size j, f p q y = 0) ∧
    ∀ M, (j, M) ∈ tens m n → ∃ w : ℕ → ℕ → ℝ, ∀ p < T.size m, ∀ q < T.size n, ∀ y < T.size j,
      f p q y = ∑ s ∈ Finset.range M, ∑ k ∈ Finset.range (typ j).sumsq, w s k * WE.coeff (T.size j) (cg m n j) ((endoBasis (typ j) (T.size j)).getD k (zeros 0 0)) s p q y := by
  have sh : ∀ {i}, T.ok i = true → ∀ {g}, El g → (T.mat i g).rows = T.size i ∧ (T.mat i g).cols = T.size i := fun hi _ hg => ⟨(hT _ hi).rows _ hg, (hT _ hi).cols _ hg⟩
  have hcomp : ∀ e ∈ tens m n, ∀ s < e.2, ∀ g, El g →
      mul (component (T.size m) (T.size n) (T.size e.1) (T.size j) (cg m n e.1) s f) (T.mat j g) ≈ mul (T.mat e.1 g) (component (T.size m) (T.size n) (T.size e.1) (T.size j) (cg m n e.1) s f) := fun e he s hs g hg =>
    component_intertwines (sh hm hg) (sh hn hg) (sh hj hg) (sh (h.ok e he) hg) ((hT m hm).ortho g hg) ((hT n hn).ortho g hg) ((hT _ (h.ok e he)).ortho g hg) (h.intertwines e he g hg)
      (by rw [h.mult e he]; exact hs) (hf g hg)
  have hzero : ∀ e ∈ tens m n, e.1 ≠ j → ∀ s < e.2, ∀ i < T.size e.1, ∀ y < T.size j, (component (T.size m) (T.size n) (T.size e.1) (T.size j) (cg m n e.1) s f).get i y = 0 := fun e he hne s hs i hi y hy =>
    (hS.ineq j e.1 hj (h.ok e he) (Ne.symm hne) _ rfl rfl (hcomp e he s hs)).2.2 i y hi hy
  -- the summand of the irrep `e`
  have hterm : ∀ (k : ℕ) (e : Id × ℕ), (tens m n)[k]? = some e → ∀ p < T.size m, ∀ q < T.size n, ∀ y,
      ∑ o ∈ Finset.range (((tens m n).map fun e => T.size e.1 * e.2).getD k 0), (TensorRep.pairMat T tens cg m n).get (p * T.size n + q) (chanOffset (fun e => T.size e.1 * e.2) (tens m n) k + o) *
        ∑ r ∈ Finset.range (T.size m * T.size n), (TensorRep.pairMat T tens cg m n).get r (chanOffset (fun e => T.size e.1 * e.2) (tens m n) k + o) * f (r / T.size n) (r % T.size n) y =
      ∑ s ∈ Finset.range e.2, ∑ i ∈ Finset.range (T.size e.1), (cg m n e.1).get p q s i * (component (T.size m) (T.size n) (T.size e.1) (T.size j) (cg m n e.1) s f).get i y := by
    intro k e hk p hp q hq y
    have hd : ((tens m n).map fun e => T.size e.1 * e.2).getD k 0 = T.size e.1 * e.2 := by rw [List.getD_eq_getElem?_getD, List.getElem?_map, hk]; rfl
    rw [hd]
    have h1 : ∀ o ∈ Finset.range (T.size e.1 * e.2), (TensorRep.pairMat T tens cg m n).get (p * T.size n + q) (chanOffset (fun e => T.size e.1 * e.2) (tens m n) k + o) *
        ∑ r ∈ Finset.range (T.size m * T.size n), (TensorRep.pairMat T tens cg m n).get r (chanOffset (fun e => T.size e.1 * e.2) (tens m n) k + o) * f (r / T.size n) (r % T.size n) y =
        (fun s i => (cg m n e.1).get p q s i * (component (T.size m) (T.size n) (T.size e.1) (T.size j) (cg m n e.1) s f).get i y) (o / T.size e.1) (o % T.size e.1) := fun o ho => by
      rw [Finset.mem_range] at ho
      rw [pairMat_get hk ho, mul_add_div' hq, mul_add_mod'' hq]
      simp only [component, mul, transpose, column, flatMat]
      congr 1
      exact Finset.sum_congr rfl fun r _ => by rw [pairMat_get hk ho]
    rw [Finset.sum_congr rfl h1, Nat.mul_comm (T.size e.1), sum_range_mul' e.2 (T.size e.1) (fun s i => (cg m n e.1).get p q s i * (component (T.size m) (T.size n) (T.size e.1) (T.size j) (cg m n e.1) s f).get i y)]
  have hvan : ∀ (k : ℕ) (e : Id × ℕ), (tens m n)[k]? = some e → e.1 ≠ j → ∀ p < T.size m, ∀ q < T.size n, ∀ y < T.size j,
      ∑ s ∈ Finset.range e.2, ∑ i ∈ Finset.range (T.size e.1), (cg m n e.1).get p q s i * (component (T.size m) (T.size n) (T.size e.1) (T.size j) (cg m n e.1) s f).get i y = 0 :=
    fun k e hk hne p hp q hq y hy => Finset.sum_eq_zero fun s hs => Finset.sum_eq_zero fun i hi => by
      rw [hzero e (List.mem_of_getElem? hk) hne s (Finset.mem_range.1 hs) i (Finset.mem_range.1 hi) y hy, mul_zero]
  constructor
  · intro hnot p hp q hq y hy
    rw [resolution h (T.size j) f hp hq]
    refine Finset.sum_eq_zero fun k hk => ?_
    have hk' := List.getElem?_eq_getElem (Finset.mem_range.1 hk)
    rw [hterm k _ hk' p hp q hq y]
    exact hvan k _ hk' (fun he => hnot (List.mem_map.2 ⟨_, List.mem_of_getElem? hk', he⟩)) p hp q hq y hy
  · intro M hM
    obtain ⟨k0, hk0⟩ := List.mem_iff_getElem?.1 hM
    have hcs : ∀ s, ∃ c : ℕ → ℝ, s < M → ∀ y i, y < T.size j → i < T.size j → (component (T.size m) (T.size n) (T.size j) (T.size j) (cg m n j) s f).get i y =
        ∑ k ∈ Finset.range (typ j).sumsq, c k * ((endoBasis (typ j) (T.size j)).getD k (zeros 0 0)).get y i := by
      intro s
      by_cases hs : s < M
      · obtain ⟨c, hc⟩ := (hS.type j hj).full (transpose (component (T.size m) (T.size n) (T.size j) (T.size j) (cg m n j) s f)) rfl rfl fun g hg => by
          have e := endo_transpose (sh hj hg).1 ((hT j hj).ortho g hg) (E := component (T.size m) (T.size n) (T.size j) (T.size j) (cg m n j) s f) rfl rfl (hcomp _ hM s hs g hg).symm
          refine ⟨(sh hj hg).1.symm, (sh hj hg).2, fun a b ha hb => ?_⟩
          have := e a ha b (by rw [mul_cols, (sh hj hg).2] at hb; exact hb)
          simp only [mul, transpose]
          rw [(sh hj hg).2]
          exact this
        exact ⟨c, fun _ y i hy hi => hc y i hy hi⟩
      · exact ⟨fun _ => 0, fun h => absurd h hs⟩
    choose w hw using hcs
    refine ⟨w, fun p hp q hq y hy => ?_⟩
    rw [resolution h (T.size j) f hp hq]
    rw [Finset.sum_eq_single k0]
    · rw [hterm k0 _ hk0 p hp q hq y]
      refine Finset.sum_congr rfl fun s hs => ?_
      simp only [WE.coeff, Finset.mul_sum]
      rw [Finset.sum_comm]
      refine Finset.sum_congr rfl fun i hi => ?_
      rw [hw s (Finset.mem_range.1 hs) y i hy (Finset.mem_range.1 hi), Finset.mul_sum]
      exact Finset.sum_congr rfl fun _ _ => by ring
    · intro k hk hne
      have hk' := List.getElem?_eq_getElem (Finset.mem_range.1 hk)
      rw [hterm k _ hk' p hp q hq y]
      refine hvan k _ hk' (fun he => hne ?_) p hp q hq y hy
      have a1 : ((tens m n).map Prod.fst)[k]? = some j := by rw [List.getElem?_map, hk', Option.map_some, he]
      have a2 : ((tens m n).map Prod.fst)[k0]? = some j := by rw [List.getElem?_map, hk0]; rfl
      exact (List.getElem?_inj (by obtain ⟨hh, -⟩ := List.getElem?_eq_some_iff.1 a1; exact hh) h.nodup).1 (a1.trans a2.symm)
    · intro hn
      exact absurd (Finset.mem_range.2 (List.getElem?_eq_some_iff.1 hk0).1) hn

end CGComplete

end Escnn
