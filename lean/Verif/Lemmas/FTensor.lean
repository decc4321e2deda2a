import Verif.Model.FieldType
import Verif.Lemmas.MatAlg

/-!
# Linear maps along the channels of a tensor
-/

namespace Escnn

open NpMat

variable {B P : Type}

theorem FTensor.eqv_def {x y : FTensor B P} : x ≈ y ↔ x.chans = y.chans ∧ ∀ b c p, c < x.chans → x.get b c p = y.get b c p := Iff.rfl
@[refl] theorem FTensor.Eqv.refl (x : FTensor B P) : x ≈ x := ⟨rfl, fun _ _ _ _ => rfl⟩
@[symm] theorem FTensor.Eqv.symm {x y : FTensor B P} (h : x ≈ y) : y ≈ x := ⟨h.1.symm, fun b c p hc => (h.2 b c p (h.1 ▸ hc)).symm⟩
@[trans] theorem FTensor.Eqv.trans {x y z : FTensor B P} (h : x ≈ y) (h' : y ≈ z) : x ≈ z :=
  ⟨h.1.trans h'.1, fun b c p hc => (h.2 b c p hc).trans (h'.2 b c p (h.1 ▸ hc))⟩

/-- The values computed by `matChannels`. -/
def chanMul (M : NpMat ℝ) (x : FTensor B P) : FTensor B P :=
  ⟨M.rows, fun b o p => ∑ i ∈ Finset.range M.cols, M.get o i * x.get b i p⟩

theorem matChannels_ok {M : NpMat ℝ} {x : FTensor B P} (h : M.cols = x.chans) : matChannels M x = .ok (chanMul M x) := if_pos h
theorem matChannels_iff {M : NpMat ℝ} {x y : FTensor B P} : matChannels M x = .ok y ↔ M.cols = x.chans ∧ chanMul M x = y := by
  unfold matChannels chanMul
  split_ifs with h <;> simp [h]

theorem chanMul_congr {M N : NpMat ℝ} {x y : FTensor B P} (h : M ≈ N) (h' : x ≈ y) (hc : M.cols = x.chans) : chanMul M x ≈ chanMul N y := by
  refine ⟨h.1, fun b o p ho => ?_⟩
  simp only [chanMul]
  rw [← h.2.1]
  refine Finset.sum_congr rfl fun i hi => ?_
  rw [Finset.mem_range] at hi
  rw [h.2.2 o i ho hi, h'.2 b i p (hc ▸ hi)]

theorem chanMul_mul (M N : NpMat ℝ) (x : FTensor B P) : chanMul (mul M N) x ≈ chanMul M (chanMul N x) := by
  refine ⟨rfl, fun b o p _ => ?_⟩
  simp only [chanMul, mul, Finset.sum_mul, Finset.mul_sum]
  rw [Finset.sum_comm]
  exact Finset.sum_congr rfl fun _ _ => Finset.sum_congr rfl fun _ _ => by ring

theorem chanMul_eye (x : FTensor B P) : chanMul (eye x.chans) x ≈ x := by
  refine ⟨rfl, fun b o p ho => ?_⟩
  have ho' : o < x.chans := ho
  simp [chanMul, eye, ho']

/-- A block-diagonal array acts block by block. -/
theorem blockDiag_apply (L : List (NpMat ℝ)) (v : ℕ → ℝ) (k o : ℕ) (hk : k < L.length) (ho : o < L[k].rows) :
    ∑ i ∈ Finset.range (blockDiag L).cols, (blockDiag L).get (((L.take k).map rows).sum + o) i * v i =
      ∑ j ∈ Finset.range L[k].cols, L[k].get o j * v (((L.take k).map cols).sum + j) := by
  induction L generalizing k v with
  | nil => simp at hk
  | cons A L ih =>
    have e0 : ∀ x y, (blockDiag (A :: L)).get x y = if x < A.rows then (if y < A.cols then A.get x y else 0)
      else (if y < A.cols then 0 else (blockDiag L).get (x - A.rows) (y - A.cols)) := fun x y => rfl
    rw [show (blockDiag (A :: L)).cols = A.cols + (blockDiag L).cols from rfl, Finset.sum_range_add]
    cases k with
    | zero =>
      have ho' : o < A.rows := ho
      rw [Finset.sum_eq_zero (s := Finset.range (blockDiag L).cols), add_zero]
      · refine Finset.sum_congr rfl fun i hi => ?_
        rw [Finset.mem_range] at hi
        simp only [List.take_zero, List.map_nil, List.sum_nil, zero_add]
        rw [e0, if_pos ho', if_pos (show i < A.cols from hi)]
        rfl
      · intro i _
        simp only [List.take_zero, List.map_nil, List.sum_nil, zero_add]
        rw [e0, if_pos ho', if_neg (by omega), zero_mul]
    | succ k =>
      rw [Finset.sum_eq_zero (s := Finset.range A.cols), zero_add]
      · have := ih (fun j => v (A.cols + j)) k (by simpa using hk) ho
        simp only [List.take_succ_cons, List.map_cons, List.sum_cons, List.getElem_cons_succ]
        refine Eq.trans (Finset.sum_congr rfl fun i _ => ?_) (this.trans (Finset.sum_congr rfl fun j _ => ?_))
        · rw [e0, if_neg (by omega), if_neg (by omega)]
          congr 2 <;> omega
        · simp only [Nat.add_assoc]
      · intro i hi
        rw [Finset.mem_range] at hi
        simp only [List.take_succ_cons, List.map_cons, List.sum_cons]
        rw [e0, if_neg (by omega), if_pos hi, zero_mul]

end Escnn
