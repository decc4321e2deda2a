import Verif.Props.C43_Plane
import Verif.Props.C49_Norm

/-!
# Examples: irreps of `C_4`, and a representation of `C_4` which is not orthogonal
-/

namespace Escnn

open NpMat Real

/-- The irrep 1 of `C_4` in the basis `(1, 0), (0, 2)`. -/
noncomputable def stretchRep : Rep ℤ ℕ := ⟨"stretch", [1], of2 1 0 0 2, of2 1 0 0 (1 / 2), fun g => mul (mul (of2 1 0 0 2) (blockDiag ([1].map fun i => (Cyclic.table 4).mat i g))) (of2 1 0 0 (1 / 2)), ∅⟩

theorem stretchRep_size : stretchRep.size = 2 := rfl

theorem stretchRep_wf : stretchRep.WF (Cyclic.table 4) fun g => Cyclic.isElement 4 g = true := by
  refine ⟨by rw [stretchRep_size]; norm_num, ⟨rfl, rfl, rfl, ⟨rfl, rfl, ?_⟩, ⟨rfl, rfl, ?_⟩⟩, ?_, ?_, fun g _ => Eqv.refl _⟩
  · intro i j hi hj
    have hi : i < 2 := hi
    have hj : j < 2 := hj
    interval_cases i <;> interval_cases j <;> simp [stretchRep, mul, of2, eye, Finset.sum_range_succ]
  · intro i j hi hj
    have hi : i < 2 := hi
    have hj : j < 2 := hj
    interval_cases i <;> interval_cases j <;> simp [stretchRep, mul, of2, eye, Finset.sum_range_succ]
  · intro i hi
    simp only [stretchRep, List.mem_singleton] at hi
    subst hi
    rfl
  · rfl

/-- The matrix of the rotation by a quarter. -/
theorem stretchRep_one : (stretchRep.mat 1).get 0 0 = 0 ∧ (stretchRep.mat 1).get 0 1 = -(1 / 2) ∧ (stretchRep.mat 1).get 1 0 = 2 ∧ (stretchRep.mat 1).get 1 1 = 0 := by
  have h : Cyclic.radians 4 1 = π / 2 := by
    unfold Cyclic.radians
    push_cast
    ring
  have e : ∀ i j, (blockDiag ([1].map fun i => (Cyclic.table 4).mat i 1)).get i j = if i < 2 ∧ j < 2 then (psi (π / 2) 1).get i j else 0 := by
    intro i j
    have : (Cyclic.table 4).mat 1 1 = psi (π / 2) 1 := by
      show Cyclic.irrepMat 4 1 1 = _
      rw [Cyclic.irrepMat, if_neg (by norm_num), if_neg (by norm_num), h]
    simp only [List.map_cons, List.map_nil, blockDiag, diag2, this]
    by_cases hi : i < 2 <;> by_cases hj : j < 2 <;> simp [hi, hj, psi, zeros]
  refine ⟨?_, ?_, ?_, ?_⟩ <;>
  · have hc : (blockDiag ([1].map fun i => (Cyclic.table 4).mat i 1)).cols = 2 := rfl
    simp only [stretchRep, mul, of2_cols, e]
    rw [hc]
    simp [of2, psi, Finset.sum_range_succ]

theorem convDemo_orth : Orthogonal (fun g => Cyclic.isElement 4 g = true) convDemo := by
  intro r hr g hg
  simp only [convDemo, List.mem_cons, List.not_mem_nil, or_false] at hr
  have key : ∀ j, (Cyclic.table 4).ok j = true → IsOrthMat ((Cyclic.table 4).size j) ((Cyclic.table 4).mat j g) := fun j hj =>
    (((Cyclic.table_valid 4 (by norm_num)) j hj).ortho g hg).mat (((Cyclic.table_valid 4 (by norm_num)) j hj).rows g hg) (((Cyclic.table_valid 4 (by norm_num)) j hj).cols g hg)
  rcases hr with rfl | rfl
  · exact key 0 rfl
  · exact key 1 rfl

theorem convDemo_names : (∀ r ∈ convDemo.reprs, ∀ r' ∈ convDemo.reprs, r.name = r'.name → r = r') ∧ convDemo.reprs.Nodup := by
  refine ⟨?_, ?_⟩
  · intro r hr r' hr' h
    simp only [convDemo, List.mem_cons, List.not_mem_nil, or_false] at hr hr'
    rcases hr with rfl | rfl <;> rcases hr' with rfl | rfl
    · rfl
    · exact absurd h (by decide)
    · exact absurd h (by decide)
    · rfl
  · refine List.Nodup.of_map Rep.name ?_
    decide

end Escnn
