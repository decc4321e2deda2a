import Verif.Lemmas.CGReal
import Verif.Lemmas.Kron
import Verif.Props.C83_Numerical

/-!
# The number of intertwiners of a finite group, from the characters
-/

namespace Escnn

open NpMat CGComplete

variable {G Id : Type} {T : IrrepTable G Id} {els : List G} {op : G → G → G} {inv : G → G} {one : G}

/-- The dimension of the space of intertwiners of two representations. -/
theorem hom_count (hG : FinGroup els op inv one) {n d : ℕ} {σ ρ : G → NpMat ℝ} (hσ : OrthoRep (· ∈ els) op one n σ) (hρ : OrthoRep (· ∈ els) op one d ρ) {B : NpMat ℝ} (hr : B.rows = d * n)
    (hB : OrthoCols B) (h : ∀ v, InSpan B v ↔ ∀ g ∈ els, mul (σ g) (unflatF n d v) ≈ mul (unflatF n d v) (ρ g)) :
    (B.cols : ℝ) * els.length = (els.map fun g => trace (ρ g) * trace (σ g)).sum := by
  rw [invariants_trace hG (hρ.tensor hσ) hr hB fun v => ?_]
  · exact congrArg List.sum (List.map_congr_left fun g hg => trace_kron _ _ (by rw [hρ.rows g hg, hρ.cols g hg]) (by rw [hσ.rows g hg, hσ.cols g hg]))
  · rw [h]
    refine forall₂_congr fun g hg => ?_
    exact (intertwine_iff_invariant ⟨hσ.rows g hg, hσ.cols g hg⟩ ⟨hρ.rows g hg, hρ.cols g hg⟩ (hρ.ortho g hg) v).symm

/-- Representations with orthogonal characters are inequivalent. -/
theorem inequivalent_of_char (hG : FinGroup els op inv one) {n d : ℕ} {σ ρ : G → NpMat ℝ} (hσ : OrthoRep (· ∈ els) op one n σ) (hρ : OrthoRep (· ∈ els) op one d ρ)
    (h : (els.map fun g => trace (ρ g) * trace (σ g)).sum = 0) : Inequivalent (· ∈ els) ρ σ d n := by
  have hn : (els.length : ℝ) ≠ 0 := by exact_mod_cast hG.length_pos.ne'
  have h0 : els ≠ [] := List.length_pos_iff.1 hG.length_pos
  obtain ⟨C, -, hcols, hker⟩ := buildSylvester_spec (rho₁ := els.map σ) (rho₂ := els.map ρ) (d₁ := n) (d₂ := d)
    (by
      intro A hA
      obtain ⟨g, hg, rfl⟩ := List.mem_map.1 hA
      exact ⟨hσ.rows g hg, hσ.cols g hg⟩)
    (by
      intro A hA
      obtain ⟨g, hg, rfl⟩ := List.mem_map.1 hA
      exact ⟨hρ.rows g hg, hρ.cols g hg⟩)
    (by simp) (by simpa using h0)
  obtain ⟨B, hr, hsp, hor⟩ := exists_null C
  have hB : ∀ v, InSpan B v ↔ ∀ g ∈ els, mul (σ g) (unflatF n d v) ≈ mul (unflatF n d v) (ρ g) := fun v => by
    rw [← hsp, hker, List.zip_map', List.forall_mem_map]
  have hc := hom_count hG hσ hρ (by rw [hr, hcols]) hor hB
  rw [h] at hc
  have hc0 : B.cols = 0 := by exact_mod_cast (mul_eq_zero.1 hc).resolve_right hn
  intro M hMr hMc hM
  have hu : unflatF n d (fun a => M.get (a % n) (a / n)) ≈ M := by
    refine ⟨hMr.symm, hMc.symm, fun r c hr hc => ?_⟩
    have hr : r < n := hr
    show M.get ((c * n + r) % n) ((c * n + r) / n) = _
    rw [mul_add_div' hr, mul_add_mod'' hr]
  have hs : InSpan B fun a => M.get (a % n) (a / n) := by
    rw [hB]
    intro g hg
    refine (mul_congr_right _ hu (hσ.cols g hg)).trans ((hM g hg).symm.trans (mul_congr_left _ hu.symm ?_))
    rw [hρ.rows g hg, hMc]
  obtain ⟨x, hx⟩ := hs
  refine ⟨hMr, hMc, fun r c hr' hc' => ?_⟩
  rw [hMr] at hr'
  rw [hMc] at hc'
  have := hx (c * n + r) (by rw [hr, hcols]; exact mul_add_lt hc' hr')
  dsimp only at this
  rw [hc0, mul_add_div' hr', mul_add_mod'' hr'] at this
  simpa [zeros] using this

theorem cgDecomposeLoop_total {size : Id → ℕ} {cg : Id → Except Err CGArray} {m : Id → ℕ} : ∀ {ids : List Id}, (∀ j ∈ ids, ∃ A, cg j = .ok A ∧ A.mult = m j) →
    ∃ L, cgDecomposeLoop size cg ids = .ok (L, (ids.map fun j => size j * m j).sum)
  | [], _ => ⟨[], rfl⟩
  | j :: ids, h => by
    obtain ⟨A, hA, hm⟩ := h j (by simp)
    obtain ⟨L, hL⟩ := cgDecomposeLoop_total (size := size) (ids := ids) fun i hi => h i (by simp [hi])
    refine ⟨if 0 < A.mult then (j, A.mult) :: L else L, ?_⟩
    rw [cgDecomposeLoop, hA]
    simp only [bind, Except.bind, hL, List.map_cons, List.sum_cons, hm]

end Escnn
