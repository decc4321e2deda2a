import Verif.Model.O3Coeff
import Verif.Props.C81_KernelsR3

/-!
# C81: the Clebsch–Gordan coefficients of O(3)
-/

namespace Escnn

open Quaternion NpMat

namespace O3

variable {W : ℕ → UQuat → NpMat ℝ} {M : ℕ}

theorem irrep_shape (j l : ℕ) (e : Elem) : (irrepMat W j l e).rows = (SO3.irrepMat W l e.2).rows ∧ (irrepMat W j l e).cols = (SO3.irrepMat W l e.2).cols ∧
    ∀ a b, a < (SO3.irrepMat W l e.2).rows → b < (SO3.irrepMat W l e.2).cols → (irrepMat W j l e).get a b = (SO3.irrepMat W l e.2).get a b * invAction j e := by
  by_cases hl : l = 0
  · subst hl
    by_cases hj : j = 0
    · subst hj
      simp [irrepMat, SO3.irrepMat, invAction]
    · simp only [irrepMat, SO3.irrepMat, hj, and_false, if_true, if_false]
      refine ⟨rfl, rfl, fun a b ha hb => ?_⟩
      obtain rfl : a = 0 := Nat.lt_one_iff.1 ha
      obtain rfl : b = 0 := Nat.lt_one_iff.1 hb
      simp [of1, eye]
  · simp [irrepMat, SO3.irrepMat, hl]

theorem invAction_add {e : Elem} (he : e.1 = 0 ∨ e.1 = 1) (i j : ℕ) : invAction ((i + j) % 2) e = invAction i e * invAction j e := by
  have hp : ∀ k, invAction (k % 2) e = invAction k e := fun k => by
    unfold invAction
    rcases he with h | h
    · simp [h]
    · simp only [h, ne_eq, one_ne_zero, not_false_eq_true, if_true]
      exact (neg_one_pow_eq_pow_mod_two k).symm
  rw [hp, invAction, invAction, invAction, pow_add]

/-- **C81** The coefficients of O(3) are those of SO(3): whenever the latter decompose the tensor product of the irreps of SO(3), the former exist for all the irreps in the tensor product and decompose the tensor product of the irreps of O(3). With another parity the call raises `TypeError` instead of returning an empty array. -/
theorem C81_o3_coefficients (hW : ∀ l, l ≠ 0 → l ≤ M → Wigner l (W l)) {cg₃ : ℕ → ℕ → ℕ → CGArray} {m n : ℕ × ℕ} (h : CGLaw (fun q => normSq q = 1) (SO3.table W M).ok (SO3.table W M).size (SO3.table W M).mat SO3.tensorIrreps cg₃ m.2 n.2) :
    (∀ e ∈ tensorIrreps m n, ∃ c, cgCoeff cg₃ m n e.1 = .ok c) ∧
    (∀ cg : ℕ × ℕ → ℕ × ℕ → ℕ × ℕ → CGArray, (∀ e ∈ tensorIrreps m n, cgCoeff cg₃ m n e.1 = .ok (cg m n e.1)) →
      CGLaw O3El (O3.table W M).ok (O3.table W M).size (O3.table W M).mat tensorIrreps cg m n) ∧
    ∀ j : ℕ × ℕ, (m.1 + n.1) % 2 ≠ j.1 → cgCoeff cg₃ m n j = .error .type := by
  have ht : tensorIrreps m n = (SO3.tensorIrreps m.2 n.2).map fun t => (((m.1 + n.1) % 2, t.1), t.2) := by
    simp [tensorIrreps, SO3.tensorIrreps, List.map_map, Function.comp_def]
  have hmem : ∀ e ∈ tensorIrreps m n, e.1.1 = (m.1 + n.1) % 2 ∧ (e.1.2, e.2) ∈ SO3.tensorIrreps m.2 n.2 := fun e he => by
    rw [ht, List.mem_map] at he
    obtain ⟨t, ht', rfl⟩ := he
    exact ⟨rfl, ht'⟩
  have hc : ∀ e ∈ tensorIrreps m n, cgCoeff cg₃ m n e.1 = .ok (cg₃ m.2 n.2 e.1.2) := fun e he => by
    rw [cgCoeff, if_pos (hmem e he).1.symm]
  refine ⟨fun e he => ⟨_, hc e he⟩, fun cg hcg => ?_, fun j hj => by rw [cgCoeff, if_neg hj]⟩
  have hg : ∀ e ∈ tensorIrreps m n, cg m n e.1 = cg₃ m.2 n.2 e.1.2 := fun e he => Except.ok.inj ((hcg e he).symm.trans (hc e he))
  refine ⟨?_, fun e he => ?_, fun e he => ?_, ?_, fun e he g hgE => ?_, fun p hp q hq s c s' c' h1 h2 h3 h4 => ?_⟩
  · have := h.nodup
    rw [ht, List.map_map]
    rw [show (Prod.fst ∘ fun t : ℕ × ℕ => (((m.1 + n.1) % 2, t.1), t.2)) = (fun l : ℕ => ((m.1 + n.1) % 2, l)) ∘ Prod.fst from rfl, ← List.map_map]
    exact this.map fun a b hab => (Prod.mk.inj hab).2
  · obtain ⟨h1, h2⟩ := hmem e he
    have h3 := h.ok _ h2
    have h4 : e.1.2 ≤ M := by simpa [SO3.table] using h3
    have h5 : e.1.1 ≤ 1 := by omega
    simp [O3.table, h4, h5]
  · rw [hg e he]
    exact h.mult _ (hmem e he).2
  · rw [ht, List.map_map]
    exact h.dim
  · obtain ⟨h1, h2⟩ := hmem e he
    rw [hg e he]
    have hi := h.intertwines _ h2 g.2 hgE.2
    obtain ⟨mr, mc, mg⟩ := irrep_shape (W := W) m.1 m.2 g
    obtain ⟨nr, nc, ng⟩ := irrep_shape (W := W) n.1 n.2 g
    obtain ⟨er, ec, eg⟩ := irrep_shape (W := W) e.1.1 e.1.2 g
    intro a b s c ha hb hs hcr
    change a < (irrepMat W m.1 m.2 g).rows at ha
    change b < (irrepMat W n.1 n.2 g).rows at hb
    change c < (irrepMat W e.1.1 e.1.2 g).rows at hcr
    change ∑ a' ∈ Finset.range (irrepMat W m.1 m.2 g).cols, ∑ b' ∈ Finset.range (irrepMat W n.1 n.2 g).cols, (irrepMat W m.1 m.2 g).get a a' * (irrepMat W n.1 n.2 g).get b b' * _ =
      ∑ c' ∈ Finset.range (irrepMat W e.1.1 e.1.2 g).rows, _ * (irrepMat W e.1.1 e.1.2 g).get c' c
    rw [mr] at ha
    rw [nr] at hb
    rw [er] at hcr
    rw [mc, nc, er]
    have key := hi a b s c ha hb hs hcr
    change ∑ a' ∈ Finset.range (SO3.irrepMat W m.2 g.2).cols, ∑ b' ∈ Finset.range (SO3.irrepMat W n.2 g.2).cols, (SO3.irrepMat W m.2 g.2).get a a' * (SO3.irrepMat W n.2 g.2).get b b' * _ =
      ∑ c' ∈ Finset.range (SO3.irrepMat W e.1.2 g.2).rows, _ * (SO3.irrepMat W e.1.2 g.2).get c' c at key
    have hsq : (SO3.irrepMat W e.1.2 g.2).rows = (SO3.irrepMat W e.1.2 g.2).cols := by
      have h4 : e.1.2 ≤ M := by simpa [SO3.table] using h.ok _ h2
      by_cases h0 : e.1.2 = 0
      · simp [SO3.irrepMat, h0, eye]
      · simp only [SO3.irrepMat, h0, if_false]
        rw [(hW _ h0 h4).rows _ hgE.2, (hW _ h0 h4).cols _ hgE.2]
    trans (∑ a' ∈ Finset.range (SO3.irrepMat W m.2 g.2).cols, ∑ b' ∈ Finset.range (SO3.irrepMat W n.2 g.2).cols, (SO3.irrepMat W m.2 g.2).get a a' * (SO3.irrepMat W n.2 g.2).get b b' * (cg₃ m.2 n.2 e.1.2).get a' b' s c) * (invAction m.1 g * invAction n.1 g)
    · rw [Finset.sum_mul]
      refine Finset.sum_congr rfl fun a' ha' => ?_
      rw [Finset.sum_mul]
      refine Finset.sum_congr rfl fun b' hb' => ?_
      rw [mg a a' ha (Finset.mem_range.1 ha'), ng b b' hb (Finset.mem_range.1 hb')]
      ring
    · rw [key, Finset.sum_mul]
      refine Finset.sum_congr rfl fun c' hc' => ?_
      rw [eg c' c (Finset.mem_range.1 hc') (hsq ▸ hcr), h1, invAction_add hgE.1]
      ring
  · rw [hg p hp, hg q hq]
    refine (h.ortho _ (hmem p hp).2 _ (hmem q hq).2 s c s' c' h1 h2 h3 h4).trans ?_
    have e1 := (hmem p hp).1
    have e2 := (hmem q hq).1
    refine if_congr ?_ rfl rfl
    simp only [Prod.mk.injEq, Prod.ext_iff, e1, e2, true_and]

example (cg : ℕ → ℕ → ℕ → CGArray) : cgCoeff cg (1, 1) (0, 1) (1, 2) = .ok (cg 1 1 2) ∧ cgCoeff cg (1, 1) (0, 1) (0, 2) = .error .type := ⟨rfl, rfl⟩

end O3

end Escnn
