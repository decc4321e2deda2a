import Verif.Spec.Subgroup
import Verif.Props.C01_Cyclic

/-!
# C05 — subgroups of cyclic groups
-/

namespace Escnn.Cyclic

theorem element_ok {N : ℕ} {e : ℤ} (h : isElement N e = true) : element N e = .ok e := by simp [element, h]

theorem element_eq_ok_iff {N : ℕ} {e g : ℤ} : element N e = .ok g ↔ isElement N e = true ∧ e = g := by
  unfold element; split <;> simp_all

theorem mul_div_ratio {M r : ℕ} (hM : 0 < M) (e : ℤ) : e * ((M * r : ℕ) : ℤ) / (M : ℤ) = e * r := by
  have h : (M : ℤ) ≠ 0 := by exact_mod_cast hM.ne'
  push_cast
  rw [show e * ((M : ℤ) * r) = (e * r) * M by ring, Int.mul_ediv_cancel _ h]

/-- **C05** For every accepted id `M` (a divisor of `N`), `C_N.subgroup(M)` returns an injective homomorphism
`C_M → C_N` and its exact partial inverse. -/
theorem C05_cyclic_subgroup (N M : ℕ) (hN : 0 < N) (hid : subgroupIdOk N M = true) :
    SubgroupMaps (isElement N) (combine N) (isElement M) (combine M) (parentMap N M) (childMap N M) := by
  obtain ⟨hM, hdvd⟩ : 0 < M ∧ N % M = 0 := by simpa [subgroupIdOk] using hid
  obtain ⟨r, rfl⟩ := Nat.dvd_of_mod_eq_zero hdvd
  have hr : 0 < r := Nat.pos_of_mul_pos_left hN |> fun _ => by
    rcases Nat.eq_zero_or_pos r with h | h
    · simp [h] at hN
    · exact h
  have hr' : (0 : ℤ) < r := by exact_mod_cast hr
  have hM' : (0 : ℤ) < M := by exact_mod_cast hM
  have hratio : ((M * r : ℕ) : ℤ) / (M : ℤ) = r := by push_cast; exact Int.mul_ediv_cancel_left _ hM'.ne'
  have hel : ∀ h : ℤ, isElement M h = true → isElement (M * r) (h * r) = true := by
    intro h hh
    obtain ⟨h0, h1⟩ := isElement_iff.1 hh
    exact isElement_iff.2 ⟨by positivity, by push_cast; nlinarith⟩
  have hparent : ∀ h : ℤ, isElement M h = true → parentMap (M * r) M h = .ok (h * r) := by
    intro h hh
    rw [parentMap, mul_div_ratio hM, element_ok (hel h hh)]
  refine ⟨?_, ?_, ?_, ?_, ?_⟩
  · intro h hh; exact ⟨_, hparent h hh, hel h hh⟩
  · intro h h' g g' hh hh' hg hg'
    rw [hparent h hh] at hg; rw [hparent h' hh'] at hg'
    cases hg; cases hg'
    have hc : isElement M (combine M h h') = true := isElement_emod hM _
    rw [hparent _ hc]
    congr 1
    simp only [combine]
    push_cast
    rw [← add_mul, mul_comm (M : ℤ) r, mul_comm (h + h') (r : ℤ), Int.mul_emod_mul_of_pos _ _ hr', mul_comm]
  · intro h h' hh hh' heq
    rw [hparent h hh, hparent h' hh'] at heq
    have : h * r = h' * (r : ℤ) := by simpa using heq
    exact mul_right_cancel₀ hr'.ne' this
  · intro h g hh hg
    rw [hparent h hh] at hg; cases hg
    rw [childMap]
    simp only [hratio]
    simp [Int.mul_ediv_cancel _ hr'.ne', element, hh, Except.map]
  · intro g hg hno
    rw [childMap]
    simp only [hratio]
    split
    · rfl
    · rename_i h
      exfalso
      have h : g % (r : ℤ) = 0 := by simpa using h
      obtain ⟨k, rfl⟩ := Int.dvd_of_emod_eq_zero h
      obtain ⟨h0, h1⟩ := isElement_iff.1 hg
      have hk : isElement M k = true := by
        refine isElement_iff.2 ⟨by nlinarith, ?_⟩
        push_cast at h1
        nlinarith
      exact hno k hk (by rw [hparent k hk, mul_comm])

/-- Ids that do not divide the order are rejected by the code's assertion. -/
theorem C05_rejects (N M : ℕ) (h : ¬ M ∣ N) : subgroupIdOk N M = false := by
  have h1 : N % M ≠ 0 := fun h' => h (Nat.dvd_of_mod_eq_zero h')
  simp [subgroupIdOk, h1]

example : subgroupIdOk 12 4 = true ∧ parentMap 12 4 3 = .ok 9 ∧ childMap 12 4 9 = .ok (some 3) ∧
    childMap 12 4 8 = .ok none := by
  refine ⟨rfl, rfl, rfl, rfl⟩

end Escnn.Cyclic
