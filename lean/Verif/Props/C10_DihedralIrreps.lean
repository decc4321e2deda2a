import Verif.Lemmas.Trig
import Verif.Lemmas.CosSum
import Verif.Props.C02_Dihedral
import Verif.Props.C09_CyclicIrreps

/-!
# C10 — the irreps of `D_N`
-/

namespace Escnn.Dihedral

open Real NpMat

theorem sgn_cast (f : ℤ) : ((sgn f : ℤ) : ℝ) = sgnR f := by unfold sgn sgnR; split <;> norm_num

theorem radians_combine (N : ℕ) (hN : 0 < N) (a b : Elem) : ∃ q : ℤ,
    radians N (combine N a b) = radians N a + sgnR a.1 * radians N b - q * (2 * π) := by
  have h : (N : ℝ) ≠ 0 := by positivity
  refine ⟨(a.2 + sgn a.1 * b.2) / (N : ℤ), ?_⟩
  have e : ((a.2 + sgn a.1 * b.2) % (N : ℤ) : ℤ) = (a.2 + sgn a.1 * b.2) - N * ((a.2 + sgn a.1 * b.2) / (N : ℤ)) := by
    have := Int.emod_add_mul_ediv (a.2 + sgn a.1 * b.2) N; omega
  simp only [radians, combine, e]
  rw [← sgn_cast]
  push_cast
  field_simp

theorem radians_eq (N : ℕ) (e : Elem) : radians N e = Cyclic.radians N e.2 := rfl

theorem sgnR_combine (N : ℕ) {a b : Elem} (ha : a.1 = 0 ∨ a.1 = 1) (hb : b.1 = 0 ∨ b.1 = 1) :
    sgnR (combine N a b).1 = sgnR a.1 * sgnR b.1 := by
  simp only [combine]
  rcases ha with ha | ha <;> rcases hb with hb | hb <;> rw [ha, hb] <;> norm_num

theorem cos_half_combine (N k : ℕ) (hN : 0 < N) (h2k : 2 * k = N) (a b : Elem) :
    cos (k * radians N (combine N a b)) = cos (k * radians N a) * cos (k * radians N b) := by
  obtain ⟨q, hq⟩ := radians_combine N hN a b
  have hs : sin (k * radians N a) = 0 := Cyclic.sin_half N k hN h2k a.2
  have hs' : sin (k * radians N b) = 0 := Cyclic.sin_half N k hN h2k b.2
  rw [hq, cos_nat_mul_sub, mul_add, Real.cos_add, hs]
  unfold sgnR
  split
  · have : (k : ℝ) * (-1 * radians N b) = -(k * radians N b) := by ring
    rw [this, Real.cos_neg]; ring
  · rw [one_mul]; ring

/-- **C10** For every order `N` and every accepted id `(j, k)`, `dihedral_group(N).irrep(j, k)` has the declared size, is a
homomorphism into orthogonal matrices, and its declared character is the trace. -/
theorem C10_dihedral_irrep (N j k : ℕ) (hN : 0 < N) (hok : irrepOk N j k = true) :
    OrthoRep (fun e => isElement N e = true) (combine N) identity (irrepSize N j k) (irrepMat N j k) ∧
    ∀ e, irrepChar N j k e = trace (irrepMat N j k e) := by
  simp only [irrepOk, Bool.and_eq_true, Bool.or_eq_true, decide_eq_true_eq] at hok
  obtain ⟨⟨hj, hk⟩, hjk⟩ := hok
  have hf : ∀ e, isElement N e = true → e.1 = 0 ∨ e.1 = 1 := fun e he => (isElement_iff.1 he).1
  by_cases hj0 : j = 0
  · subst hj0
    by_cases h0 : k = 0
    · subst h0
      exact ⟨orthoRep_eye1 _ _ _, fun e => by simp [irrepChar, irrepMat, trace_eye1]⟩
    · have h1 : N % 2 = 0 ∧ k = N / 2 := by omega
      have h2k : 2 * k = N := by omega
      have em : irrepMat N 0 k = fun e => of1 (cos (k * radians N e)) := by
        funext e; rw [irrepMat, if_pos rfl, if_neg h0, if_pos h1]
      refine ⟨?_, fun e => ?_⟩
      · rw [em, irrepSize, if_pos rfl]
        exact orthoRep_of1 _ (by simp [radians, identity]) (fun g h _ _ => cos_half_combine N k hN h2k g h)
          (fun g _ => Cyclic.cos_half_sq N k hN h2k g.2)
      · rw [em, irrepChar, if_pos rfl, if_neg h0, if_pos h1, trace_of1]
  · by_cases h0 : k = 0
    · subst h0
      have em : irrepMat N j 0 = fun e => of1 (sgnR e.1) := by
        funext e; rw [irrepMat, if_neg hj0, if_pos rfl]
      refine ⟨?_, fun e => ?_⟩
      · rw [em, irrepSize, if_neg hj0, if_pos rfl]
        exact orthoRep_of1 _ (by simp [identity]) (fun g h hg hh => sgnR_combine N (hf g hg) (hf h hh))
          (fun g _ => sgnR_mul_self _)
      · rw [em, irrepChar, if_neg hj0, if_pos rfl, trace_of1]
    by_cases h1 : N % 2 = 0 ∧ 2 * k = N
    · have em : irrepMat N j k = fun e => of1 (cos (k * radians N e) * sgnR e.1) := by
        funext e; rw [irrepMat, if_neg hj0, if_neg h0, if_pos h1]
      refine ⟨?_, fun e => ?_⟩
      · rw [em, irrepSize, if_neg hj0, if_neg h0, if_pos h1]
        refine orthoRep_of1 _ (by simp [radians, identity]) (fun g h hg hh => ?_) (fun g _ => ?_)
        · rw [cos_half_combine N k hN h1.2, sgnR_combine N (hf g hg) (hf h hh)]; ring
        · have := Cyclic.cos_half_sq N k hN h1.2 g.2
          rw [← radians_eq] at this
          rw [mul_mul_mul_comm, this, sgnR_mul_self, one_mul]
      · rw [em, irrepChar, if_neg hj0, if_neg h0, if_pos h1, trace_of1]
    · have em : irrepMat N j k = fun e => psichi (radians N e) e.1 k := by
        funext e; rw [irrepMat, if_neg hj0, if_neg h0, if_neg h1]
      refine ⟨?_, fun e => ?_⟩
      · rw [em, irrepSize, if_neg hj0, if_neg h0, if_neg h1]
        exact orthoRep_psichi (radians N) (fun e => e.1) k hf (by simp [radians, identity]) rfl
          (fun g h _ _ => radians_combine N hN g h) (fun _ _ _ _ => rfl)
      · rw [em, irrepChar, if_neg hj0, if_neg h0, if_neg h1]
        simp only [psichi]
        rw [trace_of2]
        unfold sgnR
        split_ifs <;> ring

/-- Characters in closed form: `size * cos(k r)` on rotations, and on reflections `± cos(k r)` for one-dimensional irreps
and `0` for two-dimensional ones. -/
theorem irrepChar_rot (N j k : ℕ) (r : ℤ) (hok : irrepOk N j k = true) :
    irrepChar N j k (0, r) = irrepSize N j k * cos (k * Cyclic.radians N r) := by
  simp only [irrepOk, Bool.and_eq_true, Bool.or_eq_true, decide_eq_true_eq] at hok
  obtain ⟨⟨hj, hk⟩, hjk⟩ := hok
  unfold irrepChar irrepSize
  split_ifs <;> first | (exfalso; omega) | (subst_vars; simp [radians_eq, *]) | simp_all [radians_eq]

theorem irrepChar_flip (N j k : ℕ) (r : ℤ) (hok : irrepOk N j k = true) :
    irrepChar N j k (1, r) =
      if irrepSize N j k = 1 then (if j = 0 then 1 else -1) * cos (k * Cyclic.radians N r) else 0 := by
  simp only [irrepOk, Bool.and_eq_true, Bool.or_eq_true, decide_eq_true_eq] at hok
  obtain ⟨⟨hj, hk⟩, hjk⟩ := hok
  unfold irrepChar irrepSize
  by_cases h1 : j = 0
  · by_cases h2 : k = 0
    · simp [h1, h2]
    · have : N % 2 = 0 ∧ k = N / 2 := by omega
      rw [if_pos h1, if_neg h2, if_pos this]
      simp [h1, radians_eq]
  · by_cases h2 : k = 0
    · simp [h1, h2]
    · by_cases h3 : N % 2 = 0 ∧ 2 * k = N
      · rw [if_neg h1, if_neg h2, if_pos h3]
        simp [h1, h2, h3, radians_eq]
      · rw [if_neg h1, if_neg h2, if_neg h3]
        simp [h1, h2, h3]

/-- **C10** (irreducibility over the reals — real type — and pairwise inequivalence) Character orthogonality. -/
theorem C10_character_orthogonality (N j k j' k' : ℕ) (hN : 0 < N) (hok : irrepOk N j k = true)
    (hok' : irrepOk N j' k' = true) :
    ((elements N).map fun e => trace (irrepMat N j k e) * trace (irrepMat N j' k' e)).sum =
      if (j, k) = (j', k') then (2 * N : ℝ) else 0 := by
  have e1 : (fun e => trace (irrepMat N j k e) * trace (irrepMat N j' k' e)) =
      fun e => irrepChar N j k e * irrepChar N j' k' e := by
    funext e
    rw [← (C10_dihedral_irrep N j k hN hok).2, ← (C10_dihedral_irrep N j' k' hN hok').2]
  have e2 : ∀ f : Elem → ℝ, ((elements N).map f).sum =
      ∑ e ∈ Finset.range N, f (0, (e : ℤ)) + ∑ e ∈ Finset.range N, f (1, (e : ℤ)) := by
    intro f
    have h := Cyclic.sum_elements (N := N) (fun r => f (0, r))
    have h' := Cyclic.sum_elements (N := N) (fun r => f (1, r))
    rw [← h, ← h', elements, List.map_append, List.sum_append, Cyclic.elements]
    simp only [List.map_map]
    rfl
  rw [e1, e2]
  simp only [irrepChar_rot _ _ _ _ hok, irrepChar_rot _ _ _ _ hok', irrepChar_flip _ _ _ _ hok,
    irrepChar_flip _ _ _ _ hok']
  have hk := hok
  have hk' := hok'
  simp only [irrepOk, Bool.and_eq_true, Bool.or_eq_true, decide_eq_true_eq] at hk hk'
  have S := sum_cos_mul_cos N hN k k' (by omega) (by omega)
  have S1 : ∀ a b : ℝ, ∑ e ∈ Finset.range N, (a * cos (k * Cyclic.radians N (e : ℤ))) *
      (b * cos (k' * Cyclic.radians N (e : ℤ))) = a * b *
        (if k = k' then (if k = 0 ∨ 2 * k = N then (N : ℝ) else N / 2) else 0) := by
    intro a b
    rw [← S, Finset.mul_sum]
    refine Finset.sum_congr rfl fun e _ => ?_
    simp only [Cyclic.radians, Int.cast_natCast]; ring
  have hsz : irrepSize N j k = if k = 0 ∨ 2 * k = N then 1 else 2 := by
    unfold irrepSize
    split_ifs <;> omega
  have hsz' : irrepSize N j' k' = if k' = 0 ∨ 2 * k' = N then 1 else 2 := by
    unfold irrepSize
    split_ifs <;> omega
  rw [S1, hsz, hsz']
  by_cases hkk : k = k'
  · subst hkk
    by_cases h1 : k = 0 ∨ 2 * k = N
    · simp only [if_pos h1, if_true]
      rw [S1]
      simp only [if_pos h1, if_true]
      rcases (show j = 0 ∨ j = 1 by omega) with rfl | rfl <;> rcases (show j' = 0 ∨ j' = 1 by omega) with rfl | rfl <;>
        simp <;> ring
    · have hj : j = 1 := by omega
      have hj' : j' = 1 := by omega
      simp only [if_neg h1, hj, hj']
      norm_num
      ring
  · have hne : ¬ (j, k) = (j', k') := by simp [hkk]
    rw [if_neg hne]
    simp only [if_neg hkk, mul_zero, zero_add]
    by_cases h1 : k = 0 ∨ 2 * k = N <;> by_cases h1' : k' = 0 ∨ 2 * k' = N <;>
      simp only [h1, h1', if_true, if_false]
    · rw [S1, if_neg hkk, mul_zero]
    all_goals norm_num

/-- **C10** (completeness) `∑ size² = |D_N| = 2N` over the irreps that are instantiated. -/
theorem C10_dimension_count (N : ℕ) (hN : 0 < N) :
    ((irrepIds N).map fun i => irrepSize N i.1 i.2 * irrepSize N i.1 i.2).sum = 2 * N := by
  have key : ∀ m, m ≤ N / 2 → ((List.range (m + 1)).map fun k => irrepSize N 1 k * irrepSize N 1 k).sum =
      if N % 2 = 0 ∧ m = N / 2 then 4 * m - 2 else 4 * m + 1 := by
    intro m
    induction m with
    | zero => intro _; simp [irrepSize]; omega
    | succ m ih =>
      intro hm
      rw [List.range_succ, List.map_append, List.sum_append, ih (by omega)]
      have h1 : ¬ (N % 2 = 0 ∧ m = N / 2) := by omega
      rw [if_neg h1]
      simp only [irrepSize, List.map_cons, List.map_nil, List.sum_cons, List.sum_nil]
      by_cases h2 : N % 2 = 0 ∧ m + 1 = N / 2
      · have h2' : N % 2 = 0 ∧ 2 * (m + 1) = N := by omega
        simp only [if_pos h2, if_pos h2']; simp; omega
      · have h2' : ¬ (N % 2 = 0 ∧ 2 * (m + 1) = N) := by omega
        simp only [if_neg h2, if_neg h2']; simp; omega
  have key' := key (N / 2) le_rfl
  rw [irrepIds, List.map_append, List.map_append, List.sum_append, List.sum_append, List.map_map]
  have : ((fun i : ℕ × ℕ => irrepSize N i.1 i.2 * irrepSize N i.1 i.2) ∘ fun k => (1, k)) =
    fun k => irrepSize N 1 k * irrepSize N 1 k := rfl
  rw [this, key']
  by_cases h : N % 2 = 0
  · simp [h, irrepSize]; omega
  · simp [h, irrepSize]; omega

/-- Every instantiated irrep has an accepted id, and they are pairwise different. -/
theorem C10_ids (N : ℕ) (hN : 0 < N) :
    (∀ i ∈ irrepIds N, irrepOk N i.1 i.2 = true) ∧ (irrepIds N).Nodup ∧
    (∀ j k, irrepOk N j k = true → (j, k) ∈ irrepIds N) := by
  refine ⟨?_, ?_, ?_⟩
  · intro i hi
    simp only [irrepIds, List.mem_append, List.mem_map, List.mem_range, List.mem_singleton] at hi
    rcases hi with (rfl | ⟨k, hk, rfl⟩) | hi
    · simp [irrepOk]
    · simp [irrepOk]; omega
    · split at hi
      · simp only [List.mem_singleton] at hi; subst hi; simp [irrepOk, *]
      · simp at hi
  · rw [irrepIds, List.nodup_append, List.nodup_append]
    refine ⟨⟨by simp, List.nodup_range.map (fun a b h => by simpa using h), by simp⟩, by split <;> simp, ?_⟩
    intro a ha b hb
    split at hb
    · simp only [List.mem_singleton] at hb
      subst hb
      simp only [List.mem_append, List.mem_singleton, List.mem_map] at ha
      rcases ha with rfl | ⟨k, _, rfl⟩
      · simp; omega
      · simp
    · simp at hb
  · intro j k hok
    simp only [irrepOk, Bool.and_eq_true, Bool.or_eq_true, decide_eq_true_eq] at hok
    simp only [irrepIds, List.mem_append, List.mem_map, List.mem_range, List.mem_singleton, Prod.mk.injEq]
    by_cases hj : j = 0
    · by_cases hk : k = 0
      · exact .inl (.inl ⟨hj, hk⟩)
      · right; rw [if_pos (by omega)]; simp; omega
    · exact .inl (.inr ⟨k, by omega, by omega, rfl⟩)

example : OrthoRep (fun e => isElement 6 e = true) (combine 6) identity 2 (irrepMat 6 1 2) :=
  (C10_dihedral_irrep 6 1 2 (by norm_num) (by decide)).1
example : irrepIds 4 = [(0, 0), (1, 0), (1, 1), (1, 2), (0, 2)] := by decide

end Escnn.Dihedral
