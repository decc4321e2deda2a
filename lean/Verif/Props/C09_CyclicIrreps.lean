import Verif.Lemmas.Trig
import Verif.Lemmas.CosSum
import Verif.Props.C01_Cyclic

/-!
# C09 — the irreps of `C_N`
-/

namespace Escnn.Cyclic

open Real NpMat

theorem radians_combine (N : ℕ) (hN : 0 < N) (a b : ℤ) :
    radians N (combine N a b) = radians N a + radians N b - ((a + b) / (N : ℤ) : ℤ) * (2 * π) := by
  have h : (N : ℝ) ≠ 0 := by positivity
  have e : ((a + b) % (N : ℤ) : ℤ) = a + b - N * ((a + b) / (N : ℤ)) := by
    have := Int.emod_add_mul_ediv (a + b) N; omega
  simp only [radians, combine, e]
  push_cast
  field_simp

/-- Parity: at frequency `N/2` the angle is a multiple of `π`. -/
theorem cos_half (N k : ℕ) (hN : 0 < N) (hk : 2 * k = N) (e : ℤ) : cos (k * radians N e) = (-1) ^ e.natAbs := by
  have h : (N : ℝ) ≠ 0 := by positivity
  have : (k : ℝ) * radians N e = e * π := by
    simp only [radians]
    have hk' : (2 : ℝ) * k = N := by exact_mod_cast hk
    rw [← hk']; field_simp
    have : (k : ℝ) ≠ 0 := by rintro h0; apply h; rw [← hk', h0]; ring
    field_simp
  rw [this]
  rcases Int.natAbs_eq e with he | he
  · conv_lhs => rw [he]
    rw [Int.cast_natCast, Real.cos_nat_mul_pi]
  · conv_lhs => rw [he]
    rw [Int.cast_neg, Int.cast_natCast, neg_mul, Real.cos_neg, Real.cos_nat_mul_pi]

theorem cos_half_sq (N k : ℕ) (hN : 0 < N) (hk : 2 * k = N) (e : ℤ) :
    cos (k * radians N e) * cos (k * radians N e) = 1 := by
  rw [cos_half N k hN hk, ← pow_add, ← two_mul, pow_mul]; simp

theorem sin_half (N k : ℕ) (hN : 0 < N) (hk : 2 * k = N) (e : ℤ) : sin (k * radians N e) = 0 := by
  have h1 := Real.cos_sq_add_sin_sq (k * radians N e)
  have h2 := cos_half_sq N k hN hk e
  have : sin (k * radians N e) ^ 2 = 0 := by nlinarith
  exact pow_eq_zero_iff (two_ne_zero) |>.1 this

/-- **C09** For every order `N` and every frequency `0 ≤ k ≤ N // 2`, `cyclic_group(N).irrep(k)` has the declared size,
is a homomorphism into orthogonal matrices, and its declared character is the trace. -/
theorem C09_cyclic_irrep (N k : ℕ) (hN : 0 < N) (_hk : k ≤ N / 2) :
    OrthoRep (fun e => isElement N e = true) (combine N) identity (irrepSize N k) (irrepMat N k) ∧
    ∀ e, irrepChar N k e = trace (irrepMat N k e) := by
  by_cases h0 : k = 0
  · subst h0
    refine ⟨?_, fun e => ?_⟩
    · exact orthoRep_eye1 (fun e => isElement N e = true) (combine N) identity
    · simp [irrepChar, irrepMat, trace_eye1]
  by_cases h1 : N % 2 = 0 ∧ k = N / 2
  · have h2k : 2 * k = N := by omega
    have em : irrepMat N k = fun e => of1 (cos (k * radians N e)) := by
      funext e; rw [irrepMat, if_neg h0, if_pos h1]
    refine ⟨?_, fun e => ?_⟩
    · rw [em, irrepSize, if_neg h0, if_pos h1]
      refine orthoRep_of1 _ (by simp [radians, identity]) (fun g h _ _ => ?_) (fun g _ => cos_half_sq N k hN h2k g)
      rw [radians_combine N hN, cos_nat_mul_sub, mul_add, Real.cos_add, sin_half N k hN h2k]; ring
    · rw [em, irrepChar, if_neg h0, if_pos h1, trace_of1]
  · have em : irrepMat N k = fun e => psichi (radians N e) 0 k := by
      funext e; rw [irrepMat, if_neg h0, if_neg h1, psi_eq_psichi]
    refine ⟨?_, fun e => ?_⟩
    · rw [em, irrepSize, if_neg h0, if_neg h1]
      refine orthoRep_psichi (radians N) (fun _ => 0) k (fun _ _ => .inl rfl) (by simp [radians, identity]) rfl
        (fun g h _ _ => ⟨(g + h) / (N : ℤ), ?_⟩) (fun _ _ _ _ => rfl)
      rw [radians_combine N hN]; simp
    · rw [em, irrepChar, if_neg h0, if_neg h1]; simp only [psichi]; rw [trace_of2]; simp; ring

/-- The irrep matrices only depend on the element modulo `N` (hence are well defined on the group). -/
theorem irrepMat_emod (N k : ℕ) (hN : 0 < N) (e : ℤ) : irrepMat N k (e % N) = irrepMat N k e := by
  have h : radians N (e % N) = radians N e - (e / (N : ℤ) : ℤ) * (2 * π) := by
    have := radians_combine N hN e 0
    simpa [combine, radians] using this
  simp only [irrepMat, h, psi, cos_nat_mul_sub, sin_nat_mul_sub]

theorem sum_elements {N : ℕ} (f : ℤ → ℝ) : ((elements N).map f).sum = ∑ e ∈ Finset.range N, f e := by
  rw [elements, List.map_map, Finset.sum_range, ← List.sum_ofFn, List.ofFn_eq_map, ← List.map_coe_finRange_eq_range,
    List.map_map]
  rfl

/-- The declared characters as cosines. -/
theorem irrepChar_eq (N k : ℕ) (e : ℤ) : irrepChar N k e = irrepSize N k * cos (k * radians N e) := by
  unfold irrepChar irrepSize
  split_ifs with h h' <;> simp [h]

/-- **C09** (irreducibility of the declared type, and pairwise inequivalence) The characters are orthogonal, with squared
norm `N` for the irreps declared of real type and `2 N` for those declared of complex type. -/
theorem C09_character_orthogonality (N k l : ℕ) (hN : 0 < N) (hk : k ≤ N / 2) (hl : l ≤ N / 2) :
    ((elements N).map fun e => trace (irrepMat N k e) * trace (irrepMat N l e)).sum =
      if k = l then (N : ℝ) * irrepSumSq N k else 0 := by
  have e1 : (fun e => trace (irrepMat N k e) * trace (irrepMat N l e)) =
      fun e => (irrepSize N k * irrepSize N l : ℝ) * (cos (k * radians N e) * cos (l * radians N e)) := by
    funext e
    rw [← (C09_cyclic_irrep N k hN hk).2, ← (C09_cyclic_irrep N l hN hl).2, irrepChar_eq, irrepChar_eq]; ring
  rw [e1, sum_elements, ← Finset.mul_sum]
  have := sum_cos_mul_cos N hN k l (by omega) (by omega)
  simp only [radians, Int.cast_natCast]
  rw [this]
  by_cases h : k = l
  · subst h
    rw [if_pos rfl, if_pos rfl]
    by_cases h0 : k = 0
    · simp [irrepSize, irrepSumSq, h0]
    · by_cases h1 : N % 2 = 0 ∧ k = N / 2
      · have : 2 * k = N := by omega
        rw [if_pos (.inr this), irrepSize, irrepSumSq, if_neg h0, if_pos h1]; simp
      · have : ¬ 2 * k = N := by omega
        rw [if_neg (by tauto), irrepSize, irrepSumSq, if_neg h0, if_neg h1]; push_cast; ring
  · rw [if_neg h, if_neg h, mul_zero]

/-- **C09** (completeness) Over `irreps()`, `∑ size² / sum_of_squares_constituents = |C_N|`. -/
theorem C09_dimension_count (N : ℕ) (hN : 0 < N) :
    ((irrepIds N).map fun k => irrepSize N k * irrepSize N k / irrepSumSq N k).sum = N := by
  have key : ∀ m, m ≤ N / 2 → ((List.range (m + 1)).map fun k => irrepSize N k * irrepSize N k / irrepSumSq N k).sum =
      if N % 2 = 0 ∧ m = N / 2 then 2 * m else 2 * m + 1 := by
    intro m
    induction m with
    | zero => intro _; simp [irrepSize, irrepSumSq]; omega
    | succ m ih =>
      intro hm
      rw [List.range_succ, List.map_append, List.sum_append, ih (by omega)]
      have h1 : ¬ (N % 2 = 0 ∧ m = N / 2) := by omega
      rw [if_neg h1]
      simp only [irrepSize, irrepSumSq, List.map_cons, List.map_nil, List.sum_cons, List.sum_nil]
      by_cases h2 : N % 2 = 0 ∧ m + 1 = N / 2
      · simp only [if_pos h2]; simp; omega
      · simp only [if_neg h2]; simp; omega
  rw [irrepIds, key _ le_rfl]
  split <;> omega

/-- Hypotheses are met by a genuinely two-dimensional irrep. -/
example : OrthoRep (fun e => isElement 7 e = true) (combine 7) identity 2 (irrepMat 7 3) :=
  (C09_cyclic_irrep 7 3 (by norm_num) (by norm_num)).1
/-- …and by the sign representation of `C_8`. -/
example : OrthoRep (fun e => isElement 8 e = true) (combine 8) identity 1 (irrepMat 8 4) :=
  (C09_cyclic_irrep 8 4 (by norm_num) (by norm_num)).1
example : (irrepIds 8) = [0, 1, 2, 3, 4] := by decide

end Escnn.Cyclic
