import Verif.Lemmas.Dirichlet
import Verif.Props.C79_Irreps3

/-!
# C80 — characters and tensor products of the irreps of SO(3) and O(3)
-/

namespace Escnn

open Real NpMat Quaternion
open scoped Matrix

/-- Python's `range(|J - l|, J + l + 1)`. -/
theorem dirichlet_tensor (J l : ℕ) (θ : ℝ) : dirichlet J θ * dirichlet l θ =
    ((List.range' ((J : ℤ) - l).natAbs (J + l + 1 - ((J : ℤ) - l).natAbs)).map fun j => dirichlet j θ).sum := by
  rcases le_total l J with h | h
  · rw [dirichlet_mul h, show ((J : ℤ) - l).natAbs = J - l by omega, show J + l + 1 - (J - l) = 2 * l + 1 by omega]
  · rw [mul_comm, dirichlet_mul h, show ((J : ℤ) - l).natAbs = l - J by omega, show J + l + 1 - (l - J) = 2 * J + 1 by omega]

theorem dirichlet_angle_zero (l : ℕ) : dirichlet l 0 = 2 * l + 1 := by simp [dirichlet]

theorem count_flatMap_replicate {α : Type} [DecidableEq α] [BEq α] [LawfulBEq α] (a : α) (L : List α) (hL : L.Nodup) (n : α → ℕ) :
    (L.flatMap fun x => List.replicate (n x) x).count a = if a ∈ L then n a else 0 := by
  induction L with
  | nil => simp
  | cons x L ih =>
    rw [List.nodup_cons] at hL
    rw [List.flatMap_cons, List.count_append, ih hL.2, List.count_replicate]
    by_cases h : x = a
    · subst h; simp [hL.1]
    · have : ¬ a = x := fun e => h e.symm
      simp [h, this]

namespace SO3

variable {W : ℕ → UQuat → NpMat ℝ} {l : ℕ}

/-- **C80** the character of an irrep of SO(3) is its trace, unless the rotation is within the tolerance of the identity:
there the code returns the dimension. -/
theorem C80_so3_character (hW : l ≠ 0 → Wigner l (W l)) {e : UQuat} (he : normSq e = 1) :
    (1 / 10 ^ 8 < √(e.imI ^ 2 + e.imJ ^ 2 + e.imK ^ 2) → character l e = trace (irrepMat W l e)) ∧
    |character l e - trace (irrepMat W l e)| ≤ 2 / 3 * (l * (l + 1) * (2 * l + 1)) / 10 ^ 16 := by
  rw [(irrepMat_wigner hW).trace he]
  obtain ⟨v, hv⟩ : ∃ v, v = √(e.imI ^ 2 + e.imJ ^ 2 + e.imK ^ 2) := ⟨_, rfl⟩
  have hv2 : v ^ 2 = e.imI ^ 2 + e.imJ ^ 2 + e.imK ^ 2 := by rw [hv, sq_sqrt]; positivity
  have hv0 : 0 ≤ v := hv ▸ sqrt_nonneg _
  have hs := arctan2_sin_cos (s := v) (c := e.re) (by rw [Quaternion.normSq_def'] at he; nlinarith)
  simp only [character]
  rw [← hv]
  obtain ⟨θ, hθ⟩ : ∃ θ, θ = 2 * arctan2 v e.re := ⟨_, rfl⟩
  have hhalf : sin (1 / 2 * θ) = v := by rw [hθ, show 1 / 2 * (2 * arctan2 v e.re) = arctan2 v e.re by ring, hs.1]
  rw [← hθ]
  by_cases hl : l = 0
  · subst hl
    simp [dirichlet_zero]
  · rw [if_neg hl]
    have hval : 1 / 10 ^ 8 < v → sin ((l + 1 / 2) * θ) / sin (1 / 2 * θ) = dirichlet l θ := by
      intro h
      rw [← dirichlet_sin, hhalf]
      have : v ≠ 0 := ne_of_gt (lt_trans (by norm_num) h)
      field_simp
    constructor
    · intro h
      rw [if_pos (by rw [hhalf, abs_of_nonneg hv0]; exact not_le.2 h)]
      exact hval h
    · by_cases h : 1 / 10 ^ 8 < v
      · rw [if_pos (by rw [hhalf, abs_of_nonneg hv0]; exact not_le.2 h), hval h, sub_self, abs_zero]
        positivity
      · rw [if_neg (by rw [hhalf, abs_of_nonneg hv0]; exact not_not.2 (not_lt.1 h))]
        have hn := dirichlet_near (θ := θ) (δ := 1 / 10 ^ 8) (by rw [hhalf, abs_of_nonneg hv0]; exact not_lt.1 h) l
        rw [abs_of_nonneg hn.1]
        refine hn.2.trans (le_of_eq ?_)
        ring

/-- **C80** `SO3._tensor_product_irreps(J, l)`: the product of the characters of the two irreps is the sum of the characters
of the irreps in the list with their multiplicities, on every rotation; hence the dimensions agree. -/
theorem C80_so3_tensor (J l : ℕ) (hW : ∀ j, j ≠ 0 → j ≤ J + l → Wigner j (W j)) :
    (∀ q : UQuat, normSq q = 1 → trace (irrepMat W J q) * trace (irrepMat W l q) =
      ((tensorIrreps J l).map fun t => (t.2 : ℝ) * trace (irrepMat W t.1 q)).sum) ∧
    irrepSize J * irrepSize l = ((tensorIrreps J l).map fun t => t.2 * irrepSize t.1).sum ∧
    (tensorIrreps J l).Pairwise fun s t => s.1 < t.1 := by
  have hsz : ∀ j, irrepSize j = 2 * j + 1 := by intro j; unfold irrepSize; split_ifs with h <;> simp [h]
  refine ⟨fun q hq => ?_, ?_, ?_⟩
  · have ht : ∀ j, j ≤ J + l → trace (irrepMat W j q) = dirichlet j (2 * arctan2 (√(q.imI ^ 2 + q.imJ ^ 2 + q.imK ^ 2)) q.re) :=
      fun j hj => (irrepMat_wigner fun h => hW j h hj).trace hq
    rw [ht J (by omega), ht l (by omega), dirichlet_tensor, tensorIrreps, List.map_map]
    refine congrArg _ (List.map_congr_left fun j hj => ?_)
    have := (List.mem_range'_1.1 hj).2
    simp only [Function.comp, Nat.cast_one, one_mul]
    rw [ht j (by omega)]
  · have h := dirichlet_tensor J l 0
    simp only [dirichlet_angle_zero] at h
    have h2 : ((irrepSize J * irrepSize l : ℕ) : ℝ) = (((tensorIrreps J l).map fun t => t.2 * irrepSize t.1).sum : ℕ) := by
      rw [Nat.cast_list_sum, tensorIrreps, List.map_map, List.map_map, hsz, hsz]
      push_cast
      rw [h]
      refine congrArg _ (List.map_congr_left fun j _ => ?_)
      simp [hsz]
    exact_mod_cast h2
  · rw [tensorIrreps, List.pairwise_map]
    exact List.pairwise_lt_range'

/-- **C80** `SO3.bl_regular_representation(L)`: every irrep of frequency at most `L`, with its dimension as multiplicity. -/
theorem C80_so3_regular (L l : ℕ) : (blRegular L).count l = if l ≤ L then irrepSize l else 0 := by
  rw [blRegular, count_flatMap_replicate l _ List.nodup_range (fun l => 2 * l + 1)]
  have hsz : irrepSize l = 2 * l + 1 := by unfold irrepSize; split_ifs with h <;> simp [h]
  rw [hsz]
  simp [Nat.lt_succ_iff]

end SO3

namespace O3

variable {W : ℕ → UQuat → NpMat ℝ} {j l : ℕ}

theorem trace_irrep (hW : l ≠ 0 → Wigner l (W l)) {e : Elem} (he : O3El e) :
    trace (irrepMat W j l e) = trace (SO3.irrepMat W l e.2) * invAction j e := by
  have h := irrepMat_eq (j := j) hW he
  rw [trace_congr' h (by rw [h.1, h.2.1])]
  simp only [trace, (SO3.irrepMat_wigner hW).rows _ he.2, Finset.sum_mul]

theorem abs_invAction (j : ℕ) {e : Elem} (he : O3El e) : |invAction j e| = 1 := by
  rcases he.1 with h | h
  · rw [invAction_zero h, abs_one]
  · rw [invAction_one h, abs_pow, abs_neg, abs_one, one_pow]

/-- **C80** the character of an irrep of O(3) is its trace, unless the rotation is within the tolerance of the identity. -/
theorem C80_o3_character (hW : l ≠ 0 → Wigner l (W l)) {e : Elem} (he : O3El e) :
    (1 / 10 ^ 8 < √(e.2.imI ^ 2 + e.2.imJ ^ 2 + e.2.imK ^ 2) → character j l e = trace (irrepMat W j l e)) ∧
    |character j l e - trace (irrepMat W j l e)| ≤ 2 / 3 * (l * (l + 1) * (2 * l + 1)) / 10 ^ 16 := by
  have hc : character j l e = SO3.character l e.2 * invAction j e := by
    unfold character
    by_cases hl : l = 0
    · subst hl
      by_cases hj : j = 0
      · subst hj; simp [SO3.character, invAction]
      · simp [hj, SO3.character]
    · simp [hl]
  obtain ⟨h1, h2⟩ := SO3.C80_so3_character hW he.2
  rw [hc, trace_irrep hW he]
  refine ⟨fun h => by rw [h1 h], ?_⟩
  rw [← sub_mul, abs_mul, abs_invAction j he, mul_one]
  exact h2

/-- **C80** `O3._tensor_product_irreps(J, l)`: the product of the characters of the two irreps is the sum of the characters of
the irreps in the list with their multiplicities, on every element; hence the dimensions agree. -/
theorem C80_o3_tensor (J l : ℕ × ℕ) (hW : ∀ j, j ≠ 0 → j ≤ J.2 + l.2 → Wigner j (W j)) :
    (∀ e, O3El e → trace (irrepMat W J.1 J.2 e) * trace (irrepMat W l.1 l.2 e) =
      ((tensorIrreps J l).map fun t => (t.2 : ℝ) * trace (irrepMat W t.1.1 t.1.2 e)).sum) ∧
    irrepSize J.2 * irrepSize l.2 = ((tensorIrreps J l).map fun t => t.2 * irrepSize t.1.2).sum ∧
    ((tensorIrreps J l).Pairwise fun s t => s.1.2 < t.1.2) ∧ ∀ t ∈ tensorIrreps J l, t.1.1 ≤ 1 := by
  obtain ⟨h1, h2, h3⟩ := SO3.C80_so3_tensor J.2 l.2 hW
  refine ⟨fun e he => ?_, ?_, ?_, ?_⟩
  · rw [trace_irrep (fun h => hW _ h (by omega)) he, trace_irrep (fun h => hW _ h (by omega)) he]
    have hinv : invAction ((J.1 + l.1) % 2) e = invAction J.1 e * invAction l.1 e := by
      rcases he.1 with h | h
      · rw [invAction_zero h, invAction_zero h, invAction_zero h, one_mul]
      · rw [invAction_one h, invAction_one h, invAction_one h, ← pow_add]
        rcases neg_one_parity (J.1 + l.1) with h' | h' <;> rw [h'.1, h'.2] <;> norm_num
    calc trace (SO3.irrepMat W J.2 e.2) * invAction J.1 e * (trace (SO3.irrepMat W l.2 e.2) * invAction l.1 e)
        = ((SO3.tensorIrreps J.2 l.2).map fun t => (t.2 : ℝ) * trace (SO3.irrepMat W t.1 e.2)).sum *
            (invAction J.1 e * invAction l.1 e) := by rw [← h1 e.2 he.2]; ring
      _ = _ := by
        rw [← List.sum_map_mul_right, SO3.tensorIrreps, tensorIrreps, List.map_map, List.map_map]
        refine congrArg _ (List.map_congr_left fun j hj => ?_)
        have := (List.mem_range'_1.1 hj).2
        simp only [Function.comp]
        rw [trace_irrep (fun h => hW _ h (by omega)) he, hinv]
        ring
  · have e : ∀ j, irrepSize j = SO3.irrepSize j := fun _ => rfl
    rw [e, e, h2, SO3.tensorIrreps, tensorIrreps, List.map_map, List.map_map]
    rfl
  · rw [tensorIrreps, List.pairwise_map]
    exact List.pairwise_lt_range'
  · intro t ht
    obtain ⟨j, _, rfl⟩ := List.mem_map.1 ht
    have := Nat.mod_lt (J.1 + l.1) (show 0 < 2 by norm_num)
    simp only
    omega

/-- **C80** `O3.bl_regular_representation(L)`: every irrep of frequency at most `L`, with its dimension as multiplicity. -/
theorem C80_o3_regular (L j l : ℕ) : (blRegular L).count (j, l) = if l ≤ L ∧ j < 2 then irrepSize l else 0 := by
  have e : blRegular L = ((List.range (L + 1)).flatMap fun l => (List.range 2).map fun j => (j, l)).flatMap fun x =>
      List.replicate (2 * x.2 + 1) x := by
    rw [blRegular, List.flatMap_assoc]
    congr 1
  have hnd : ((List.range (L + 1)).flatMap fun l => (List.range 2).map fun j => (j, l)).Nodup := by
    rw [List.nodup_flatMap]
    refine ⟨fun l _ => List.Nodup.map (fun a b h => by simpa using h) List.nodup_range, ?_⟩
    refine (List.nodup_range (n := L + 1)).imp fun {a b} hab x hx hx' => ?_
    obtain ⟨_, _, h1⟩ := List.mem_map.1 hx
    obtain ⟨_, _, h2⟩ := List.mem_map.1 hx'
    exact hab (by rw [← h2] at h1; exact (Prod.mk.inj h1).2)
  rw [e, count_flatMap_replicate (j, l) _ hnd (fun x => 2 * x.2 + 1)]
  have hsz : irrepSize l = 2 * l + 1 := by unfold irrepSize; split_ifs with h <;> simp [h]
  rw [hsz]
  simp [Nat.lt_succ_iff]

/-! ### Examples -/

/-- The hypotheses of the tensor product: two vectors. -/
example : tensorIrreps (1, 1) (1, 1) = [((0, 0), 1), ((0, 1), 1), ((0, 2), 1)] ∧
    ∀ e, O3El e → trace (irrepMat wignerUpTo2 1 1 e) * trace (irrepMat wignerUpTo2 1 1 e) =
      ((tensorIrreps (1, 1) (1, 1)).map fun t => (t.2 : ℝ) * trace (irrepMat wignerUpTo2 t.1.1 t.1.2 e)).sum :=
  ⟨rfl, (C80_o3_tensor (1, 1) (1, 1) fun _ h h' => wignerUpTo2_ok h h').1⟩

/-- A rotation outside of the tolerance: the third of a turn around the diagonal. -/
example : O3El (1, quat (1/2) (1/2) (1/2) (1/2)) ∧
    (1 : ℝ) / 10 ^ 8 < √((quat (1/2) (1/2) (1/2) (1/2)).imI ^ 2 + (quat (1/2) (1/2) (1/2) (1/2)).imJ ^ 2 +
      (quat (1/2) (1/2) (1/2) (1/2)).imK ^ 2) := by
  refine ⟨⟨.inr rfl, by rw [SO3.normSq_quat]; norm_num⟩, ?_⟩
  refine Real.lt_sqrt_of_sq_lt ?_
  simp [quat]
  norm_num

example : blRegular 1 = [(0, 0), (1, 0), (0, 1), (0, 1), (0, 1), (1, 1), (1, 1), (1, 1)] := rfl

end O3

end Escnn
