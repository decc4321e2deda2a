import Verif.Lemmas.CompleteSKB
import Verif.Props.C39_CircularHarmonics
import Verif.Props.C40_PolarLayout
import Mathlib.LinearAlgebra.LinearIndependent.Basic
import Mathlib.LinearAlgebra.FreeModule.Basic
import Mathlib.FieldTheory.Fixed
import Mathlib.Analysis.SpecialFunctions.Exp

/-!
# The circular harmonics with Gaussian profiles are linearly independent
-/

namespace Escnn

open NpMat Real Filter Topology

/-- A quadratic polynomial with negative leading coefficient tends to minus infinity. -/
theorem tendsto_quad {α β : ℝ} (h : α < 0 ∨ α = 0 ∧ β < 0) : Tendsto (fun x : ℝ => α * x ^ 2 + β * x) atTop atBot := by
  rcases h with h | ⟨rfl, h⟩
  · have h1 : Tendsto (fun x : ℝ => α * x + β) atTop atBot := tendsto_atBot_add_const_right _ _ (tendsto_id.const_mul_atTop_of_neg h)
    refine (tendsto_id.atTop_mul_atBot₀ h1).congr fun x => ?_
    simp only [id]
    ring
  · refine (tendsto_id.const_mul_atTop_of_neg h).congr fun x => ?_
    simp only [id]
    ring

/-- Exponentials of distinct quadratic polynomials are independent. -/
theorem exp_quad_indep {ι : Type} [DecidableEq ι] (a b c : ι → ℝ) (x0 : ℝ) : ∀ (n : ℕ) (S : Finset ι), S.card = n → (∀ i ∈ S, ∀ j ∈ S, a i = a j → b i = b j → i = j) →
    (∀ x, x0 < x → ∑ i ∈ S, c i * exp (a i * x ^ 2 + b i * x) = 0) → ∀ i ∈ S, c i = 0
  | 0, S, hn, _, _ => by rw [Finset.card_eq_zero.1 hn]; simp
  | n + 1, S, hn, hinj, h => by
    obtain ⟨m, hm, hmax⟩ := S.exists_max_image (fun i => toLex (a i, b i)) (Finset.card_pos.1 (by omega))
    have hlt : ∀ i ∈ S.erase m, a i - a m < 0 ∨ a i - a m = 0 ∧ b i - b m < 0 := by
      intro i hi
      obtain ⟨hne, hi⟩ := Finset.mem_erase.1 hi
      have h1 := hmax i hi
      rw [Prod.Lex.toLex_le_toLex] at h1
      rcases h1 with h1 | ⟨h1, h2⟩
      · exact .inl (by simpa using h1)
      · simp only at h1 h2
        refine .inr ⟨by rw [h1, sub_self], ?_⟩
        rcases lt_or_eq_of_le h2 with h2 | h2
        · linarith
        · exact absurd (hinj i hi m hm h1 h2) hne
    have hz : c m = 0 := by
      have ht : Tendsto (fun x : ℝ => c m + ∑ i ∈ S.erase m, c i * exp ((a i - a m) * x ^ 2 + (b i - b m) * x)) atTop (𝓝 (c m + ∑ i ∈ S.erase m, c i * 0)) :=
        tendsto_const_nhds.add (tendsto_finset_sum _ fun i hi => (tendsto_exp_atBot.comp (tendsto_quad (hlt i hi))).const_mul _)
      have h0 : Tendsto (fun x : ℝ => c m + ∑ i ∈ S.erase m, c i * exp ((a i - a m) * x ^ 2 + (b i - b m) * x)) atTop (𝓝 0) := by
        refine Tendsto.congr' ?_ tendsto_const_nhds
        filter_upwards [eventually_gt_atTop x0] with x hx
        have h1 := h x hx
        rw [← Finset.add_sum_erase S _ hm] at h1
        have h2 : c m + ∑ i ∈ S.erase m, c i * exp ((a i - a m) * x ^ 2 + (b i - b m) * x) = (c m * exp (a m * x ^ 2 + b m * x) + ∑ i ∈ S.erase m, c i * exp (a i * x ^ 2 + b i * x)) * exp (-(a m * x ^ 2 + b m * x)) := by
          rw [add_mul, mul_assoc, ← exp_add, add_neg_cancel, exp_zero, mul_one, Finset.sum_mul]
          congr 1
          refine Finset.sum_congr rfl fun i _ => ?_
          rw [mul_assoc, ← exp_add]
          congr 2
          ring
        rw [h2, h1, zero_mul]
      have := tendsto_nhds_unique ht h0
      simpa using this
    intro i hi
    by_cases e : i = m
    · rw [e, hz]
    · refine exp_quad_indep a b c x0 n (S.erase m) (by rw [Finset.card_erase_of_mem hm]; omega) (fun i hi j hj => hinj i (Finset.mem_of_mem_erase hi) j (Finset.mem_of_mem_erase hj)) (fun x hx => ?_) i (Finset.mem_erase.2 ⟨e, hi⟩)
      have h1 := h x hx
      rw [← Finset.add_sum_erase S _ hm, hz, zero_mul, zero_add] at h1
      exact h1

/-- The characters of the line. -/
noncomputable def lineChar (k : ℤ) : Multiplicative ℝ →* ℂ where
  toFun θ := Complex.exp (k * (Multiplicative.toAdd θ : ℝ) * Complex.I)
  map_one' := by simp
  map_mul' x y := by
    rw [← Complex.exp_add]
    congr 1
    rw [toAdd_mul]
    push_cast
    ring

theorem lineChar_inj : Function.Injective lineChar := by
  intro k k' h
  by_contra hne
  have hd : ((k : ℝ) - k') ≠ 0 := by
    rw [sub_ne_zero]
    exact_mod_cast hne
  have h1 := DFunLike.congr_fun h (Multiplicative.ofAdd (π / ((k : ℝ) - k')))
  have h2 : Complex.exp (k * ((π / ((k : ℝ) - k') : ℝ) : ℂ) * Complex.I) = Complex.exp (k' * ((π / ((k : ℝ) - k') : ℝ) : ℂ) * Complex.I) := h1
  have h3 : (k : ℂ) * ((π / ((k : ℝ) - k') : ℝ) : ℂ) * Complex.I = k' * ((π / ((k : ℝ) - k') : ℝ) : ℂ) * Complex.I + π * Complex.I := by
    have : ((k : ℝ) * (π / ((k : ℝ) - k')) : ℝ) = k' * (π / ((k : ℝ) - k')) + π := by
      field_simp
      ring
    have h4 : ((k : ℝ) : ℂ) * ((π / ((k : ℝ) - k') : ℝ) : ℂ) = ((k' : ℝ) : ℂ) * ((π / ((k : ℝ) - k') : ℝ) : ℂ) + (π : ℂ) := by exact_mod_cast this
    rw [Complex.ofReal_intCast, Complex.ofReal_intCast] at h4
    rw [h4]
    ring
  rw [h3, Complex.exp_add, Complex.exp_pi_mul_I] at h2
  have h5 := Complex.exp_ne_zero (k' * ((π / ((k : ℝ) - k') : ℝ) : ℂ) * Complex.I)
  apply h5
  linear_combination (-1 / 2 : ℂ) * h2

/-- Cosines and sines of distinct frequencies are independent. -/
theorem trig_indep (L : ℕ) (a b : ℕ → ℝ) (h : ∀ θ : ℝ, ∑ j ∈ Finset.range (L + 1), (a j * cos (j * θ) + b j * sin (j * θ)) = 0) : ∀ j ≤ L, a j = 0 ∧ (j ≠ 0 → b j = 0) := by
  have hli : LinearIndependent ℂ (fun k : ℤ => (lineChar k : Multiplicative ℝ → ℂ)) := (linearIndependent_monoidHom (Multiplicative ℝ) ℂ).comp lineChar lineChar_inj
  set D : ℤ →₀ ℂ := ∑ j ∈ Finset.range (L + 1), (Finsupp.single (j : ℤ) (((a j : ℂ) - b j * Complex.I) / 2) + Finsupp.single (-(j : ℤ)) (((a j : ℂ) + b j * Complex.I) / 2)) with hD
  have hz : D = 0 := by
    refine linearIndependent_iff.1 hli D ?_
    rw [hD, map_sum]
    funext θ
    simp only [map_add, Finsupp.linearCombination_single, Finset.sum_apply, Pi.add_apply, Pi.smul_apply, smul_eq_mul, Pi.zero_apply]
    have := h (Multiplicative.toAdd θ)
    have h2 : ((∑ j ∈ Finset.range (L + 1), (a j * cos (j * Multiplicative.toAdd θ) + b j * sin (j * Multiplicative.toAdd θ)) : ℝ) : ℂ) = 0 := by rw [this, Complex.ofReal_zero]
    rw [← h2, Complex.ofReal_sum]
    refine Finset.sum_congr rfl fun j _ => ?_
    have e1 : lineChar (j : ℤ) θ = Complex.cos (j * (Multiplicative.toAdd θ : ℝ)) + Complex.sin (j * (Multiplicative.toAdd θ : ℝ)) * Complex.I := by
      show Complex.exp _ = _
      rw [Complex.exp_mul_I]
      simp
    have e2 : lineChar (-(j : ℤ)) θ = Complex.cos (j * (Multiplicative.toAdd θ : ℝ)) - Complex.sin (j * (Multiplicative.toAdd θ : ℝ)) * Complex.I := by
      show Complex.exp _ = _
      rw [Complex.exp_mul_I]
      push_cast
      rw [neg_mul, Complex.cos_neg, Complex.sin_neg]
      ring
    rw [e1, e2]
    push_cast
    have hI := Complex.I_sq
    linear_combination (-(b j : ℂ) * Complex.sin (j * (Multiplicative.toAdd θ : ℝ))) * hI
  intro j hj
  have hev : ∀ k : ℤ, ∑ i ∈ Finset.range (L + 1), ((if (i : ℤ) = k then ((a i : ℂ) - b i * Complex.I) / 2 else 0) + (if -(i : ℤ) = k then ((a i : ℂ) + b i * Complex.I) / 2 else 0)) = 0 := by
    intro k
    have := DFunLike.congr_fun hz k
    rw [hD, Finsupp.finset_sum_apply] at this
    simpa only [Finsupp.add_apply, Finsupp.single_apply, Finsupp.coe_zero, Pi.zero_apply] using this
  by_cases hj0 : j = 0
  · subst hj0
    refine ⟨?_, fun h => absurd rfl h⟩
    have := hev 0
    rw [Finset.sum_eq_single 0 (fun i _ hi => by rw [if_neg (by omega), if_neg (by omega), add_zero]) (fun h => absurd (Finset.mem_range.2 (by omega)) h), if_pos (by simp), if_pos (by simp)] at this
    have h2 : (a 0 : ℂ) = 0 := by linear_combination this
    exact_mod_cast h2
  · have h1 := hev j
    rw [Finset.sum_eq_single j (fun i _ hi => by rw [if_neg (by omega), if_neg (by omega), add_zero]) (fun h => absurd (Finset.mem_range.2 (by omega)) h), if_pos rfl, if_neg (by omega), add_zero] at h1
    have h2 := hev (-j)
    rw [Finset.sum_eq_single j (fun i _ hi => by rw [if_neg (by omega), if_neg (by omega), add_zero]) (fun h => absurd (Finset.mem_range.2 (by omega)) h), if_neg (by omega), if_pos rfl, zero_add] at h2
    have h3 : (a j : ℂ) = 0 := by linear_combination h1 + h2
    have h4 : (b j : ℂ) = 0 := by
      have hI : (b j : ℂ) * Complex.I = 0 := by linear_combination h2 - h1
      rcases mul_eq_zero.1 hI with h | h
      · exact h
      · exact absurd h Complex.I_ne_zero
    exact ⟨by exact_mod_cast h3, fun _ => by exact_mod_cast h4⟩

/-- Gaussians with distinct pairs of radius and width are independent. -/
theorem gaussian_indep (radii sigma : List ℝ) (hlen : radii.length = sigma.length) (hs : ∀ s ∈ sigma, 0 < s) (hnd : (radii.zip sigma).Nodup) (x0 : ℝ) (c : ℕ → ℝ)
    (h : ∀ x, x0 < x → ∑ k ∈ Finset.range radii.length, c k * gaussian radii sigma x k = 0) : ∀ k < radii.length, c k = 0 := by
  have hpos : ∀ k < radii.length, 0 < sigma.getD k 0 := fun k hk => by
    rw [List.getD_eq_getElem _ _ (hlen ▸ hk)]
    exact hs _ (List.getElem_mem _)
  have h1 := exp_quad_indep (fun k => -(0.5 : ℝ) / sigma.getD k 0 ^ 2) (fun k => radii.getD k 0 / sigma.getD k 0 ^ 2) (fun k => c k * exp (-(0.5 : ℝ) * radii.getD k 0 ^ 2 / sigma.getD k 0 ^ 2)) x0
    _ (Finset.range radii.length) rfl (fun i hi j hj ha hb => by
      have hi' := Finset.mem_range.1 hi
      have hj' := Finset.mem_range.1 hj
      have pi := hpos i hi'
      have pj := hpos j hj'
      have e1 : sigma.getD i 0 ^ 2 = sigma.getD j 0 ^ 2 := by
        have : sigma.getD i 0 ^ 2 ≠ 0 := by positivity
        have : sigma.getD j 0 ^ 2 ≠ 0 := by positivity
        field_simp at ha
        linarith
      have e2 : sigma.getD i 0 = sigma.getD j 0 := by
        rcases sq_eq_sq_iff_eq_or_eq_neg.1 e1 with e | e
        · exact e
        · linarith
      have e3 : radii.getD i 0 = radii.getD j 0 := by
        simp only [e2] at hb
        have : sigma.getD j 0 ^ 2 ≠ 0 := by positivity
        field_simp at hb
        linarith
      have li : i < (radii.zip sigma).length := by rw [List.length_zip]; omega
      have lj : j < (radii.zip sigma).length := by rw [List.length_zip]; omega
      refine (List.Nodup.getElem_inj_iff hnd (hi := li) (hj := lj)).1 ?_
      rw [List.getElem_zip, List.getElem_zip]
      rw [List.getD_eq_getElem _ _ (hlen ▸ hi'), List.getD_eq_getElem _ _ (hlen ▸ hj')] at e2
      rw [List.getD_eq_getElem _ _ hi', List.getD_eq_getElem _ _ hj'] at e3
      rw [e2, e3])
    (fun x hx => by
      refine Eq.trans (Finset.sum_congr rfl fun k hk => ?_) (h x hx)
      have := hpos k (Finset.mem_range.1 hk)
      rw [gaussian, mul_assoc, ← exp_add]
      congr 2
      field_simp
      ring)
  intro k hk
  rcases mul_eq_zero.1 (h1 k (Finset.mem_range.2 hk)) with h | h
  · exact h
  · exact absurd h (exp_ne_zero _)

/-- The functions of `CircularShellsBasis` are linearly independent. -/
theorem circular_independent (junk : ℕ → ℝ) {L : ℕ} {filter : Option (ℕ × ℕ → ℕ → Bool)} {b : Shells} (radii sigma : List ℝ) (axis : ℝ) (hb : Shells.init ShellKind.circ O2.table.size L radii.length filter = .ok b)
    (hlen : radii.length = sigma.length) (hs : ∀ s ∈ sigma, 0 < s) (hnd : (radii.zip sigma).Nodup) : (circularBasis junk b radii sigma axis).Independent O2.table.size := by
  intro c h
  set I := Shells.items ShellKind.circ (Shells.kept ShellKind.circ radii.length filter) (List.range (L + 1)) with hI
  have htot : (circularBasis junk b radii sigma axis).total O2.table.size = I.length := (Shells.init_spec ShellKind.circ_ok hb).2.2.2.2.1
  have hInd : I.Nodup := Shells.items_nodup _ _ (Shells.kept_nodup _ _ _) _ List.nodup_range
  rw [htot] at h ⊢
  set C : ℕ × ℕ × ℕ → ℝ := fun it => if it ∈ I then c (I.idxOf it) else 0 with hC
  have hCI : ∀ i (hi : i < I.length), C I[i] = c i := fun i hi => by rw [hC]; simp only; rw [if_pos (List.getElem_mem hi), hInd.idxOf_getElem]
  suffices hz : ∀ it ∈ I, C it = 0 by
    intro i hi
    rw [← hCI i hi]
    exact hz _ (List.getElem_mem hi)
  have hsum : ∀ V : ℕ × ℕ × ℕ → ℝ, ∑ j ∈ Finset.range (L + 1), ∑ k ∈ Finset.range radii.length, ∑ d ∈ Finset.range 2, C (j, k, d) * V (j, k, d) = (I.map fun it => C it * V it).sum := by
    intro V
    have h1 := Finset.sum_product (Finset.range (L + 1)) (Finset.range radii.length ×ˢ Finset.range 2) fun it => C it * V it
    have h2 : ∀ j, ∑ e ∈ Finset.range radii.length ×ˢ Finset.range 2, C (j, e) * V (j, e) = ∑ k ∈ Finset.range radii.length, ∑ d ∈ Finset.range 2, C (j, k, d) * V (j, k, d) := fun j =>
      Finset.sum_product _ _ fun e => C (j, e) * V (j, e)
    rw [← Finset.sum_congr rfl fun j _ => h2 j, ← h1, ← List.sum_toFinset _ hInd]
    refine (Finset.sum_subset (fun it hit => ?_) fun it _ hit => ?_).symm
    · obtain ⟨m1, m2, m3⟩ := Shells.mem_items.1 (List.mem_toFinset.1 hit)
      have : ShellKind.circ.dim it.1 ≤ 2 := by simp only [ShellKind.circ]; split_ifs <;> omega
      simp only [Finset.mem_product, Finset.mem_range]
      exact ⟨List.mem_range.1 m1, Shells.mem_kept m2, by omega⟩
    · rw [hC]
      simp only
      rw [if_neg fun e => hit (List.mem_toFinset.2 e), zero_mul]
  have key : ∀ x θ : ℝ, 1 < x → ∑ j ∈ Finset.range (L + 1), ∑ k ∈ Finset.range radii.length, ∑ d ∈ Finset.range 2, C (j, k, d) * (gaussian radii sigma x k * if d = 0 then cos (j * θ) else sin (j * θ)) = 0 := by
    intro x θ hx
    rw [hsum fun it => gaussian radii sigma x it.2.1 * if it.2.2 = 0 then cos (it.1 * θ) else sin (it.1 * θ)]
    refine Eq.trans (sum_range_getElem _ _ _ fun i it hi => ?_).symm (h (x * cos (θ + axis), x * sin (θ + axis)))
    obtain ⟨hlt, e⟩ := List.getElem?_eq_some_iff.1 hi
    have hCi := hCI i hlt
    rw [e] at hCi
    obtain ⟨m1, m2, m3⟩ := Shells.mem_items.1 (List.mem_of_getElem? hi)
    have hn : norm2 (x * cos (θ + axis), x * sin (θ + axis)) = x := by rw [norm2_mk, abs_of_nonneg (by linarith)]
    have hsm : (circularBasis junk b radii sigma axis).sample (x * cos (θ + axis), x * sin (θ + axis)) i = gaussian radii sigma (norm2 (x * cos (θ + axis), x * sin (θ + axis))) it.2.1 *
        circularAt axis (x * cos (θ + axis), x * sin (θ + axis)) (ShellKind.circ.first it.1 + it.2.2) := Shells.sample_spec ShellKind.circ_ok hb junk _ _ i it hi
    rw [hsm, hn, circularAt_polar axis x (θ + axis) (by linarith) it.1 it.2.2 m3, hCi, add_sub_cancel_right]
    congr 2
    by_cases hj : it.1 = 0
    · have : it.2.2 = 0 := by rw [hj] at m3; simpa [ShellKind.circ] using m3
      rw [if_pos hj, if_pos this, hj]
      simp
    · rw [if_neg hj, if_pos (by norm_num; linarith)]
  have key2 : ∀ k < radii.length, ∀ θ : ℝ, ∑ j ∈ Finset.range (L + 1), (C (j, k, 0) * cos (j * θ) + C (j, k, 1) * sin (j * θ)) = 0 := by
    intro k hk θ
    refine gaussian_indep radii sigma hlen hs hnd 1 (fun k => ∑ j ∈ Finset.range (L + 1), (C (j, k, 0) * cos (j * θ) + C (j, k, 1) * sin (j * θ))) (fun x hx => ?_) k hk
    refine Eq.trans ?_ (key x θ hx)
    rw [Finset.sum_comm (s := Finset.range (L + 1))]
    refine Finset.sum_congr rfl fun k _ => ?_
    rw [Finset.sum_mul]
    refine Finset.sum_congr rfl fun j _ => ?_
    rw [Finset.sum_range_succ, Finset.sum_range_one, if_pos rfl, if_neg one_ne_zero]
    ring
  intro it hit
  obtain ⟨m1, m2, m3⟩ := Shells.mem_items.1 hit
  obtain ⟨z1, z2⟩ := trig_indep L (fun j => C (j, it.2.1, 0)) (fun j => C (j, it.2.1, 1)) (key2 it.2.1 (Shells.mem_kept m2)) it.1 (by have := List.mem_range.1 m1; omega)
  obtain ⟨j, k, d⟩ := it
  by_cases hd : d = 0
  · rw [hd]; exact z1
  · have hj : j ≠ 0 := by
      rintro rfl
      simp only [ShellKind.circ] at m3
      simp at m3
      omega
    have : d = 1 := by
      simp only [ShellKind.circ] at m3
      rw [if_pos (by omega)] at m3
      omega
    rw [this]
    exact z2 hj

end Escnn
