import Verif.Lemmas.Bias
import Verif.Spec.Invariants

/-!
# C41: equivariant bias vectors are exactly the invariant vectors
-/

namespace Escnn

open NpMat RWE Real

namespace Bias

variable {G Id : Type} [DecidableEq Id] {El : G → Prop} {op : G → G → G} {one : G} {T : IrrepTable G Id} {triv : Id}

theorem idPos_triv {L : List Id} {t : ℕ} (ht : t < L.count triv) (size : Id → ℕ) : ∃ k, L[k]? = some triv ∧ (idPos size triv 0 L).getD t 0 = chanOffset size L k := by
  have hlt : t < (idPos size triv 0 L).length := by rw [idPos_length]; exact ht
  have hm : (idPos size triv 0 L).getD t 0 ∈ idPos size triv 0 L := by
    rw [List.getD_eq_getElem _ _ hlt]
    exact List.getElem_mem hlt
  obtain ⟨k, h1, h2⟩ := idPos_mem size triv L 0 _ hm
  exact ⟨k, h1, by rw [h2, zero_add]⟩

/-- **C41** For all weights the expanded bias has as many entries as the output type has channels, and on each field it is fixed by the representation of the field. -/
theorem C41_invariant (hT : T.Valid El op one) (ht : T.IsTrivial El triv) (L : List (Rep G Id)) (hwf : ∀ r ∈ L, r.WF T El) (B : NpMat ℝ) (hB : expansion T.size triv L = some B) :
    B.rows = (L.map Rep.size).sum ∧ B.cols = (L.map fun r => r.irreps.count triv).sum ∧
    ∀ (w : ℕ → ℝ) (k : ℕ) r, L[k]? = some r → ∀ g, El g → ∀ i < r.size,
      ∑ j ∈ Finset.range r.size, (r.mat g).get i j * expand B w (chanOffset Rep.size L k + j) = expand B w (chanOffset Rep.size L k + i) := by
  refine ⟨?_, ?_, fun w k r hk g hg i hi => ?_⟩
  · unfold expansion at hB
    split_ifs at hB
    rw [← Option.some.inj hB, (typeLoop_shape T.size triv L _ _ _).1]; rfl
  · unfold expansion at hB
    split_ifs at hB
    rw [← Option.some.inj hB, (typeLoop_shape T.size triv L _ _ _).2.1]
    show trivials triv 0 L = _
    rw [trivials_eq, zero_add]; rfl
  · have hr := hwf r (List.mem_of_getElem? hk)
    rw [expand_field hB w hk hi, Finset.sum_congr rfl fun j hj => by rw [expand_field hB w hk (Finset.mem_range.1 hj), Finset.mul_sum], Finset.sum_comm]
    refine Finset.sum_congr rfl fun t ht' => ?_
    obtain ⟨k', h1, h2⟩ := idPos_triv (Finset.mem_range.1 ht') T.size
    have h := cols_intertwine hT hr h1 hg 0 (by rw [ht.size]; norm_num) i hi
    rw [ht.size, Finset.sum_range_one, ht.mat g hg, mul_one, add_zero] at h
    rw [h2, ← h, Finset.sum_mul]
    exact Finset.sum_congr rfl fun j _ => by ring

/-- A sum over all the channels of a direct sum of irreps in which only trivial irreps contribute. -/
theorem sum_trivial {size : Id → ℕ} (hs : size triv = 1) (f : ℕ → ℝ) : ∀ (L : List Id) (p : ℕ),
    (∀ (k : ℕ) i, L[k]? = some i → i ≠ triv → ∀ a < size i, f (p + chanOffset size L k + a) = 0) →
    ∑ x ∈ Finset.range (L.map size).sum, f (p + x) = ((idPos size triv p L).map f).sum
  | [], _, _ => by simp [idPos]
  | i :: L, p, h => by
    have ih := sum_trivial hs f L (p + size i) fun k i' h1 h2 a ha => by
      have := h (k + 1) i' (by simpa using h1) h2 a ha
      rw [chanOffset_cons_succ] at this
      rw [← this]; congr 1; omega
    rw [List.map_cons, List.sum_cons, Finset.sum_range_add, idPos]
    have e : ∀ x, p + (size i + x) = p + size i + x := fun x => by omega
    simp only [e, ih]
    by_cases hi : i = triv
    · rw [if_pos hi, List.map_cons, List.sum_cons, hi, hs, Finset.sum_range_one, add_zero]
    · rw [if_neg hi, Finset.sum_eq_zero fun a ha => ?_, zero_add]
      have := h 0 i (by simp) hi a (Finset.mem_range.1 ha)
      rwa [chanOffset_zero, add_zero] at this

/-- An invariant vector of a representation is a combination of the columns of the change of basis at the trivial irreps. -/
theorem invariant_field (hT : T.Valid El op one) (ht : T.IsTrivial El triv) (hn : T.NoInvariants El triv) {r : Rep G Id} (hr : r.WF T El) (v : ℕ → ℝ)
    (hv : ∀ g, El g → ∀ i < r.size, ∑ j ∈ Finset.range r.size, (r.mat g).get i j * v j = v i) :
    ∀ i < r.size, v i = ∑ t ∈ Finset.range (cnt triv r), r.cob.get i ((idPos T.size triv 0 r.irreps).getD t 0) *
      ∑ z ∈ Finset.range r.size, r.cobInv.get ((idPos T.size triv 0 r.irreps).getD t 0) z * v z := by
  intro i hi
  set u : ℕ → ℝ := fun x => ∑ z ∈ Finset.range r.size, r.cobInv.get x z * v z with hu
  have hzero : ∀ (k : ℕ) j, r.irreps[k]? = some j → j ≠ triv → ∀ a < T.size j, u (chanOffset T.size r.irreps k + a) = 0 := by
    intro k j hk hj
    refine hn j (hr.ok j (List.mem_of_getElem? hk)) hj (fun a => u (chanOffset T.size r.irreps k + a)) fun g hg a ha => ?_
    have h := rows_intertwine hT hr hk hg a ha
    rw [hr.rows hg, hr.cols hg] at h
    have e1 : u (chanOffset T.size r.irreps k + a) = ∑ y ∈ Finset.range r.size, (∑ z ∈ Finset.range r.size, r.cobInv.get (chanOffset T.size r.irreps k + a) z * (r.mat g).get z y) * v y := by
      rw [hu]
      simp only
      rw [Finset.sum_congr rfl fun z hz => by rw [← hv g hg z (Finset.mem_range.1 hz), Finset.mul_sum], Finset.sum_comm]
      refine Finset.sum_congr rfl fun y _ => ?_
      rw [Finset.sum_mul]
      exact Finset.sum_congr rfl fun z _ => by ring
    have e2 : ∑ y ∈ Finset.range r.size, (∑ z ∈ Finset.range r.size, r.cobInv.get (chanOffset T.size r.irreps k + a) z * (r.mat g).get z y) * v y =
        ∑ y ∈ Finset.range r.size, ∑ l ∈ Finset.range (T.size j), (T.mat j g).get a l * r.cobInv.get (chanOffset T.size r.irreps k + l) y * v y :=
      Finset.sum_congr rfl fun y hy => by rw [h y (Finset.mem_range.1 hy), Finset.sum_mul]
    rw [e1, e2, Finset.sum_comm]
    refine Finset.sum_congr rfl fun l _ => ?_
    rw [hu]
    simp only
    rw [Finset.mul_sum]
    exact Finset.sum_congr rfl fun y _ => by ring
  have hvi : v i = ∑ x ∈ Finset.range (r.irreps.map T.size).sum, r.cob.get i (0 + x) * u (0 + x) := by
    rw [hr.size]
    have hI := hr.inv.2.2.2.1
    have e : ∀ z < r.size, ∑ x ∈ Finset.range r.size, r.cob.get i x * r.cobInv.get x z = if i = z then 1 else 0 := fun z hz => by
      have := hI.2.2 i z hi (by show z < r.cobInv.cols; rw [hr.inv_cols]; exact hz)
      change ∑ x ∈ Finset.range r.cob.cols, _ = _ at this
      rw [hr.cob_cols] at this
      exact this
    simp only [zero_add, hu, Finset.mul_sum]
    rw [Finset.sum_comm, Finset.sum_congr rfl fun z hz => by
      rw [Finset.sum_congr rfl fun x _ => (mul_assoc _ _ _).symm, ← Finset.sum_mul, e z (Finset.mem_range.1 hz)]]
    simp [hi]
  rw [hvi, sum_trivial ht.size (fun x => r.cob.get i x * u x) r.irreps 0 fun k j h1 h2 a ha => by rw [zero_add, hzero k j h1 h2 a ha, mul_zero]]
  rw [cnt, ← idPos_length T.size triv r.irreps 0]
  generalize idPos T.size triv 0 r.irreps = I
  rw [Finset.sum_range fun t => r.cob.get i (I.getD t 0) * u (I.getD t 0), ← List.sum_ofFn]
  congr 1
  refine List.ext_getElem (by simp) fun t h1 h2 => ?_
  simp at h1
  simp [List.getD_eq_getElem _ _ h1]

/-- The weights of a vector given on the fields. -/
noncomputable def weightsOf (size : Id → ℕ) (triv : Id) (v : ℕ → ℝ) : List (Rep G Id) → ℕ → ℕ → ℝ
  | [], _, _ => 0
  | r :: L, p, c =>
    if c < cnt triv r then ∑ z ∈ Finset.range r.size, r.cobInv.get ((idPos size triv 0 r.irreps).getD c 0) z * v (p + z) else weightsOf size triv v L (p + r.size) (c - cnt triv r)

theorem weightsOf_get (size : Id → ℕ) (triv : Id) (v : ℕ → ℝ) : ∀ (L : List (Rep G Id)) (p k : ℕ) (r : Rep G Id), L[k]? = some r → ∀ t < cnt triv r,
    weightsOf size triv v L p (chanOffset (cnt triv) L k + t) = ∑ z ∈ Finset.range r.size, r.cobInv.get ((idPos size triv 0 r.irreps).getD t 0) z * v (p + chanOffset Rep.size L k + z)
  | [], _, _, _, h => by simp at h
  | r' :: L, p, 0, r, h => by
    intro t ht
    obtain rfl : r' = r := by simpa using h
    rw [chanOffset_zero, chanOffset_zero, zero_add, weightsOf, if_pos ht]
    simp
  | r' :: L, p, k + 1, r, h => by
    intro t ht
    rw [chanOffset_cons_succ, weightsOf, if_neg (by omega), show cnt triv r' + chanOffset (cnt triv) L k + t - cnt triv r' = chanOffset (cnt triv) L k + t by omega,
      weightsOf_get size triv v L _ k r (by simpa using h) t ht, chanOffset_cons_succ]
    exact Finset.sum_congr rfl fun z _ => by congr 2; omega

/-- **C41** Conversely, a vector which is fixed on each field is the expanded bias for some weights; if the type contains no trivial irrep (`bias = None`) it is zero. -/
theorem C41_complete (hT : T.Valid El op one) (ht : T.IsTrivial El triv) (hn : T.NoInvariants El triv) (L : List (Rep G Id)) (hwf : ∀ r ∈ L, r.WF T El) (v : ℕ → ℝ)
    (hv : ∀ (k : ℕ) r, L[k]? = some r → ∀ g, El g → ∀ i < r.size,
      ∑ j ∈ Finset.range r.size, (r.mat g).get i j * v (chanOffset Rep.size L k + j) = v (chanOffset Rep.size L k + i)) :
    match expansion T.size triv L with
    | some B => ∃ w, ∀ c < (L.map Rep.size).sum, v c = expand B w c
    | none => ∀ c < (L.map Rep.size).sum, v c = 0 := by
  cases hB : expansion T.size triv L with
  | some B =>
    refine ⟨weightsOf T.size triv v L 0, fun c hc => ?_⟩
    obtain ⟨k, r, o, hk, ho, rfl⟩ := exists_field hc
    rw [expand_field hB _ hk ho, invariant_field hT ht hn (hwf r (List.mem_of_getElem? hk)) (fun o => v (chanOffset Rep.size L k + o)) (hv k r hk) o ho]
    refine Finset.sum_congr rfl fun t ht' => ?_
    rw [weightsOf_get T.size triv v L 0 k r hk t (Finset.mem_range.1 ht'), zero_add]
  | none =>
    intro c hc
    obtain ⟨k, r, o, hk, ho, rfl⟩ := exists_field hc
    have h0 : cnt triv r = 0 := by
      unfold expansion at hB
      split_ifs at hB with h
      rw [trivials_eq, zero_add] at h
      by_contra hne
      have := chanOffset_le (sz := cnt triv) L (k + 1)
      rw [chanOffset_succ hk] at this
      omega
    have := invariant_field hT ht hn (hwf r (List.mem_of_getElem? hk)) (fun o => v (chanOffset Rep.size L k + o)) (hv k r hk) o ho
    rw [h0, Finset.sum_range_zero] at this
    exact this

end Bias

/-! ## the groups of the plane -/

theorem rotation_no_invariants {φ : ℝ} (h : cos φ ≠ 1) (v : ℕ → ℝ) (h0 : cos φ * v 0 + -sin φ * v 1 = v 0) (h1 : sin φ * v 0 + cos φ * v 1 = v 1) : ∀ a < 2, v a = 0 := by
  have hsc := cos_sq_add_sin_sq φ
  have hd : 2 - 2 * cos φ ≠ 0 := fun e => h (by linarith)
  have e0 : (2 - 2 * cos φ) * v 0 = 0 := by
    have a : cos φ * v 0 - sin φ * v 1 - v 0 = 0 := by linarith
    have b : sin φ * v 0 + cos φ * v 1 - v 1 = 0 := by linarith
    linear_combination (cos φ - 1) * a + sin φ * b - v 0 * hsc
  have e1 : (2 - 2 * cos φ) * v 1 = 0 := by
    have a : cos φ * v 0 - sin φ * v 1 - v 0 = 0 := by linarith
    have b : sin φ * v 0 + cos φ * v 1 - v 1 = 0 := by linarith
    linear_combination (cos φ - 1) * b - sin φ * a - v 1 * hsc
  intro a ha
  interval_cases a
  · exact (mul_eq_zero.1 e0).resolve_left hd
  · exact (mul_eq_zero.1 e1).resolve_left hd

theorem SO2.trivial : SO2.table.IsTrivial SO2.IsElement 0 := ⟨rfl, rfl, fun g _ => by simp [SO2.table, SO2.irrepMat, eye]⟩
theorem O2.trivial : O2.table.IsTrivial O2.IsElement (0, 0) := ⟨rfl, rfl, fun g _ => by simp [O2.table, O2.irrepMat, eye]⟩
theorem Cyclic.trivial (N : ℕ) : (Cyclic.table N).IsTrivial (fun g => Cyclic.isElement N g = true) 0 := ⟨by simp [Cyclic.table], rfl, fun g _ => by simp [Cyclic.table, Cyclic.irrepMat, eye]⟩
theorem Dihedral.trivial (N : ℕ) : (Dihedral.table N).IsTrivial (fun g => Dihedral.isElement N g = true) (0, 0) :=
  ⟨by simp [Dihedral.table, Dihedral.irrepOk], rfl, fun g _ => by simp [Dihedral.table, Dihedral.irrepMat, eye]⟩

theorem cos_pi_ne : cos π ≠ 1 := by rw [cos_pi]; norm_num

/-- **C41** for SO(2). -/
theorem C41_so2 : SO2.table.NoInvariants SO2.IsElement 0 := by
  intro k _ hk v hv
  have hs : SO2.table.size k = 2 := by simp [SO2.table, SO2.irrepSize, hk]
  have hk' : (0 : ℝ) < k := by exact_mod_cast Nat.pos_of_ne_zero hk
  have hle : π / k < 2 * π := by
    rw [div_lt_iff₀ hk']
    have : (1 : ℝ) ≤ k := by exact_mod_cast Nat.pos_of_ne_zero hk
    nlinarith [pi_pos]
  have hang : (k : ℝ) * (π / k) = π := by field_simp
  have hg := hv (π / k) ⟨by positivity, hle⟩
  rw [hs] at hg ⊢
  have h0 := hg 0 (by norm_num)
  have h1 := hg 1 (by norm_num)
  simp only [Finset.sum_range_succ, Finset.sum_range_zero, zero_add, SO2.table, SO2.irrepMat, if_neg hk, psi, of2, hang] at h0 h1
  exact rotation_no_invariants cos_pi_ne v (by simpa using h0) (by simpa using h1)

/-- **C41** for O(2). -/
theorem C41_o2 : O2.table.NoInvariants O2.IsElement (0, 0) := by
  rintro ⟨j, k⟩ hok hne v hv
  have hpos := pi_pos
  simp only [O2.table, O2.irrepOk, Bool.and_eq_true, decide_eq_true_eq, Bool.or_eq_true] at hok
  have hj : j = 1 := by
    rcases hok.2 with h | h
    · exact h
    · rcases Nat.lt_or_ge j 1 with h' | h'
      · exact absurd (by rw [h, Nat.lt_one_iff.1 h']) hne
      · omega
  subst hj
  by_cases hk : k = 0
  · subst hk
    have hs : O2.table.size (1, 0) = 1 := rfl
    have h0 := hv (1, 0) ⟨.inr rfl, le_rfl, by positivity⟩
    rw [hs] at h0 ⊢
    have h0 := h0 0 (by norm_num)
    simp [O2.table, O2.irrepMat, of1, sgnR] at h0
    intro a ha
    obtain rfl : a = 0 := by omega
    linarith
  · have hs : O2.table.size (1, k) = 2 := by simp [O2.table, O2.irrepSize, hk]
    have hk' : (0 : ℝ) < k := by exact_mod_cast Nat.pos_of_ne_zero hk
    have hle : π / k < 2 * π := by
      rw [div_lt_iff₀ hk']
      have : (1 : ℝ) ≤ k := by exact_mod_cast Nat.pos_of_ne_zero hk
      nlinarith [pi_pos]
    have hang : (k : ℝ) * (π / k) = π := by field_simp
    have hg := hv (0, π / k) ⟨.inl rfl, by positivity, hle⟩
    rw [hs] at hg ⊢
    have h0 := hg 0 (by norm_num)
    have h1 := hg 1 (by norm_num)
    simp only [Finset.sum_range_succ, Finset.sum_range_zero, zero_add, O2.table, O2.irrepMat, if_neg hk, psichi, of2, hang, sgnR] at h0 h1
    exact rotation_no_invariants cos_pi_ne v (by simpa using h0) (by simpa using h1)

theorem cos_ne_one_of_freq {N k : ℕ} (hN : 0 < N) (h0 : k ≠ 0) (hle : k ≤ N / 2) : cos ((k : ℝ) * (1 * (2 * π) / N)) ≠ 1 := by
  have hN' : (0 : ℝ) < N := by exact_mod_cast hN
  have hk' : (0 : ℝ) < k := by exact_mod_cast Nat.pos_of_ne_zero h0
  have h2 : (2 : ℝ) * k ≤ N := by exact_mod_cast (by omega : 2 * k ≤ N)
  have hpos := pi_pos
  have hlow : 0 < (k : ℝ) * (1 * (2 * π) / N) := by positivity
  have hup : (k : ℝ) * (1 * (2 * π) / N) ≤ π := by
    rw [one_mul, ← mul_div_assoc, div_le_iff₀ hN']
    nlinarith
  intro h
  have := (cos_eq_one_iff_of_lt_of_lt (x := (k : ℝ) * (1 * (2 * π) / N)) (by linarith) (by linarith)).1 h
  linarith

/-- **C41** for the cyclic groups. -/
theorem C41_cyclic (N : ℕ) (hN : 0 < N) : (Cyclic.table N).NoInvariants (fun g => Cyclic.isElement N g = true) 0 := by
  intro k hok hk v hv
  have hle : k ≤ N / 2 := of_decide_eq_true hok
  have hc := cos_ne_one_of_freq hN hk hle
  have hg := hv 1 (by simp [Cyclic.isElement]; omega)
  by_cases h : N % 2 = 0 ∧ k = N / 2
  · have hs : (Cyclic.table N).size k = 1 := by
      simp only [Cyclic.table, Cyclic.irrepSize]; rw [if_neg hk, if_pos h]
    rw [hs] at hg ⊢
    have h0 := hg 0 (by norm_num)
    simp only [Finset.sum_range_one, Cyclic.table, Cyclic.irrepMat] at h0
    rw [if_neg hk, if_pos h] at h0
    simp only [of1, Cyclic.radians, Int.cast_one] at h0
    intro a ha
    obtain rfl : a = 0 := by omega
    by_contra hv0
    exact hc (mul_right_cancel₀ hv0 (h0.trans (one_mul _).symm))
  · have hs : (Cyclic.table N).size k = 2 := by
      simp only [Cyclic.table, Cyclic.irrepSize]; rw [if_neg hk, if_neg h]
    rw [hs] at hg ⊢
    have h0 := hg 0 (by norm_num)
    have h1 := hg 1 (by norm_num)
    simp only [Finset.sum_range_succ, Finset.sum_range_zero, zero_add, Cyclic.table, Cyclic.irrepMat] at h0 h1
    rw [if_neg hk, if_neg h] at h0 h1
    simp only [psi, of2, Cyclic.radians, Int.cast_one] at h0 h1
    exact rotation_no_invariants hc v (by simpa using h0) (by simpa using h1)

/-- **C41** for the dihedral groups. -/
theorem C41_dihedral (N : ℕ) (hN : 0 < N) : (Dihedral.table N).NoInvariants (fun g => Dihedral.isElement N g = true) (0, 0) := by
  rintro ⟨j, k⟩ hok hne v hv
  simp only [Dihedral.table, Dihedral.irrepOk, Bool.and_eq_true, decide_eq_true_eq, Bool.or_eq_true] at hok
  by_cases hk : k = 0
  · subst hk
    have hj : j = 1 := by
      rcases Nat.lt_or_ge j 1 with h' | h'
      · exact absurd (by rw [Nat.lt_one_iff.1 h']) hne
      · omega
    subst hj
    have hs : (Dihedral.table N).size (1, 0) = 1 := rfl
    have h0 := hv (1, 0) (by simp [Dihedral.isElement]; omega)
    rw [hs] at h0 ⊢
    have h0 := h0 0 (by norm_num)
    simp [Dihedral.table, Dihedral.irrepMat, of1, sgnR] at h0
    intro a ha
    obtain rfl : a = 0 := by omega
    linarith
  · have hc := cos_ne_one_of_freq hN hk hok.1.2
    have hN2 : 2 ≤ N := by have := hok.1.2; omega
    have hg := hv (0, 1) (by simp [Dihedral.isElement]; omega)
    by_cases h : N % 2 = 0 ∧ k = N / 2
    · have h' : N % 2 = 0 ∧ 2 * k = N := ⟨h.1, by omega⟩
      have hs : (Dihedral.table N).size (j, k) = 1 := by
        simp only [Dihedral.table, Dihedral.irrepSize]
        by_cases hj : j = 0
        · rw [if_pos hj]
        · rw [if_neg hj, if_neg hk, if_pos h']
      rw [hs] at hg ⊢
      have h0 := hg 0 (by norm_num)
      have h0' : cos ((k : ℝ) * (1 * (2 * π) / N)) * v 0 = v 0 := by
        simp only [Finset.sum_range_one, Dihedral.table, Dihedral.irrepMat] at h0
        by_cases hj : j = 0
        · rw [if_pos hj, if_neg hk, if_pos h] at h0
          simpa [of1, Dihedral.radians] using h0
        · rw [if_neg hj, if_neg hk, if_pos h'] at h0
          simpa [of1, Dihedral.radians, sgnR] using h0
      intro a ha
      obtain rfl : a = 0 := by omega
      by_contra hv0
      exact hc (mul_right_cancel₀ hv0 (h0'.trans (one_mul _).symm))
    · have hj : j ≠ 0 := by
        rintro rfl
        rcases hok.2 with (h2 | h2) | h2
        · omega
        · exact hk h2
        · exact h h2
      have h' : ¬ (N % 2 = 0 ∧ 2 * k = N) := fun e => h ⟨e.1, by omega⟩
      have hs : (Dihedral.table N).size (j, k) = 2 := by
        simp only [Dihedral.table, Dihedral.irrepSize]
        rw [if_neg hj, if_neg hk, if_neg h']
      rw [hs] at hg ⊢
      have h0 := hg 0 (by norm_num)
      have h1 := hg 1 (by norm_num)
      simp only [Finset.sum_range_succ, Finset.sum_range_zero, zero_add, Dihedral.table, Dihedral.irrepMat] at h0 h1
      rw [if_neg hj, if_neg hk, if_neg h'] at h0 h1
      simp only [psichi, of2, Dihedral.radians, Int.cast_one, sgnR] at h0 h1
      exact rotation_no_invariants hc v (by simpa using h0) (by simpa using h1)

/-- Two fields of `C_3`: the trivial irrep and frequency 1, with one bias weight. -/
noncomputable def biasDemo : List (Rep ℤ ℕ) := [irrepRep (Cyclic.table 3) "" ∅ 0, irrepRep (Cyclic.table 3) "" ∅ 1]

example : (∀ r ∈ biasDemo, r.WF (Cyclic.table 3) fun g => Cyclic.isElement 3 g = true) ∧ (Bias.expansion (Cyclic.table 3).size 0 biasDemo).isSome := by
  refine ⟨?_, ?_⟩
  · intro r hr
    simp only [biasDemo, List.mem_cons, List.not_mem_nil, or_false] at hr
    rcases hr with rfl | rfl
    · exact irrepRep_wf (Cyclic.table_valid 3 (by norm_num)) rfl (by decide) _ _
    · exact irrepRep_wf (Cyclic.table_valid 3 (by norm_num)) rfl (by decide) _ _
  · simp [Bias.expansion, biasDemo, Bias.trivials, Bias.countIrreps, irrepRep]

end Escnn
