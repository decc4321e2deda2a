import Verif.Model.VectorField
import Verif.Lemmas.Equivariant
import Verif.Props.C16_Regular
import Verif.Props.C55_Pool

/-!
# C54: the vector field nonlinearity is equivariant when the maximum is unique
-/

namespace Escnn

open Real

variable {B P S C : Type}

/-- The maximum of the `N` entries of `v` is attained once. -/
def UniqueMax (N : ℕ) (v : ℕ → ℝ) : Prop := ∃ i < N, ∀ j < N, j ≠ i → v j < v i

theorem argmaxOf_unique {N : ℕ} {v : ℕ → ℝ} {i : ℕ} (hi : i < N) (h : ∀ j < N, j ≠ i → v j < v i) : argmaxOf N v = i := by
  unfold argmaxOf
  cases ha : (List.range N).argmax v with
  | none =>
    rw [List.argmax_eq_none] at ha
    have := List.range_eq_nil.1 ha
    omega
  | some a =>
    by_contra hne
    have h1 := List.le_of_mem_argmax (List.mem_range.2 hi) (Option.mem_def.2 ha)
    have h2 := List.mem_range.1 (List.argmax_mem (Option.mem_def.2 ha))
    exact absurd (h a h2 hne) (not_lt.2 h1)

/-- Left multiplication in a cyclic group shifts the entries. -/
theorem IsLeftMul.shift {N : ℕ} (hN : 0 < N) {g : ℤ} (hg : g ∈ Cyclic.elements N) {M : NpMat ℝ} (h : IsLeftMul (Cyclic.elements N) (Cyclic.combine N) g M) (v : ℕ → ℝ) (i : ℕ) (hi : i < N) :
    ∑ j ∈ Finset.range N, M.get ((g.toNat + i) % N) j * v j = v i := by
  have hl : (Cyclic.elements N).length = N := by simp [Cyclic.elements]
  have hg0 : 0 ≤ g := by
    simp only [Cyclic.elements, List.mem_map, List.mem_range] at hg
    obtain ⟨a, -, rfl⟩ := hg
    positivity
  have hgn : g.toNat < N := by
    simp only [Cyclic.elements, List.mem_map, List.mem_range] at hg
    obtain ⟨a, ha, rfl⟩ := hg
    simpa using ha
  have hel : ∀ (a : ℕ) (ha : a < (Cyclic.elements N).length), (Cyclic.elements N)[a] = (a : ℤ) := by
    intro a ha
    simp [Cyclic.elements]
  have hlt : (g.toNat + i) % N < (Cyclic.elements N).length := by rw [hl]; exact Nat.mod_lt _ hN
  rw [Finset.sum_eq_single i]
  · rw [(h.2.2 _ i hlt (by rw [hl]; exact hi)).1, one_mul]
    rw [hel, hel, Cyclic.combine]
    push_cast
    rw [Int.toNat_of_nonneg hg0]
  · intro j hj hne
    rw [Finset.mem_range] at hj
    rw [(h.2.2 _ j hlt (by rw [hl]; exact hj)).2, zero_mul]
    rw [hel, hel, Cyclic.combine]
    intro e
    have e' : (g.toNat + i) % N = (g.toNat + j) % N := by
      zify
      push_cast at e
      rw [Int.toNat_of_nonneg hg0] at e ⊢
      exact e
    have h1 : (g.toNat + i) % N = (g.toNat + j) % N := e'
    have h2 := (Nat.ModEq.add_left_cancel' g.toNat (h1 : g.toNat + i ≡ g.toNat + j [MOD N]))
    have h3 : i % N = j % N := h2
    rw [Nat.mod_eq_of_lt hi, Nat.mod_eq_of_lt hj] at h3
    exact hne h3.symm
  · intro hn
    exact absurd (Finset.mem_range.2 hi) hn

theorem cos_shift {N : ℕ} (hN : 0 < N) (g a : ℕ) : cos ((((g + a) % N : ℕ) : ℝ) * (2 * π / N)) = cos ((g + a : ℝ) * (2 * π / N)) := by
  have h : ((g + a : ℕ) : ℝ) = (N : ℝ) * ((g + a) / N : ℕ) + ((g + a) % N : ℕ) := by
    exact_mod_cast (Nat.div_add_mod (g + a) N).symm
  have hN' : (N : ℝ) ≠ 0 := by positivity
  push_cast at h
  rw [h]
  have : ((N : ℝ) * ((g + a) / N : ℕ) + ((g + a) % N : ℕ)) * (2 * π / N) = (((g + a) % N : ℕ) : ℝ) * (2 * π / N) + ((g + a) / N : ℕ) * (2 * π) := by
    field_simp
    ring
  rw [this, cos_add_nat_mul_two_pi]

theorem sin_shift {N : ℕ} (hN : 0 < N) (g a : ℕ) : sin ((((g + a) % N : ℕ) : ℝ) * (2 * π / N)) = sin ((g + a : ℝ) * (2 * π / N)) := by
  have h : ((g + a : ℕ) : ℝ) = (N : ℝ) * ((g + a) / N : ℕ) + ((g + a) % N : ℕ) := by
    exact_mod_cast (Nat.div_add_mod (g + a) N).symm
  have hN' : (N : ℝ) ≠ 0 := by positivity
  push_cast at h
  rw [h]
  have : ((N : ℝ) * ((g + a) / N : ℕ) + ((g + a) % N : ℕ)) * (2 * π / N) = (((g + a) % N : ℕ) : ℝ) * (2 * π / N) + ((g + a) / N : ℕ) * (2 * π) := by
    field_simp
    ring
  rw [this, sin_add_nat_mul_two_pi]

namespace VectorField

theorem init_ok {group : Option ℕ} {t : FType S (Rep ℤ ℕ)} {m : VectorField S} (h : init group t = .ok m) :
    ∃ N, group = some N ∧ 1 < N ∧ (∀ r ∈ t.reprs, "vectorfield" ∈ r.nonlin ∧ r.name = "regular" ∧ r.size = N) ∧
      m = ⟨t, ⟨t.gspace, List.replicate t.reprs.length (Cyclic.irrep1 N)⟩, N⟩ := by
  unfold init at h
  split at h
  · cases h
  · rename_i N
    split_ifs at h with h1 h2
    exact ⟨N, rfl, h1, h2, (Except.ok.inj h).symm⟩

/-- **C54** The constructor accepts the types with regular representations of a cyclic group of order at least 2. -/
theorem C54_init (group : Option ℕ) (t : FType S (Rep ℤ ℕ)) :
    (∃ m, init group t = .ok m) ↔ ∃ N, group = some N ∧ 1 < N ∧ ∀ r ∈ t.reprs, "vectorfield" ∈ r.nonlin ∧ r.name = "regular" ∧ r.size = N := by
  constructor
  · rintro ⟨m, h⟩
    obtain ⟨N, h1, h2, h3, -⟩ := init_ok h
    exact ⟨N, h1, h2, h3⟩
  · rintro ⟨N, rfl, h1, h2⟩
    refine ⟨⟨t, ⟨t.gspace, List.replicate t.reprs.length (Cyclic.irrep1 N)⟩, N⟩, ?_⟩
    rw [init, if_neg (not_not.2 h1), if_neg (not_not.2 h2)]

theorem irrep1_size (N : ℕ) : (Cyclic.irrep1 N).size = if N % 2 = 0 ∧ 1 = N / 2 then 1 else 2 := by
  show Cyclic.irrepSize N 1 = _
  rw [Cyclic.irrepSize, if_neg one_ne_zero]

theorem not_two {N : ℕ} (hN : 2 < N) : ¬ (N % 2 = 0 ∧ 1 = N / 2) := by omega

theorem sum_sizes {t : FType S (Rep ℤ ℕ)} {N : ℕ} (h : ∀ r ∈ t.reprs, r.size = N) (k : ℕ) (hk : k ≤ t.reprs.length) : chanOffset Rep.size t.reprs k = k * N := by
  have : (t.reprs.take k).map Rep.size = List.replicate k N := by
    rw [List.eq_replicate_iff]
    refine ⟨by simp; omega, fun z hz => ?_⟩
    obtain ⟨r', hr', rfl⟩ := List.mem_map.1 hz
    exact h r' (List.mem_of_mem_take hr')
  rw [chanOffset, this]
  simp

theorem size_all {t : FType S (Rep ℤ ℕ)} {N : ℕ} (h : ∀ r ∈ t.reprs, r.size = N) : t.size Rep.size = t.reprs.length * N := by
  rw [FType.size_eq, ← sum_sizes h t.reprs.length le_rfl, chanOffset, List.take_length]

/-- The norm of the output vector for the `N` entries `v` of a regular field. -/
noncomputable def len (N : ℕ) (v : ℕ → ℝ) : ℝ := max (maxOf N v) 0

/-- The entry `o` of the output vector. -/
noncomputable def entry (N o : ℕ) (v : ℕ → ℝ) : ℝ := (if o = 0 then cos (argmaxOf N v * (2 * π / N)) else sin (argmaxOf N v * (2 * π / N))) * len N v

/-- What the forward pass computes; for the group of order 2 this holds if there is one field. -/
theorem forward_spec (junk : B → ℕ → P → ℝ) {N : ℕ} {t : FType S (Rep ℤ ℕ)} {m : VectorField S} (hm : init (some N) t = .ok m) (h2 : N ≠ 2 ∨ t.reprs.length = 1) (x : GTensor B P S (Rep ℤ ℕ) C) (hx : x.type = t)
    (hc : x.tensor.chans = t.size Rep.size) :
    ∃ y, forward junk m x = .ok y ∧ y.type = ⟨t.gspace, List.replicate t.reprs.length (Cyclic.irrep1 N)⟩ ∧ y.coords = x.coords ∧
      y.tensor.chans = (⟨t.gspace, List.replicate t.reprs.length (Cyclic.irrep1 N)⟩ : FType S (Rep ℤ ℕ)).size Rep.size ∧
      ∀ (k : ℕ) (r : Rep ℤ ℕ), (List.replicate t.reprs.length (Cyclic.irrep1 N))[k]? = some r → ∀ o < r.size, ∀ b p,
        y.tensor.get b (chanOffset Rep.size (List.replicate t.reprs.length (Cyclic.irrep1 N)) k + o) p = entry N o fun j => x.tensor.get b (chanOffset Rep.size t.reprs k + j) p := by
  obtain ⟨N', e, hN, hr, rfl⟩ := init_ok hm
  obtain rfl := Option.some.inj e
  have hsz : t.size Rep.size = t.reprs.length * N := size_all fun r h => (hr r h).2.2
  set T : FType S (Rep ℤ ℕ) := ⟨t.gspace, List.replicate t.reprs.length (Cyclic.irrep1 N)⟩ with hT
  have hTs : ∀ r ∈ T.reprs, r.size = (Cyclic.irrep1 N).size := fun r h => by rw [List.eq_of_mem_replicate h]
  have hTsz : T.size Rep.size = t.reprs.length * (Cyclic.irrep1 N).size := by
    rw [size_all hTs]
    simp [hT]
  have hdiv : x.tensor.chans / N = t.reprs.length := by rw [hc, hsz, Nat.mul_div_cancel _ (by omega)]
  have hview : x.tensor.toFields (x.tensor.chans / N) N = .ok ⟨t.reprs.length, N, fun b c o p => x.tensor.get b (c * N + o) p⟩ := by
    rw [hdiv]
    exact if_pos (by rw [hc, hsz])
  have hfwd : forward junk ⟨t, T, N⟩ x = (do
      let out ← setEverySecond ⟨T.size Rep.size, junk⟩ 0 ⟨t.reprs.length, fun b n p => entry N 0 fun j => x.tensor.get b (n * N + j) p⟩
      let out ← setEverySecond out 1 ⟨t.reprs.length, fun b n p => entry N 1 fun j => x.tensor.get b (n * N + j) p⟩
      GTensor.mk' Rep.size out T x.coords) := by
    unfold forward
    rw [if_neg (not_not.2 hx)]
    simp only [bind, Except.bind, hview]
    rfl
  rw [irrep1_size] at hTsz
  by_cases hN2 : N = 2
  · subst hN2
    have hlen := h2.resolve_left (by simp)
    rw [if_pos (by norm_num), hlen, one_mul] at hTsz
    refine ⟨⟨⟨1, fun b c p => if c = 0 then entry 2 0 fun j => x.tensor.get b (0 * 2 + j) p else if 1 ≤ c ∧ (c - 1) % 2 = 0 then entry 2 1 fun j => x.tensor.get b (0 * 2 + j) p else
      (if 0 ≤ c ∧ (c - 0) % 2 = 0 then entry 2 0 fun j => x.tensor.get b ((c - 0) / 2 * 2 + j) p else junk b c p)⟩, T, x.coords⟩, ?_, rfl, rfl, hTsz.symm, ?_⟩
    · rw [hfwd, setEverySecond, if_pos (by simp [hTsz, hlen])]
      simp only [bind, Except.bind]
      rw [setEverySecond, if_neg (by simp [hTsz, hlen]), if_pos (by simp [hlen])]
      simp only
      rw [GTensor.mk', if_pos rfl, hTsz]
      congr 3
      funext b c p
      by_cases hc0 : c = 0
      · subst hc0
        simp
      · rw [if_neg hc0]
    · intro k r hk o ho b p
      have hkl := (List.getElem?_eq_some_iff.1 hk).1
      simp only [List.length_replicate, hlen] at hkl
      obtain rfl : k = 0 := by omega
      have hrs := hTs r (List.mem_of_getElem? hk)
      rw [irrep1_size, if_pos (by norm_num)] at hrs
      obtain rfl : o = 0 := by omega
      simp [chanOffset]
  · have h3 : 2 < N := by omega
    rw [if_neg (not_two h3)] at hTsz
    refine ⟨⟨⟨t.reprs.length * 2, fun b c p => if 1 ≤ c ∧ (c - 1) % 2 = 0 then entry N 1 fun j => x.tensor.get b ((c - 1) / 2 * N + j) p else
      if 0 ≤ c ∧ (c - 0) % 2 = 0 then entry N 0 fun j => x.tensor.get b ((c - 0) / 2 * N + j) p else junk b c p⟩, T, x.coords⟩, ?_, rfl, rfl, hTsz.symm, ?_⟩
    · rw [hfwd, setEverySecond, if_pos (by simp only [hTsz]; omega)]
      simp only [bind, Except.bind]
      rw [setEverySecond, if_pos (by simp only [hTsz]; omega)]
      simp only
      rw [GTensor.mk', if_pos rfl, hTsz]
    · intro k r hk o ho b p
      have hkl := (List.getElem?_eq_some_iff.1 hk).1
      simp only [List.length_replicate] at hkl
      have hrs := hTs r (List.mem_of_getElem? hk)
      rw [irrep1_size, if_neg (not_two h3)] at hrs
      have e1 : chanOffset Rep.size (List.replicate t.reprs.length (Cyclic.irrep1 N)) k = k * 2 := by
        have := sum_sizes hTs k (by simp [hT]; omega)
        rw [irrep1_size, if_neg (not_two h3)] at this
        exact this
      have e2 : chanOffset Rep.size t.reprs k = k * N := sum_sizes (fun r h => (hr r h).2.2) k hkl.le
      rw [e1, e2]
      simp only
      obtain rfl | rfl : o = 0 ∨ o = 1 := by omega
      · rw [if_neg (by omega), if_pos (by omega), show (k * 2 + 0 - 0) / 2 = k by omega]
      · rw [if_pos (by omega), show (k * 2 + 1 - 1) / 2 = k by omega]

/-- **C54** What the module computes for the cyclic groups of order at least 3: the vector with the direction of the index of the maximum, and the positive part of the maximum as its length. -/
theorem C54_values (junk : B → ℕ → P → ℝ) {N : ℕ} (hN : N ≠ 2) {t : FType S (Rep ℤ ℕ)} {m : VectorField S} (hm : init (some N) t = .ok m) (x : GTensor B P S (Rep ℤ ℕ) C) (hx : x.type = t)
    (hc : x.tensor.chans = t.size Rep.size) :
    ∃ y, forward junk m x = .ok y ∧ y.tensor.chans = 2 * t.reprs.length ∧ ∀ k < t.reprs.length, ∀ b p, ∀ i < N, (∀ j < N, j ≠ i → x.tensor.get b (k * N + j) p < x.tensor.get b (k * N + i) p) →
      y.tensor.get b (2 * k) p = cos (2 * π * i / N) * max (x.tensor.get b (k * N + i) p) 0 ∧ y.tensor.get b (2 * k + 1) p = sin (2 * π * i / N) * max (x.tensor.get b (k * N + i) p) 0 := by
  obtain ⟨N', e, hN1, hr, -⟩ := init_ok hm
  obtain rfl := Option.some.inj e
  have h3 : 2 < N := by omega
  obtain ⟨y, e1, e2, e3, e4, e5⟩ := forward_spec junk hm (.inl hN) x hx hc
  have hTs : ∀ r ∈ (⟨t.gspace, List.replicate t.reprs.length (Cyclic.irrep1 N)⟩ : FType S (Rep ℤ ℕ)).reprs, r.size = 2 := fun r h => by
    rw [List.eq_of_mem_replicate h, irrep1_size, if_neg (not_two h3)]
  refine ⟨y, e1, ?_, fun k hk b p i hi hmax => ?_⟩
  · rw [e4, size_all hTs]
    simp [Nat.mul_comm]
  · have hk' : (List.replicate t.reprs.length (Cyclic.irrep1 N))[k]? = some (Cyclic.irrep1 N) := by simp [hk]
    have hs : (Cyclic.irrep1 N).size = 2 := hTs _ (List.mem_of_getElem? hk')
    have a1 : chanOffset Rep.size (List.replicate t.reprs.length (Cyclic.irrep1 N)) k = 2 * k := by
      have := sum_sizes hTs k (by simp; omega)
      rw [Nat.mul_comm]
      exact this
    have a2 : chanOffset Rep.size t.reprs k = k * N := sum_sizes (fun r h => (hr r h).2.2) k hk.le
    have b0 := e5 k _ hk' 0 (by omega) b p
    have b1 := e5 k _ hk' 1 (by omega) b p
    rw [a1, a2] at b0 b1
    have hmx : maxOf N (fun j => x.tensor.get b (k * N + j) p) = x.tensor.get b (k * N + i) p := by
      refine (maxOf_isGreatest (by omega) _).unique ⟨⟨i, hi, rfl⟩, ?_⟩
      rintro _ ⟨j, hj, rfl⟩
      by_cases h : j = i
      · rw [h]
      · exact (hmax j hj h).le
    have harg : argmaxOf N (fun j => x.tensor.get b (k * N + j) p) = i := argmaxOf_unique hi hmax
    have hang : (i : ℝ) * (2 * π / N) = 2 * π * i / N := by ring
    rw [entry, if_pos rfl, harg, len, hmx, hang] at b0
    rw [entry, if_neg one_ne_zero, harg, len, hmx, hang] at b1
    exact ⟨b0, b1⟩

theorem len_shift {N : ℕ} (hN : 0 < N) {v w : ℕ → ℝ} {g : ℕ} (h : ∀ i < N, w ((g + i) % N) = v i) : len N w = len N v := by
  unfold len
  congr 1
  refine (maxOf_isGreatest hN w).unique ?_
  have : w '' Set.Iio N = v '' Set.Iio N := by
    ext z
    constructor
    · rintro ⟨i, hi, rfl⟩
      have hi : i < N := hi
      refine ⟨(i + (N - g % N)) % N, Nat.mod_lt _ hN, ?_⟩
      rw [← h _ (Nat.mod_lt _ hN)]
      congr 1
      have hg : g % N < N := Nat.mod_lt _ hN
      rw [Nat.add_mod, Nat.mod_mod, ← Nat.add_mod]
      have : g + (i + (N - g % N)) = i + N * (g / N + 1) := by
        have := Nat.div_add_mod g N
        rw [Nat.mul_add, Nat.mul_one]
        omega
      rw [this, Nat.add_mul_mod_self_left, Nat.mod_eq_of_lt hi]
    · rintro ⟨i, hi, rfl⟩
      exact ⟨(g + i) % N, Nat.mod_lt _ hN, h i hi⟩
  rw [this]
  exact maxOf_isGreatest hN v

theorem argmax_shift {N : ℕ} (hN : 0 < N) {v w : ℕ → ℝ} {g : ℕ} (h : ∀ i < N, w ((g + i) % N) = v i) (hu : UniqueMax N v) : argmaxOf N w = (g + argmaxOf N v) % N := by
  obtain ⟨i, hi, hmax⟩ := hu
  rw [argmaxOf_unique hi hmax]
  refine argmaxOf_unique (Nat.mod_lt _ hN) fun j hj hne => ?_
  have hg : g % N < N := Nat.mod_lt _ hN
  have hj' : j = (g + (j + (N - g % N)) % N) % N := by
    rw [Nat.add_mod, Nat.mod_mod, ← Nat.add_mod]
    have : g + (j + (N - g % N)) = j + N * (g / N + 1) := by
      have := Nat.div_add_mod g N
      rw [Nat.mul_add, Nat.mul_one]
      omega
    rw [this, Nat.add_mul_mod_self_left, Nat.mod_eq_of_lt hj]
  rw [hj', h _ (Nat.mod_lt _ hN), h i hi]
  refine hmax _ (Nat.mod_lt _ hN) fun e => hne ?_
  rw [hj', e]

theorem len_nonpos {N : ℕ} (hN : 0 < N) {v : ℕ → ℝ} (h : ∀ j < N, v j ≤ 0) : len N v = 0 := by
  unfold len
  obtain ⟨⟨i, hi, e⟩, -⟩ := maxOf_isGreatest hN v
  rw [← e]
  exact max_eq_right (h i hi)

/-- **C54** The module commutes with the action on the fibres for all inputs in which, at each position, each regular field has its maximum once or has no positive entry.  (For the group of order 2 the theorem is
about one field; see `C54_two_violated`.) -/
theorem C54_equivariant_partial (junk : B → ℕ → P → ℝ) {N : ℕ} {t : FType S (Rep ℤ ℕ)} {m : VectorField S} (hm : init (some N) t = .ok m) (h2 : N ≠ 2 ∨ t.reprs.length = 1)
    (hreg : ∀ r ∈ t.reprs, ∀ g ∈ Cyclic.elements N, IsLeftMul (Cyclic.elements N) (Cyclic.combine N) g (r.mat g))
    (x : GTensor B P S (Rep ℤ ℕ) C) (hx : x.type = t) (hc : x.tensor.chans = t.size Rep.size)
    (hu : ∀ k < t.reprs.length, ∀ b p, UniqueMax N (fun j => x.tensor.get b (k * N + j) p) ∨ ∀ j < N, x.tensor.get b (k * N + j) p ≤ 0) (g : ℤ) (hg : g ∈ Cyclic.elements N) :
    ∃ y gx gy gy', forward junk m x = .ok y ∧ y.type = ⟨t.gspace, List.replicate t.reprs.length (Cyclic.irrep1 N)⟩ ∧ y.tensor.chans = y.type.size Rep.size ∧ x.transformFibers g = .ok gx ∧
      forward junk m gx = .ok gy ∧ y.transformFibers g = .ok gy' ∧ gy.type = gy'.type ∧ gy.coords = gy'.coords ∧ gy.tensor ≈ gy'.tensor := by
  obtain ⟨N', e, hN1, hr, -⟩ := init_ok hm
  obtain rfl := Option.some.inj e
  have hN : 0 < N := by omega
  have hl : (Cyclic.elements N).length = N := by simp [Cyclic.elements]
  have hsq : t.Square (· ∈ Cyclic.elements N) := fun r h g hg => by
    have := hreg r h g hg
    exact ⟨by rw [this.1, hl, (hr r h).2.2], by rw [this.2.1, hl, (hr r h).2.2]⟩
  set T : FType S (Rep ℤ ℕ) := ⟨t.gspace, List.replicate t.reprs.length (Cyclic.irrep1 N)⟩ with hT
  have hmat : ∀ g, ((Cyclic.irrep1 N).mat g).rows = (Cyclic.irrep1 N).size ∧ ((Cyclic.irrep1 N).mat g).cols = (Cyclic.irrep1 N).size := by
    intro g
    rw [irrep1_size]
    show (Cyclic.irrepMat N 1 g).rows = _ ∧ (Cyclic.irrepMat N 1 g).cols = _
    rw [Cyclic.irrepMat, if_neg one_ne_zero]
    split_ifs <;> exact ⟨rfl, rfl⟩
  have hTsq : T.Square (· ∈ Cyclic.elements N) := fun r h g _ => by
    rw [List.eq_of_mem_replicate h]
    exact hmat g
  obtain ⟨y, hy1, hy2, hy3, hy4, hy5⟩ := forward_spec junk hm h2 x hx hc
  obtain ⟨gx, e1, e2, e3⟩ := transformFibers_act hsq hg x.tensor hc
  obtain ⟨gy', f1, f2, f3⟩ := transformFibers_act hTsq hg y.tensor hy4
  obtain ⟨gy, g1, g2, g3, g4, g5⟩ := forward_spec junk hm h2 (⟨gx, t, x.coords⟩ : GTensor B P S (Rep ℤ ℕ) C) rfl e2
  refine ⟨y, ⟨gx, t, x.coords⟩, gy, ⟨gy', T, y.coords⟩, hy1, hy2, by rw [hy4, hy2], ?_, g1, ?_, g2, by rw [g3, hy3], g4.trans f2.symm, ?_⟩
  · rw [GTensor.transformFibers, hx]
    simp only [bind, Except.bind, e1]
    exact if_pos e2
  · rw [GTensor.transformFibers, hy2, ← hT]
    simp only [bind, Except.bind, f1]
    exact if_pos f2
  · intro b c p hcc
    rw [g4, FType.size_eq] at hcc
    obtain ⟨k, r, o, hk, ho, rfl⟩ := exists_field hcc
    have hkl := (List.getElem?_eq_some_iff.1 hk).1
    simp only [List.length_replicate] at hkl
    obtain rfl : r = Cyclic.irrep1 N := List.eq_of_mem_replicate (List.mem_of_getElem? hk)
    obtain ⟨q, hq⟩ : ∃ q, t.reprs[k]? = some q := ⟨_, List.getElem?_eq_getElem hkl⟩
    have hqs : q.size = N := (hr q (List.mem_of_getElem? hq)).2.2
    have hoff : chanOffset Rep.size t.reprs k = k * N := sum_sizes (fun r h => (hr r h).2.2) k hkl.le
    rw [g5 k _ hk o ho, f3 k _ hk b o p ho]
    rw [Finset.sum_congr rfl fun j hj => by rw [hy5 k _ hk j (Finset.mem_range.1 hj)]]
    set v : ℕ → ℝ := fun j => x.tensor.get b (chanOffset Rep.size t.reprs k + j) p with hv
    set w : ℕ → ℝ := fun j => gx.get b (chanOffset Rep.size t.reprs k + j) p with hw
    have hshift : ∀ i < N, w ((g.toNat + i) % N) = v i := by
      intro i hi
      have := e3 k q hq b ((g.toNat + i) % N) p (by rw [hqs]; exact Nat.mod_lt _ hN)
      rw [hw]
      beta_reduce
      rw [this, hqs]
      exact (hreg q (List.mem_of_getElem? hq) g hg).shift hN hg v i hi
    have hg0 : (g.toNat : ℝ) = (g : ℝ) := by
      have hg' := hg
      simp only [Cyclic.elements, List.mem_map, List.mem_range] at hg'
      obtain ⟨a, -, rfl⟩ := hg'
      simp
    rcases hu k hkl b p with hm' | hneg
    · rw [← hoff] at hm'
      have harg := argmax_shift hN hshift hm'
      have hlen := len_shift hN hshift
      rw [irrep1_size] at ho ⊢
      by_cases hN2 : N % 2 = 0 ∧ 1 = N / 2
      · rw [if_pos hN2] at ho ⊢
        obtain rfl : o = 0 := by omega
        obtain rfl : N = 2 := by omega
        rw [Finset.sum_range_one]
        show _ = (Cyclic.irrepMat 2 1 g).get 0 0 * _
        rw [Cyclic.irrepMat, if_neg one_ne_zero, if_pos hN2, entry, if_pos rfl, entry, if_pos rfl, harg, hlen, cos_shift hN]
        show _ = cos (((1 : ℕ) : ℝ) * Cyclic.radians 2 g) * _
        have e1 : ((g.toNat : ℝ) + (argmaxOf 2 v : ℝ)) * (2 * π / ((2 : ℕ) : ℝ)) = ((1 : ℕ) : ℝ) * Cyclic.radians 2 g + argmaxOf 2 v * (2 * π / ((2 : ℕ) : ℝ)) := by
          rw [hg0, Cyclic.radians]
          push_cast
          ring
        have e2 : sin ((argmaxOf 2 v : ℝ) * (2 * π / ((2 : ℕ) : ℝ))) = 0 := by
          have : (argmaxOf 2 v : ℝ) * (2 * π / ((2 : ℕ) : ℝ)) = argmaxOf 2 v * π := by
            push_cast
            ring
          rw [this, sin_nat_mul_pi]
        rw [e1, cos_add, e2]
        ring
      · rw [if_neg hN2] at ho ⊢
        have hmat1 : (Cyclic.irrep1 N).mat g = psi (Cyclic.radians N g) 1 := by
          show Cyclic.irrepMat N 1 g = _
          rw [Cyclic.irrepMat, if_neg one_ne_zero, if_neg hN2]
        have hang : ((g.toNat : ℝ) + (argmaxOf N v : ℝ)) * (2 * π / N) = ((1 : ℕ) : ℝ) * Cyclic.radians N g + argmaxOf N v * (2 * π / N) := by
          rw [hg0, Cyclic.radians]
          push_cast
          ring
        rw [Finset.sum_range_succ, Finset.sum_range_one, hmat1]
        obtain rfl | rfl : o = 0 ∨ o = 1 := by omega
        · rw [entry, if_pos rfl, entry, if_pos rfl, entry, if_neg one_ne_zero, harg, hlen, cos_shift hN, hang, cos_add]
          show _ = cos (((1 : ℕ) : ℝ) * Cyclic.radians N g) * _ + -sin (((1 : ℕ) : ℝ) * Cyclic.radians N g) * _
          ring
        · rw [entry, if_neg one_ne_zero, entry, if_pos rfl, entry, if_neg one_ne_zero, harg, hlen, sin_shift hN, hang, sin_add]
          show _ = sin (((1 : ℕ) : ℝ) * Cyclic.radians N g) * _ + cos (((1 : ℕ) : ℝ) * Cyclic.radians N g) * _
          ring
    · rw [← hoff] at hneg
      have h0 : len N v = 0 := len_nonpos hN hneg
      have h0' : len N w = 0 := (len_shift hN hshift).trans h0
      rw [entry, h0', mul_zero]
      exact (Finset.sum_eq_zero fun j _ => by rw [entry, h0, mul_zero, mul_zero]).symm

/-- **C54** For the group of order 2, `irrep_1` has one channel and the output of the module has too few channels: with two or more fields, `forward` raises `RuntimeError` for each input. -/
theorem C54_two_violated (junk : B → ℕ → P → ℝ) {t : FType S (Rep ℤ ℕ)} {m : VectorField S} (hm : init (some 2) t = .ok m) (hl : 1 < t.reprs.length) (x : GTensor B P S (Rep ℤ ℕ) C) (hx : x.type = t)
    (hc : x.tensor.chans = t.size Rep.size) : forward junk m x = .error .runtime := by
  obtain ⟨N', e, hN, hr, rfl⟩ := init_ok hm
  obtain rfl := Option.some.inj e
  have hsz : t.size Rep.size = t.reprs.length * 2 := size_all fun r h => (hr r h).2.2
  set T : FType S (Rep ℤ ℕ) := ⟨t.gspace, List.replicate t.reprs.length (Cyclic.irrep1 2)⟩ with hT
  have hTsz : T.size Rep.size = t.reprs.length := by
    rw [size_all (N := 1) fun r h => by rw [List.eq_of_mem_replicate h, irrep1_size, if_pos (by norm_num)]]
    simp [hT]
  have hview : x.tensor.toFields (x.tensor.chans / 2) 2 = .ok ⟨t.reprs.length, 2, fun b c o p => x.tensor.get b (c * 2 + o) p⟩ := by
    rw [hc, hsz, Nat.mul_div_cancel _ (by omega)]
    exact if_pos (by rw [hc, hsz])
  unfold forward
  rw [if_neg (not_not.2 hx)]
  simp only [bind, Except.bind, hview]
  rw [setEverySecond, if_neg (by simp only [hTsz]; omega), if_neg (by simp only; omega)]

theorem argmaxOf_first {N : ℕ} {v : ℕ → ℝ} {i : ℕ} (hi : i < N) (h : ∀ j < N, v j ≤ v i) (hf : ∀ j < i, v j < v i) : argmaxOf N v = i := by
  unfold argmaxOf
  cases ha : (List.range N).argmax v with
  | none =>
    rw [List.argmax_eq_none] at ha
    have := List.range_eq_nil.1 ha
    omega
  | some a =>
    have h2 := List.mem_range.1 (List.argmax_mem (Option.mem_def.2 ha))
    have h3 := List.index_of_argmax (Option.mem_def.2 ha) (List.mem_range.2 hi) (h a h2)
    have hidx : ∀ c < N, (List.range N).idxOf c = c := by
      intro c hc
      have := List.nodup_range.idxOf_getElem (xs := List.range N) c (by simpa using hc)
      simpa using this
    rw [hidx a h2, hidx i hi] at h3
    have h1 := List.le_of_mem_argmax (List.mem_range.2 hi) (Option.mem_def.2 ha)
    by_contra hne
    exact absurd (hf a (by change ¬ a = i at hne; omega)) (not_lt.2 h1)

/-- The regular representation of the cyclic group of order `N`, with the flag added by `_build_representations`, cyclicgroup.py L383-384. -/
theorem regular_exists (N : ℕ) (hN : 0 < N) : ∃ r : Rep ℤ ℕ, "vectorfield" ∈ r.nonlin ∧ r.name = "regular" ∧ r.size = N ∧
    ∀ g ∈ Cyclic.elements N, IsLeftMul (Cyclic.elements N) (Cyclic.combine N) g (r.mat g) := by
  obtain ⟨r, h, -, h2, h3, -⟩ := Cyclic.C16_cyclic N hN [] (by simp)
  exact ⟨{ r with nonlin := insert "vectorfield" r.nonlin, name := "regular" }, by simp, rfl, h2, h3⟩

/-- **C54** The hypothesis about the maxima is necessary: for a field of the cyclic group of order 4 with the entries 1, 1, 0, 0, the module does not commute with the rotation by three quarters. -/
theorem C54_ties_violated : ∃ (r : Rep ℤ ℕ) (m : VectorField Unit) (x : GTensor Unit Unit Unit (Rep ℤ ℕ) Unit), init (some 4) ⟨(), [r]⟩ = .ok m ∧
    (∀ g ∈ Cyclic.elements 4, IsLeftMul (Cyclic.elements 4) (Cyclic.combine 4) g (r.mat g)) ∧ x.type = ⟨(), [r]⟩ ∧ x.tensor.chans = 4 ∧
    ∀ junk : Unit → ℕ → Unit → ℝ, ∃ y gx gy gy', forward junk m x = .ok y ∧ x.transformFibers 3 = .ok gx ∧ forward junk m gx = .ok gy ∧ y.transformFibers 3 = .ok gy' ∧
      gy.tensor.get () 0 () = 1 ∧ gy'.tensor.get () 0 () = 0 := by
  obtain ⟨r, r1, r2, r3, r4⟩ := regular_exists 4 (by norm_num)
  set t : FType Unit (Rep ℤ ℕ) := ⟨(), [r]⟩ with ht
  obtain ⟨m, hm⟩ := (C54_init (some 4) t).2 ⟨4, rfl, by norm_num, by
    intro q hq
    simp only [ht, List.mem_singleton] at hq
    subst hq
    exact ⟨r1, r2, r3⟩⟩
  have hsz : t.size Rep.size = 4 := by rw [FType.size_eq]; simp [ht, r3]
  let v : ℕ → ℝ := fun j => if j < 2 then 1 else 0
  let x : GTensor Unit Unit Unit (Rep ℤ ℕ) Unit := ⟨⟨4, fun _ j _ => v j⟩, t, ()⟩
  refine ⟨r, m, x, hm, r4, rfl, rfl, fun junk => ?_⟩
  have hg : (3 : ℤ) ∈ Cyclic.elements 4 := by decide
  have hl : (Cyclic.elements 4).length = 4 := rfl
  have hsq : t.Square (· ∈ Cyclic.elements 4) := fun q hq g hg => by
    simp only [ht, List.mem_singleton] at hq
    subst hq
    exact ⟨by rw [(r4 g hg).1, hl, r3], by rw [(r4 g hg).2.1, hl, r3]⟩
  set T : FType Unit (Rep ℤ ℕ) := ⟨(), List.replicate t.reprs.length (Cyclic.irrep1 4)⟩ with hT
  have hmat : ∀ g, (Cyclic.irrep1 4).mat g = psi (Cyclic.radians 4 g) 1 := by
    intro g
    show Cyclic.irrepMat 4 1 g = _
    rw [Cyclic.irrepMat, if_neg one_ne_zero, if_neg (by norm_num)]
  have hs4 : (Cyclic.irrep1 4).size = 2 := by rw [irrep1_size, if_neg (by norm_num)]
  have hTsq : T.Square (· ∈ Cyclic.elements 4) := fun q hq g _ => by
    rw [List.eq_of_mem_replicate hq, hmat, hs4]
    exact ⟨rfl, rfl⟩
  obtain ⟨y, hy1, hy2, hy3, hy4, hy5⟩ := forward_spec junk hm (.inl (by norm_num)) x rfl hsz.symm
  obtain ⟨gx, e1, e2, e3⟩ := transformFibers_act hsq hg x.tensor hsz.symm
  obtain ⟨gy', f1, f2, f3⟩ := transformFibers_act hTsq hg y.tensor hy4
  obtain ⟨gy, g1, g2, g3, g4, g5⟩ := forward_spec junk hm (.inl (by norm_num)) (⟨gx, t, ()⟩ : GTensor Unit Unit Unit (Rep ℤ ℕ) Unit) rfl e2
  have hk : (List.replicate t.reprs.length (Cyclic.irrep1 4))[0]? = some (Cyclic.irrep1 4) := by simp [ht]
  have c0 : ∀ rs : List (Rep ℤ ℕ), chanOffset Rep.size rs 0 = 0 := fun _ => rfl
  refine ⟨y, ⟨gx, t, ()⟩, gy, ⟨gy', T, y.coords⟩, hy1, ?_, g1, ?_, ?_, ?_⟩
  · rw [GTensor.transformFibers]
    show (do let d ← t.transformFibers x.tensor 3; GTensor.mk' Rep.size d t ()) = _
    simp only [bind, Except.bind, e1]
    exact if_pos e2
  · rw [GTensor.transformFibers, hy2, ← hT]
    simp only [bind, Except.bind, f1]
    exact if_pos f2
  · have := g5 0 _ hk 0 (by rw [hs4]; norm_num) () ()
    rw [c0, c0] at this
    rw [this]
    simp only [Nat.zero_add]
    have hshift : ∀ i < 4, gx.get () ((3 + i) % 4) () = v i := by
      intro i hi
      have h1 := e3 0 r (by simp [ht]) () ((3 + i) % 4) () (by rw [r3]; omega)
      rw [c0, r3] at h1
      simp only [Nat.zero_add] at h1
      rw [h1]
      exact (r4 3 hg).shift (by norm_num) hg v i hi
    have w0 : gx.get () 0 () = 1 := by simpa [v] using hshift 1 (by norm_num)
    have w1 : gx.get () 1 () = 0 := by simpa [v] using hshift 2 (by norm_num)
    have w2 : gx.get () 2 () = 0 := by simpa [v] using hshift 3 (by norm_num)
    have w3 : gx.get () 3 () = 1 := by simpa [v] using hshift 0 (by norm_num)
    have hle : ∀ j < 4, gx.get () j () ≤ 1 := by
      intro j hj
      obtain rfl | rfl | rfl | rfl : j = 0 ∨ j = 1 ∨ j = 2 ∨ j = 3 := by omega
      · rw [w0]
      · rw [w1]; norm_num
      · rw [w2]; norm_num
      · rw [w3]
    have ha : argmaxOf 4 (fun j => gx.get () j ()) = 0 := argmaxOf_first (by norm_num) (fun j hj => by rw [w0]; exact hle j hj) (fun j hj => by omega)
    have hmx : maxOf 4 (fun j => gx.get () j ()) = 1 := by
      refine (maxOf_isGreatest (by norm_num) _).unique ⟨⟨0, by norm_num, w0⟩, ?_⟩
      rintro _ ⟨j, hj, rfl⟩
      exact hle j hj
    rw [entry, if_pos rfl, ha, len, hmx]
    simp
  · have := f3 0 _ hk () 0 () (by rw [hs4]; norm_num)
    rw [c0, hs4, Finset.sum_range_succ, Finset.sum_range_one, hmat] at this
    have y0 := hy5 0 _ hk 0 (by rw [hs4]; norm_num) () ()
    have y1 := hy5 0 _ hk 1 (by rw [hs4]; norm_num) () ()
    rw [c0, c0] at y0 y1
    simp only [Nat.zero_add] at this y0 y1
    rw [this, y0, y1]
    have ha : argmaxOf 4 (fun j => x.tensor.get () j ()) = 0 := argmaxOf_first (by norm_num) (fun j _ => by simp only [x, v, if_pos (show 0 < 2 by norm_num)]; split_ifs <;> norm_num) (fun j hj => by omega)
    rw [entry, if_pos rfl, entry, if_neg one_ne_zero, ha]
    show cos (((1 : ℕ) : ℝ) * Cyclic.radians 4 3) * _ + _ = 0
    have : ((1 : ℕ) : ℝ) * Cyclic.radians 4 3 = π / 2 + π := by
      rw [Cyclic.radians]
      push_cast
      ring
    rw [this, cos_add_pi, cos_pi_div_two]
    simp

/-- A field of the cyclic group of order 3 with the entries 0, 2, 1: the hypotheses of `C54_equivariant_partial` hold. -/
example (junk : Unit → ℕ → Unit → ℝ) : ∃ (r : Rep ℤ ℕ) (m : VectorField Unit) (x y : GTensor Unit Unit Unit (Rep ℤ ℕ) Unit), init (some 3) ⟨(), [r]⟩ = .ok m ∧ x.type = ⟨(), [r]⟩ ∧ x.tensor.chans = 3 ∧
    (∀ g ∈ Cyclic.elements 3, IsLeftMul (Cyclic.elements 3) (Cyclic.combine 3) g (r.mat g)) ∧ UniqueMax 3 (fun j => x.tensor.get () j ()) ∧
    forward junk m x = .ok y ∧ y.tensor.get () 1 () = sin (2 * π * 1 / 3) * 2 := by
  obtain ⟨r, r1, r2, r3, r4⟩ := regular_exists 3 (by norm_num)
  obtain ⟨m, hm⟩ := (C54_init (some 3) (⟨(), [r]⟩ : FType Unit (Rep ℤ ℕ))).2 ⟨3, rfl, by norm_num, by
    intro q hq
    simp only [List.mem_singleton] at hq
    subst hq
    exact ⟨r1, r2, r3⟩⟩
  have hsz : (⟨(), [r]⟩ : FType Unit (Rep ℤ ℕ)).size Rep.size = 3 := by rw [FType.size_eq]; simp [r3]
  let v : ℕ → ℝ := fun j => if j = 0 then 0 else if j = 1 then 2 else 1
  have hv : ∀ j < 3, j ≠ 1 → v j < v 1 := by
    intro j hj hne
    obtain rfl | rfl : j = 0 ∨ j = 2 := by omega
    · simp [v]
    · simp [v]
  obtain ⟨y, e1, -, e3⟩ := C54_values junk (by norm_num) hm (⟨⟨3, fun _ j _ => v j⟩, ⟨(), [r]⟩, ()⟩ : GTensor Unit Unit Unit (Rep ℤ ℕ) Unit) rfl hsz.symm
  refine ⟨r, m, ⟨⟨3, fun _ j _ => v j⟩, ⟨(), [r]⟩, ()⟩, y, hm, rfl, rfl, r4, ⟨1, by norm_num, hv⟩, e1, ?_⟩
  have := (e3 0 (by simp) () () 1 (by norm_num) (by simpa using hv)).2
  simpa [v] using this

end VectorField

end Escnn
