import Verif.Model.Cyclic
import Mathlib.Data.ZMod.Basic
import Mathlib.Tactic

/-!
# C01 — cyclic groups are groups, enumerated exactly once
-/

namespace Escnn.Cyclic

theorem isElement_iff {N : ℕ} {e : ℤ} : isElement N e = true ↔ 0 ≤ e ∧ e < N := by
  simp [isElement]

theorem isElement_emod {N : ℕ} (hN : 0 < N) (x : ℤ) : isElement N (x % N) = true := by
  have h : (0 : ℤ) < N := by exact_mod_cast hN
  exact isElement_iff.2 ⟨Int.emod_nonneg _ h.ne', Int.emod_lt_of_pos _ h⟩

/-- **C01** Group laws, closure, and enumeration for every cyclic group `C_N`. -/
theorem C01_cyclic_group_laws (N : ℕ) (hN : 0 < N) :
    -- closure
    isElement N identity = true ∧
    (∀ a b, isElement N a = true → isElement N b = true → isElement N (combine N a b) = true) ∧
    (∀ a, isElement N a = true → isElement N (inverse N a) = true) ∧
    -- group laws
    (∀ a b c, combine N (combine N a b) c = combine N a (combine N b c)) ∧
    (∀ a, isElement N a = true → combine N identity a = a ∧ combine N a identity = a) ∧
    (∀ a, combine N a (inverse N a) = identity ∧ combine N (inverse N a) a = identity) ∧
    -- enumeration
    (elements N).length = N ∧ (elements N).Nodup ∧
    (∀ e, e ∈ elements N ↔ isElement N e = true) := by
  refine ⟨?_, ?_, ?_, ?_, ?_, ?_, ?_, ?_, ?_⟩
  · simp [isElement, identity, hN]
  · intro a b _ _; exact isElement_emod hN _
  · intro a _; exact isElement_emod hN _
  · intro a b c; simp [combine, add_assoc]
  · intro a ha
    obtain ⟨h0, h1⟩ := isElement_iff.1 ha
    simp [combine, identity, Int.emod_eq_of_lt h0 h1]
  · intro a; simp [combine, inverse, identity]
  · simp [elements]
  · rw [elements]
    exact List.nodup_range.map (fun a b h => by simpa using h)
  · intro e
    rw [isElement_iff]
    simp only [elements, List.mem_map, List.mem_range]
    constructor
    · rintro ⟨i, hi, rfl⟩; constructor <;> omega
    · rintro ⟨h0, h1⟩; exact ⟨e.toNat, by omega, by omega⟩

/-- **C01** (independent specification) The model of `C_N` is Mathlib's `ZMod N`: the cast is a bijection from
valid elements and carries `@`, `~` and the identity to `+`, `-`, `0`. -/
theorem C01_cyclic_iso_zmod (N : ℕ) [NeZero N] :
    (∀ z : ZMod N, ∃! e : ℤ, isElement N e = true ∧ (e : ZMod N) = z) ∧
    (∀ a b, ((combine N a b : ℤ) : ZMod N) = a + b) ∧
    (∀ a, ((inverse N a : ℤ) : ZMod N) = -a) ∧
    ((identity : ℤ) : ZMod N) = 0 := by
  refine ⟨?_, ?_, ?_, ?_⟩
  · intro z
    refine ⟨(z.val : ℤ), ⟨isElement_iff.2 ⟨by omega, by exact_mod_cast z.val_lt⟩, by simp⟩, ?_⟩
    rintro e ⟨he, rfl⟩
    obtain ⟨h0, h1⟩ := isElement_iff.1 he
    rw [ZMod.val_intCast, Int.emod_eq_of_lt h0 h1]
  · intro a b; simp [combine]
  · intro a; simp [inverse]
  · simp [identity]

/-- **C01** The generators of the library reach every element: each element is a finite product of generators. -/
theorem C01_cyclic_generators (N : ℕ) (hN : 0 < N) (e : ℤ) (he : isElement N e = true) :
    ∃ w : List ℤ, (∀ x ∈ w, x ∈ generators N) ∧ w.foldl (combine N) identity = e := by
  obtain ⟨h0, h1⟩ := isElement_iff.1 he
  by_cases hN1 : 1 < N
  · have key : ∀ n : ℕ, (List.replicate n (1 : ℤ)).foldl (combine N) identity = (n : ℤ) % N := by
      intro n
      induction n with
      | zero => simp [identity]
      | succ n ih =>
        rw [List.replicate_succ', List.foldl_append, ih]
        simp [combine]
    refine ⟨List.replicate e.toNat 1, ?_, ?_⟩
    · intro x hx
      rw [List.mem_replicate] at hx
      simp [generators, elements, hN1, hx.2]
    · rw [key, Int.toNat_of_nonneg h0, Int.emod_eq_of_lt h0 h1]
  · refine ⟨[], by simp, ?_⟩
    simp [identity]; omega

-- the hypotheses are met by non-trivial groups, e.g. C_8 and its element 5
example : 0 < 8 ∧ isElement 8 5 = true ∧ combine 8 5 7 = 4 ∧ inverse 8 5 = 3 := by decide

/-- **C01** `==` on elements decides equality in `ℤ/N`. -/
theorem C01_cyclic_equal (N : ℕ) (a b : ℤ) (ha : isElement N a = true) (hb : isElement N b = true) :
    equal a b = true ↔ (a : ZMod N) = b := by
  rw [ZMod.intCast_eq_intCast_iff']
  obtain ⟨a0, a1⟩ := isElement_iff.1 ha
  obtain ⟨b0, b1⟩ := isElement_iff.1 hb
  rw [Int.emod_eq_of_lt a0 a1, Int.emod_eq_of_lt b0 b1]
  simp [equal]

theorem mapM_element (N : ℕ) (f : ℕ → ℤ) (L : List ℕ) (h : ∀ i ∈ L, isElement N (f i) = true) :
    (L.mapM fun i => element N (f i)) = .ok (L.map f) := by
  induction L with
  | nil => rfl
  | cons i L ih =>
    rw [List.mapM_cons, ih fun j hj => h j (List.mem_cons_of_mem _ hj), element, if_pos (h i (by simp))]
    rfl

/-- **C01** `grid('regular', n)` exists exactly when `n` divides the order; it lists the `n` elements of the subgroup of order `n`,
each one once. -/
theorem C01_cyclic_grid (N n : ℕ) (hN : 0 < N) :
    ((∃ L, gridRegular N n = .ok L) ↔ n ∣ N) ∧
    ∀ L, gridRegular N n = .ok L → L.length = n ∧ L.Nodup ∧
      ∀ e, e ∈ L ↔ isElement N e = true ∧ ((n : ℤ) * e) % N = 0 := by
  have hok : ∀ (h : n ∣ N), 0 < n → gridRegular N n = .ok ((List.range n).map fun i : ℕ => (i : ℤ) * (N / n : ℕ)) := by
    intro h hn
    obtain ⟨r, rfl⟩ := h
    have hr : n * r / n = r := Nat.mul_div_cancel_left r hn
    have hrp : 0 < r := Nat.pos_of_mul_pos_left hN
    unfold gridRegular
    rw [if_neg (by omega), if_pos (Nat.mul_mod_right n r), hr]
    refine mapM_element _ (fun i : ℕ => (i : ℤ) * (r : ℕ)) _ fun i hi => isElement_iff.2 ⟨by positivity, ?_⟩
    rw [List.mem_range] at hi
    exact_mod_cast Nat.mul_lt_mul_of_pos_right hi hrp
  constructor
  · constructor
    · rintro ⟨L, hL⟩
      unfold gridRegular at hL
      split_ifs at hL with h0 h1
      exact Nat.dvd_of_mod_eq_zero h1
    · intro h
      exact ⟨_, hok h (Nat.pos_of_dvd_of_pos h hN)⟩
  · intro L hL
    have hd : n ∣ N := by
      unfold gridRegular at hL
      split_ifs at hL with h0 h1
      exact Nat.dvd_of_mod_eq_zero h1
    have hn := Nat.pos_of_dvd_of_pos hd hN
    rw [hok hd hn] at hL
    cases hL
    obtain ⟨r, rfl⟩ := hd
    have hrp : 0 < r := Nat.pos_of_mul_pos_left hN
    have hr : n * r / n = r := Nat.mul_div_cancel_left r hn
    rw [hr]
    refine ⟨by simp, ?_, fun e => ?_⟩
    · refine List.Nodup.map (fun i j hij => ?_) List.nodup_range
      have : (r : ℤ) ≠ 0 := by exact_mod_cast hrp.ne'
      exact_mod_cast mul_right_cancel₀ this hij
    · rw [List.mem_map]
      constructor
      · rintro ⟨i, hi, rfl⟩
        rw [List.mem_range] at hi
        refine ⟨isElement_iff.2 ⟨by positivity, by exact_mod_cast Nat.mul_lt_mul_of_pos_right hi hrp⟩, ?_⟩
        rw [show (n : ℤ) * (i * (r : ℕ)) = ((n * r : ℕ) : ℤ) * i by push_cast; ring]
        exact Int.mul_emod_right _ _
      · rintro ⟨he, h2⟩
        obtain ⟨e0, e1⟩ := isElement_iff.1 he
        obtain ⟨q, hq⟩ := Int.dvd_of_emod_eq_zero h2
        have hne : (n : ℤ) ≠ 0 := by exact_mod_cast hn.ne'
        have he' : e = r * q := by
          have : (n : ℤ) * e = n * (r * q) := by rw [hq]; push_cast; ring
          exact mul_left_cancel₀ hne this
        have hrz : (0 : ℤ) < r := by exact_mod_cast hrp
        have hq0 : 0 ≤ q := by
          rw [he'] at e0
          exact nonneg_of_mul_nonneg_right e0 hrz
        have hq1 : q < n := by
          rw [he'] at e1
          push_cast at e1
          rw [mul_comm (n : ℤ)] at e1
          exact lt_of_mul_lt_mul_left e1 hrz.le
        refine ⟨q.toNat, by rw [List.mem_range]; omega, ?_⟩
        rw [Int.toNat_of_nonneg hq0, he', mul_comm]

example : gridRegular 6 3 = .ok [0, 2, 4] := by decide

end Escnn.Cyclic
