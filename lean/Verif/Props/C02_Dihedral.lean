import Verif.Model.Dihedral
import Mathlib.GroupTheory.SpecificGroups.Dihedral
import Mathlib.Tactic

/-!
# C02 — dihedral groups are groups, enumerated exactly once
-/

namespace Escnn.Dihedral

theorem isElement_iff {N : ℕ} {e : Elem} :
    isElement N e = true ↔ (e.1 = 0 ∨ e.1 = 1) ∧ 0 ≤ e.2 ∧ e.2 < N := by
  simp [isElement]

theorem emod_bounds {N : ℕ} (hN : 0 < N) (x : ℤ) : 0 ≤ x % (N : ℤ) ∧ x % (N : ℤ) < N := by
  have h : (0 : ℤ) < N := by exact_mod_cast hN
  exact ⟨Int.emod_nonneg _ h.ne', Int.emod_lt_of_pos _ h⟩

/-- **C02** Group laws, closure, and enumeration for every dihedral group `D_N`. -/
theorem C02_dihedral_group_laws (N : ℕ) (hN : 0 < N) :
    isElement N identity = true ∧
    (∀ a b, isElement N a = true → isElement N b = true → isElement N (combine N a b) = true) ∧
    (∀ a, isElement N a = true → isElement N (inverse N a) = true) ∧
    (∀ a b c, isElement N a = true → isElement N b = true → isElement N c = true →
      combine N (combine N a b) c = combine N a (combine N b c)) ∧
    (∀ a, isElement N a = true → combine N identity a = a ∧ combine N a identity = a) ∧
    (∀ a, isElement N a = true → combine N a (inverse N a) = identity ∧ combine N (inverse N a) a = identity) ∧
    (elements N).length = 2 * N ∧ (elements N).Nodup ∧
    (∀ e, e ∈ elements N ↔ isElement N e = true) := by
  refine ⟨?_, ?_, ?_, ?_, ?_, ?_, ?_, ?_, ?_⟩
  · simp [isElement, identity, hN]
  · intro a b _ _
    have := emod_bounds hN (a.2 + sgn a.1 * b.2)
    refine isElement_iff.2 ⟨?_, this.1, this.2⟩
    simp only [combine]; omega
  · intro a ha
    have := emod_bounds hN (-a.2 * sgn a.1)
    exact isElement_iff.2 ⟨(isElement_iff.1 ha).1, this.1, this.2⟩
  · rintro ⟨f, r⟩ ⟨f', r'⟩ ⟨f'', r''⟩ ha hb hc
    obtain ⟨h, -⟩ := isElement_iff.1 ha
    obtain ⟨h', -⟩ := isElement_iff.1 hb
    obtain ⟨h'', -⟩ := isElement_iff.1 hc
    rcases h with h | h <;> rcases h' with h' | h' <;> rcases h'' with h'' | h'' <;>
      (simp only at h h' h''; subst h h' h''; refine Prod.ext rfl ?_
       simp only [combine, sgn]; rw [← ZMod.intCast_eq_intCast_iff']; simp <;> ring)
  · rintro ⟨f, r⟩ ha
    obtain ⟨h, h0, h1⟩ := isElement_iff.1 ha
    simp only at h h0 h1
    rcases h with h | h <;> subst h <;> simp [combine, identity, sgn, Int.emod_eq_of_lt h0 h1]
  · rintro ⟨f, r⟩ ha
    obtain ⟨h, h0, h1⟩ := isElement_iff.1 ha
    simp only at h h0 h1
    rcases h with h | h <;> subst h <;> simp [combine, inverse, identity, sgn, Int.emod_eq_of_lt h0 h1]
  · simp [elements]; ring
  · rw [elements, List.nodup_append]
    refine ⟨List.nodup_range.map (fun a b h => by simpa using h),
      List.nodup_range.map (fun a b h => by simpa using h), ?_⟩
    intro a ha b hb
    simp only [List.mem_map] at ha hb
    obtain ⟨_, _, rfl⟩ := ha
    obtain ⟨_, _, rfl⟩ := hb
    simp
  · rintro ⟨f, r⟩
    rw [isElement_iff]
    simp only [elements, List.mem_append, List.mem_map, List.mem_range, Prod.mk.injEq]
    constructor
    · rintro (⟨i, hi, rfl, rfl⟩ | ⟨i, hi, rfl, rfl⟩) <;> omega
    · rintro ⟨rfl | rfl, h0, h1⟩
      · exact .inl ⟨r.toNat, by omega, rfl, by omega⟩
      · exact .inr ⟨r.toNat, by omega, rfl, by omega⟩

/-- The specification: an escnn element `(flip, rot)` is the rotation by `rot` composed with the reflection;
in Mathlib's `DihedralGroup` (where `sr i = s * r i`) that is `r rot` or `sr (-rot)`. -/
def toMathlib (N : ℕ) (e : Elem) : DihedralGroup N :=
  if e.1 = 0 then .r (e.2 : ZMod N) else .sr (-(e.2 : ZMod N))

/-- **C02** (independent specification) The model of `D_N` is Mathlib's dihedral group of order `2N`. -/
theorem C02_dihedral_iso_mathlib (N : ℕ) [NeZero N] :
    (∀ z : DihedralGroup N, ∃! e : Elem, isElement N e = true ∧ toMathlib N e = z) ∧
    (∀ a b, isElement N a = true → isElement N b = true →
      toMathlib N (combine N a b) = toMathlib N a * toMathlib N b) ∧
    (∀ a, isElement N a = true → toMathlib N (inverse N a) = (toMathlib N a)⁻¹) ∧
    toMathlib N identity = 1 := by
  refine ⟨?_, ?_, ?_, ?_⟩
  · rintro (i | i)
    · refine ⟨(0, (i.val : ℤ)), ⟨isElement_iff.2 ⟨.inl rfl, Int.natCast_nonneg _, Int.ofNat_lt.2 i.val_lt⟩, ?_⟩, ?_⟩
      · simp [toMathlib]
      · rintro ⟨f, r⟩ ⟨he, h⟩
        obtain ⟨hf, h0, h1⟩ := isElement_iff.1 he
        simp only at hf h0 h1
        rcases hf with rfl | rfl <;> simp [toMathlib] at h
        subst h
        rw [ZMod.val_intCast, Int.emod_eq_of_lt h0 h1]
    · refine ⟨(1, ((-i).val : ℤ)), ⟨isElement_iff.2 ⟨.inr rfl, Int.natCast_nonneg _, Int.ofNat_lt.2 (-i).val_lt⟩, ?_⟩, ?_⟩
      · simp [toMathlib]
      · rintro ⟨f, r⟩ ⟨he, h⟩
        obtain ⟨hf, h0, h1⟩ := isElement_iff.1 he
        simp only at hf h0 h1
        rcases hf with rfl | rfl <;> simp [toMathlib] at h
        subst h
        rw [neg_neg, ZMod.val_intCast, Int.emod_eq_of_lt h0 h1]
  · rintro ⟨f, r⟩ ⟨f', r'⟩ ha hb
    obtain ⟨hf, -⟩ := isElement_iff.1 ha
    obtain ⟨hf', -⟩ := isElement_iff.1 hb
    simp only at hf hf'
    rcases hf with rfl | rfl <;> rcases hf' with rfl | rfl <;>
      simp [toMathlib, combine, sgn, add_comm, sub_eq_add_neg]
  · rintro ⟨f, r⟩ ha
    obtain ⟨hf, -⟩ := isElement_iff.1 ha
    simp only at hf
    rcases hf with rfl | rfl <;> simp [toMathlib, inverse, sgn]
  · simp [toMathlib, identity]

/-- **C02** The library's generators reach every element. -/
theorem C02_dihedral_generators (N : ℕ) (hN : 0 < N) (e : Elem) (he : isElement N e = true) :
    ∃ w : List Elem, (∀ x ∈ w, x ∈ generators N) ∧ w.foldl (combine N) identity = e := by
  obtain ⟨f, r⟩ := e
  obtain ⟨hf, h0, h1⟩ := isElement_iff.1 he
  simp only at hf h0 h1
  by_cases hN1 : 1 < N
  · have key : ∀ n : ℕ, (List.replicate n ((0, 1) : Elem)).foldl (combine N) identity = (0, (n : ℤ) % N) := by
      intro n
      induction n with
      | zero => simp [identity]
      | succ n ih =>
        rw [List.replicate_succ', List.foldl_append, ih]
        simp [combine, sgn]
    have hr : ((r.toNat : ℕ) : ℤ) % N = r := by rw [Int.toNat_of_nonneg h0, Int.emod_eq_of_lt h0 h1]
    rcases hf with rfl | rfl
    · refine ⟨List.replicate r.toNat (0, 1), ?_, by rw [key, hr]⟩
      intro x hx
      rw [List.mem_replicate] at hx
      simp [generators, hN1, hx.2]
    · refine ⟨List.replicate r.toNat (0, 1) ++ [(1, 0)], ?_, ?_⟩
      · intro x hx
        rw [List.mem_append, List.mem_replicate] at hx
        rcases hx with hx | hx
        · simp [generators, hN1, hx.2]
        · simp at hx; simp [generators, hN1, hx]
      · rw [List.foldl_append, key, hr]
        simp [combine, sgn, Int.emod_eq_of_lt h0 h1]
  · have hN' : N = 1 := by omega
    subst hN'
    have hr : r = 0 := by omega
    subst hr
    rcases hf with rfl | rfl
    · exact ⟨[], by simp, rfl⟩
    · exact ⟨[(1, 0)], by simp [generators], by decide⟩

example : 0 < 6 ∧ isElement 6 (1, 5) = true ∧ combine 6 (1, 5) (0, 2) = (1, 3) ∧
    inverse 6 (1, 5) = (1, 5) ∧ combine 6 (0, 2) (1, 5) = (1, 1) := by decide

/-- **C02** `==` on elements decides equality in the dihedral group. -/
theorem C02_dihedral_equal (N : ℕ) [NeZero N] (a b : Elem) (ha : isElement N a = true) (hb : isElement N b = true) :
    equal a b = true ↔ toMathlib N a = toMathlib N b := by
  have e : equal a b = true ↔ a = b := by
    obtain ⟨a1, a2⟩ := a
    obtain ⟨b1, b2⟩ := b
    simp [equal]
  rw [e]
  constructor
  · rintro rfl; rfl
  · intro h
    obtain ⟨c, -, hc⟩ := (C02_dihedral_iso_mathlib N).1 (toMathlib N b)
    rw [hc a ⟨ha, h⟩, hc b ⟨hb, rfl⟩]

end Escnn.Dihedral
