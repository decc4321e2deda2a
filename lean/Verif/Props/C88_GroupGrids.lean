import Verif.Model.GroupGrids
import Verif.Props.C53_Fourier
import Verif.Props.C16_Regular
import Verif.Lemmas.Cycle

/-!
# C88: regular grids of groups
-/

namespace Escnn

open Real

/-- The image of a finite group under an injective homomorphism. -/
theorem FinGroup.map {G H : Type} {els : List H} {mul : H → H → H} {inv : H → H} {one : H} (h : FinGroup els mul inv one) {mul' : G → G → G} {inv' : G → G} {one' : G} (f : H → G)
    (hinj : ∀ a ∈ els, ∀ b ∈ els, f a = f b → a = b) (hmul : ∀ a ∈ els, ∀ b ∈ els, mul' (f a) (f b) = f (mul a b)) (hinv : ∀ a ∈ els, inv' (f a) = f (inv a)) (hone : f one = one') :
    FinGroup (els.map f) mul' inv' one' := by
  have hm : ∀ x ∈ els.map f, ∃ a ∈ els, f a = x := fun x hx => List.mem_map.1 hx
  subst hone
  refine ⟨h.nodup.map_on hinj, List.mem_map_of_mem h.one_mem, ?_, ?_, ?_, ?_, ?_, ?_, ?_⟩
  · intro x hx y hy
    obtain ⟨a, ha, rfl⟩ := hm x hx
    obtain ⟨b, hb, rfl⟩ := hm y hy
    rw [hmul a ha b hb]; exact List.mem_map_of_mem (h.mul_mem a ha b hb)
  · intro x hx
    obtain ⟨a, ha, rfl⟩ := hm x hx
    rw [hinv a ha]; exact List.mem_map_of_mem (h.inv_mem a ha)
  · intro x hx y hy z hz
    obtain ⟨a, ha, rfl⟩ := hm x hx
    obtain ⟨b, hb, rfl⟩ := hm y hy
    obtain ⟨c, hc, rfl⟩ := hm z hz
    rw [hmul a ha b hb, hmul b hb c hc, hmul _ (h.mul_mem a ha b hb) c hc, hmul a ha _ (h.mul_mem b hb c hc), h.assoc a ha b hb c hc]
  · intro x hx
    obtain ⟨a, ha, rfl⟩ := hm x hx
    rw [hmul _ h.one_mem a ha, h.one_mul a ha]
  · intro x hx
    obtain ⟨a, ha, rfl⟩ := hm x hx
    rw [hmul a ha _ h.one_mem, h.mul_one a ha]
  · intro x hx
    obtain ⟨a, ha, rfl⟩ := hm x hx
    rw [hinv a ha, hmul _ (h.inv_mem a ha) a ha, h.inv_mul a ha]
  · intro x hx
    obtain ⟨a, ha, rfl⟩ := hm x hx
    rw [hinv a ha, hmul a ha _ (h.inv_mem a ha), h.mul_inv a ha]

theorem mod2pi_frac {N : ℕ} (hN : 0 < N) (x : ℤ) : mod2pi (((x % N : ℤ) : ℝ) * 2 * π / N) = mod2pi ((x : ℝ) * 2 * π / N) := by
  have hNr : (N : ℝ) ≠ 0 := by exact_mod_cast hN.ne'
  refine mod2pi_eq_iff.2 ⟨-(x / N), ?_⟩
  have h : ((x % N : ℤ) : ℝ) = x - N * (x / N : ℤ) := by
    have := Int.emod_add_mul_ediv x N
    have h2 : (x % N : ℤ) = x - N * (x / N) := by omega
    rw [h2]; push_cast; ring
  rw [h]; push_cast; field_simp; ring

theorem mod2pi_frac_inj {N : ℕ} (hN : 0 < N) {a b : ℤ} (ha : 0 ≤ a ∧ a < N) (hb : 0 ≤ b ∧ b < N) (e : mod2pi ((a : ℝ) * 2 * π / N) = mod2pi ((b : ℝ) * 2 * π / N)) : a = b := by
  have hNr : (N : ℝ) ≠ 0 := by exact_mod_cast hN.ne'
  obtain ⟨q, hq⟩ := mod2pi_eq_iff.1 e
  have h1 : (a : ℝ) = b + q * N := by field_simp at hq; linear_combination hq
  have h2 : a = b + q * N := by exact_mod_cast h1
  have hq0 : q = 0 := by
    by_contra hk
    rcases lt_or_gt_of_ne hk with h | h
    · have : q * N ≤ -1 * N := by nlinarith
      omega
    · have : 1 * N ≤ q * N := by nlinarith
      omega
  subst hq0; omega

/-- **C88** The regular grid of SO(2) is the subgroup of `N` rotations, without repetitions, in the order of the inclusion of `C_N`. -/
theorem C88_so2 {N : ℕ} (hN : 0 < N) : ∃ L, SO2.grid N .regular = .ok L ∧ L.length = N ∧ (∀ g ∈ L, SO2.IsElement g) ∧ FinGroup L SO2.combine SO2.inverse SO2.identity ∧ L = (Cyclic.elements N).map (SO2.parentMap N) ∧
    SO2.testingElements N = L := by
  have hL : (List.range N).map (fun i : ℕ => mod2pi ((i : ℝ) * 2 * π / N)) = (Cyclic.elements N).map fun e : ℤ => mod2pi ((e : ℝ) * 2 * π / N) := by
    rw [Cyclic.elements, List.map_map]; simp [Function.comp_def]
  refine ⟨_, rfl, by simp, fun g hg => ?_, ?_, hL, rfl⟩
  · obtain ⟨i, -, rfl⟩ := List.mem_map.1 hg
    exact ⟨mod2pi_nonneg _, mod2pi_lt _⟩
  · rw [hL]
    have hel : ∀ a ∈ Cyclic.elements N, 0 ≤ a ∧ a < N := fun a ha => by
      obtain ⟨i, hi, rfl⟩ := List.mem_map.1 ha
      have := List.mem_range.1 hi
      omega
    refine (Cyclic.finGroup N hN).map _ (fun a ha b hb e => mod2pi_frac_inj hN (hel a ha) (hel b hb) e) (fun a ha b hb => ?_) (fun a ha => ?_) (by simp [Cyclic.identity, SO2.identity])
    · simp only [SO2.combine, Cyclic.combine, mod2pi_mod2pi, mod2pi_frac hN, mod2pi_add_mod2pi]
      congr 1; push_cast; ring
    · simp only [SO2.inverse, Cyclic.inverse, mod2pi_mod2pi, mod2pi_frac hN, mod2pi_neg_mod2pi]
      congr 1; push_cast; ring

theorem O2.mapM_element {l : List O2.Elem} (h : ∀ e ∈ l, e.1 = 0 ∨ e.1 = 1) : l.mapM O2.element = .ok (l.map O2.reduce) := by
  induction l with
  | nil => rfl
  | cons a l ih =>
    rw [List.mapM_cons, O2.element, if_pos (h a (by simp)), ih fun e he => h e (List.mem_cons_of_mem _ he)]
    rfl

/-- **C88** The regular grid of O(2) is the subgroup of `N` rotations and `N` reflections, without repetitions; the grid of its rotations is the subgroup of SO(2). -/
theorem C88_o2 {N : ℕ} (hN : 0 < N) : (∃ L, O2.grid N .regular = .ok L ∧ L.length = 2 * N ∧ (∀ g ∈ L, O2.IsElement g) ∧ FinGroup L O2.combine O2.inverse O2.identity ∧ O2.testingElements N = .ok L) ∧
    ∃ L, O2.gridSO2 N .regular = .ok L ∧ L.length = N ∧ (∀ g ∈ L, O2.IsElement g ∧ g.1 = 0) ∧ FinGroup L O2.combine O2.inverse O2.identity := by
  let f : Dihedral.Elem → O2.Elem := fun e => (e.1, mod2pi ((e.2 : ℝ) * 2 * π / N))
  have hel : ∀ a ∈ Dihedral.elements N, (a.1 = 0 ∨ a.1 = 1) ∧ 0 ≤ a.2 ∧ a.2 < N := fun a ha => Dihedral.isElement_iff.1 (((Dihedral.C02_dihedral_group_laws N hN).2.2.2.2.2.2.2.2 a).1 ha)
  have hinj : ∀ a b : Dihedral.Elem, 0 ≤ a.2 ∧ a.2 < N → 0 ≤ b.2 ∧ b.2 < N → f a = f b → a = b := fun a b ha hb e => Prod.ext (show (f a).1 = (f b).1 from congrArg Prod.fst e) (mod2pi_frac_inj hN ha hb (show (f a).2 = (f b).2 from congrArg Prod.snd e))
  have hmul : ∀ a b : Dihedral.Elem, (a.1 = 0 ∨ a.1 = 1) → O2.combine (f a) (f b) = f (Dihedral.combine N a b) := by
    rintro ⟨a1, a2⟩ ⟨b1, b2⟩ (h | h) <;> simp only at h <;> subst h <;>
      simp only [O2.combine, O2.reduce, f, Dihedral.combine, mod2pi_mod2pi, mod2pi_frac hN, O2.sgn, sgnR, Dihedral.sgn]
    · refine Prod.ext rfl ?_
      simp only [ne_eq, not_true_eq_false, if_false, one_mul, mod2pi_add_mod2pi]
      congr 1; push_cast; ring
    · refine Prod.ext rfl ?_
      simp only [ne_eq, one_ne_zero, not_false_eq_true, if_true]
      rw [← angle_eq_iff]
      push_cast
      rw [neg_one_mul, Real.Angle.coe_add, Real.Angle.coe_neg, coe_mod2pi, coe_mod2pi, ← Real.Angle.coe_neg, ← Real.Angle.coe_add]
      congr 1; ring
  have hinv : ∀ a : Dihedral.Elem, (a.1 = 0 ∨ a.1 = 1) → O2.inverse (f a) = f (Dihedral.inverse N a) := by
    rintro ⟨a1, a2⟩ (h | h) <;> simp only at h <;> subst h <;>
      simp only [O2.inverse, O2.reduce, f, Dihedral.inverse, mod2pi_mod2pi, mod2pi_frac hN, O2.sgn, sgnR, Dihedral.sgn]
    · refine Prod.ext rfl ?_
      simp only [ne_eq, not_true_eq_false, if_false, mul_one, mod2pi_neg_mod2pi]
      congr 1; push_cast; ring
    · refine Prod.ext rfl ?_
      simp only [ne_eq, one_ne_zero, not_false_eq_true, if_true, mul_neg, mul_one, neg_neg, mod2pi_mod2pi]
  have hone : f Dihedral.identity = O2.identity := by simp [f, Dihedral.identity, O2.identity]
  have hred : ∀ e, O2.IsElement (f e) ↔ (e.1 = 0 ∨ e.1 = 1) := fun e => ⟨fun h => h.1, fun h => ⟨h, mod2pi_nonneg _, mod2pi_lt _⟩⟩
  have hrow : ∀ x : ℤ, ((List.range N).map fun i : ℕ => (x, (i : ℝ) * 2 * π / N)).map O2.reduce = ((List.range N).map fun i : ℕ => (x, (i : ℤ))).map f := fun x => by
    rw [List.map_map, List.map_map]
    refine List.map_congr_left fun i _ => ?_
    simp only [Function.comp, O2.reduce, f, Int.cast_natCast]
  have hgrid : (((List.range N).map fun i : ℕ => ((0 : ℤ), (i : ℝ) * 2 * π / N)) ++ (List.range N).map fun i : ℕ => ((1 : ℤ), (i : ℝ) * 2 * π / N)).mapM O2.element = .ok ((Dihedral.elements N).map f) := by
    rw [O2.mapM_element, List.map_append, hrow, hrow, Dihedral.elements, List.map_append]
    intro e he
    rcases List.mem_append.1 he with h | h
    · obtain ⟨i, -, rfl⟩ := List.mem_map.1 h; exact .inl rfl
    · obtain ⟨i, -, rfl⟩ := List.mem_map.1 h; exact .inr rfl
  constructor
  · refine ⟨(Dihedral.elements N).map f, ?_, by rw [List.length_map, (Dihedral.C02_dihedral_group_laws N hN).2.2.2.2.2.2.1], fun g hg => ?_, (Dihedral.finGroup N hN).map f (fun a ha b hb => hinj a b (hel a ha).2 (hel b hb).2) (fun a ha b _ => hmul a b (hel a ha).1)
      (fun a ha => hinv a (hel a ha).1) hone, ?_⟩
    · exact hgrid
    · obtain ⟨e, he, rfl⟩ := List.mem_map.1 hg
      exact (hred e).2 (hel e he).1
    · exact hgrid
  · have hcyc : ∀ a ∈ Cyclic.elements N, 0 ≤ a ∧ a < N := fun a ha => by
      obtain ⟨i, hi, rfl⟩ := List.mem_map.1 ha
      have := List.mem_range.1 hi
      omega
    refine ⟨(Cyclic.elements N).map fun e => f (0, e), ?_, by simp [Cyclic.elements], fun g hg => ?_, (Cyclic.finGroup N hN).map _ (fun a ha b hb e => congrArg Prod.snd (hinj (0, a) (0, b) (hcyc a ha) (hcyc b hb) e))
      (fun a _ b _ => ?_) (fun a _ => ?_) hone⟩
    · rw [O2.gridSO2, O2.mapM_element, hrow, Cyclic.elements, List.map_map, List.map_map]
      · rfl
      · intro e he
        obtain ⟨i, -, rfl⟩ := List.mem_map.1 he; exact .inl rfl
    · obtain ⟨e, -, rfl⟩ := List.mem_map.1 hg
      exact ⟨(hred (0, e)).2 (.inl rfl), rfl⟩
    · rw [hmul _ _ (.inl rfl)]
      simp [Dihedral.combine, Cyclic.combine, Dihedral.sgn]
    · rw [hinv _ (.inl rfl)]
      simp [Dihedral.inverse, Cyclic.inverse, Dihedral.sgn]

theorem Dihedral.mapM_element {N : ℕ} {l : List Dihedral.Elem} (h : ∀ e ∈ l, Dihedral.isElement N e = true) : l.mapM (Dihedral.element N) = .ok l := by
  induction l with
  | nil => rfl
  | cons a l ih =>
    rw [List.mapM_cons, Dihedral.element, if_pos (h a (by simp)), ih fun e he => h e (List.mem_cons_of_mem _ he)]
    rfl

/-- **C88** The regular grid of `D_N` exists exactly if its number of rotations divides `N`; it is a subgroup with `n` rotations and `n` reflections, without repetitions. -/
theorem C88_dihedral {N : ℕ} (hN : 0 < N) (n : ℕ) : ((∃ L, Dihedral.gridRegular N n = .ok L) ↔ n ∣ N) ∧
    ∀ L, Dihedral.gridRegular N n = .ok L → L.length = 2 * n ∧ (∀ e ∈ L, Dihedral.isElement N e = true) ∧ FinGroup L (Dihedral.combine N) (Dihedral.inverse N) Dihedral.identity := by
  have key : n ∣ N → ∃ L, Dihedral.gridRegular N n = .ok L ∧ L.length = 2 * n ∧ (∀ e ∈ L, Dihedral.isElement N e = true) ∧ FinGroup L (Dihedral.combine N) (Dihedral.inverse N) Dihedral.identity := by
    rintro ⟨r, rfl⟩
    have hn : 0 < n := Nat.pos_of_mul_pos_right hN
    have hr : 0 < r := Nat.pos_of_mul_pos_left hN
    have hdiv : n * r / n = r := Nat.mul_div_cancel_left r hn
    let f : Dihedral.Elem → Dihedral.Elem := fun e => (e.1, e.2 * (r : ℤ))
    have hel : ∀ a ∈ Dihedral.elements n, (a.1 = 0 ∨ a.1 = 1) ∧ 0 ≤ a.2 ∧ a.2 < n := fun a ha => Dihedral.isElement_iff.1 (((Dihedral.C02_dihedral_group_laws n hn).2.2.2.2.2.2.2.2 a).1 ha)
    have hrz : (0 : ℤ) < r := by exact_mod_cast hr
    have hmod : ∀ x : ℤ, (x * r) % ((n * r : ℕ) : ℤ) = x % n * r := fun x => by
      rw [Nat.cast_mul, Int.mul_comm x, Int.mul_comm (n : ℤ), Int.mul_emod_mul_of_pos _ _ hrz, Int.mul_comm]
    have hval : ∀ e ∈ (Dihedral.elements n).map f, Dihedral.isElement (n * r) e = true := fun e he => by
      obtain ⟨a, ha, rfl⟩ := List.mem_map.1 he
      obtain ⟨h1, h2, h3⟩ := hel a ha
      refine Dihedral.isElement_iff.2 ⟨h1, by positivity, ?_⟩
      push_cast
      exact mul_lt_mul_of_pos_right h3 hrz
    refine ⟨(Dihedral.elements n).map f, ?_, by rw [List.length_map, (Dihedral.C02_dihedral_group_laws n hn).2.2.2.2.2.2.1], hval, (Dihedral.finGroup n hn).map f (fun a _ b _ e => ?_) (fun a _ b _ => ?_) (fun a _ => ?_) (Prod.ext rfl (zero_mul _))⟩
    · unfold Dihedral.gridRegular
      rw [if_neg hn.ne', if_pos (Nat.mul_mod_right n r), hdiv]
      have : ((List.range n).map fun i : ℕ => ((0 : ℤ), (i : ℤ) * (r : ℕ))) ++ ((List.range n).map fun i : ℕ => ((1 : ℤ), (i : ℤ) * (r : ℕ))) = (Dihedral.elements n).map f := by
        rw [Dihedral.elements, List.map_append, List.map_map, List.map_map]; rfl
      rw [this]
      exact Dihedral.mapM_element hval
    · exact Prod.ext (show (f a).1 = (f b).1 from congrArg Prod.fst e) (mul_right_cancel₀ hrz.ne' (show (f a).2 = (f b).2 from congrArg Prod.snd e))
    · refine Prod.ext rfl ?_
      show (a.2 * r + Dihedral.sgn a.1 * (b.2 * r)) % ((n * r : ℕ) : ℤ) = (a.2 + Dihedral.sgn a.1 * b.2) % n * r
      rw [← hmod]; congr 1; ring
    · refine Prod.ext rfl ?_
      show (-(a.2 * r) * Dihedral.sgn a.1) % ((n * r : ℕ) : ℤ) = (-a.2 * Dihedral.sgn a.1) % n * r
      rw [← hmod]; congr 1; ring
  refine ⟨⟨fun ⟨L, hL⟩ => ?_, fun h => ?_⟩, fun L hL => ?_⟩
  · unfold Dihedral.gridRegular at hL
    split_ifs at hL with h0 h1
    exact Nat.dvd_of_mod_eq_zero h1
  · obtain ⟨L, h, -⟩ := key h
    exact ⟨L, h⟩
  · have hd : n ∣ N := by
      have hL' := hL
      unfold Dihedral.gridRegular at hL'
      split_ifs at hL' with h0 h1
      exact Nat.dvd_of_mod_eq_zero h1
    obtain ⟨L', h, h2⟩ := key hd
    obtain rfl := Except.ok.inj (h.symm.trans hL)
    exact h2

/-- **C88** The grid of a product of two groups, built from grids which are subgroups, is their product, without repetitions; the first factor is the outer loop. The random grid pairs the samples. -/
theorem C88_product {E₁ E₂ : Type} {L₁ : List E₁} {L₂ : List E₂} {op₁ : E₁ → E₁ → E₁} {inv₁ : E₁ → E₁} {one₁ : E₁} {op₂ : E₂ → E₂ → E₂} {inv₂ : E₂ → E₂} {one₂ : E₂} (h₁ : FinGroup L₁ op₁ inv₁ one₁)
    (h₂ : FinGroup L₂ op₂ inv₂ one₂) : (∃ L, dpGrid false (.ok L₁) (.ok L₂) = .ok L ∧ L.length = L₁.length * L₂.length ∧ (∀ (i j : ℕ) x y, L₁[i]? = some x → L₂[j]? = some y → L[i * L₂.length + j]? = some (x, y)) ∧
      FinGroup L (fun a b => (op₁ a.1 b.1, op₂ a.2 b.2)) (fun a => (inv₁ a.1, inv₂ a.2)) (one₁, one₂)) ∧
    ∃ L, dpGrid true (.ok L₁) (.ok L₂) = .ok L ∧ L.length = min L₁.length L₂.length ∧ ∀ (i : ℕ) x y, L₁[i]? = some x → L₂[i]? = some y → L[i]? = some (x, y) := by
  have hmem : ∀ p : E₁ × E₂, p ∈ (L₁.flatMap fun x => L₂.map fun y => (x, y)) ↔ p.1 ∈ L₁ ∧ p.2 ∈ L₂ := fun p => by
    simp only [List.mem_flatMap, List.mem_map]
    constructor
    · rintro ⟨x, hx, y, hy, rfl⟩; exact ⟨hx, hy⟩
    · rintro ⟨hx, hy⟩; exact ⟨_, hx, _, hy, rfl⟩
  constructor
  · refine ⟨_, rfl, by simp [List.length_flatMap], ?_, ⟨?_, (hmem _).2 ⟨h₁.one_mem, h₂.one_mem⟩, ?_, ?_, ?_, ?_, ?_, ?_, ?_⟩⟩
    · clear h₁ hmem
      induction L₁ with
      | nil => intro i j x y h; simp at h
      | cons a L₁ ih =>
        intro i j x y hi hj
        have hjl : j < L₂.length := (List.getElem?_eq_some_iff.1 hj).1
        cases i with
        | zero =>
          obtain rfl := Option.some.inj hi
          rw [Nat.zero_mul, Nat.zero_add, List.flatMap_cons, List.getElem?_append_left (by simpa using hjl), List.getElem?_map, hj]
          rfl
        | succ i =>
          have := ih i j x y hi hj
          rw [List.flatMap_cons, List.getElem?_append_right (by simp; nlinarith), List.length_map]
          rw [← this]; congr 1
          rw [Nat.succ_mul]; omega
    · rw [List.nodup_flatMap]
      refine ⟨fun x _ => h₂.nodup.map fun a b e => congrArg Prod.snd e, h₁.nodup.imp fun {a b} hne p hp hp' => ?_⟩
      obtain ⟨y, -, rfl⟩ := List.mem_map.1 hp
      obtain ⟨y', -, e⟩ := List.mem_map.1 hp'
      exact hne (congrArg Prod.fst e).symm
    · intro a ha b hb
      rw [hmem] at ha hb ⊢
      exact ⟨h₁.mul_mem _ ha.1 _ hb.1, h₂.mul_mem _ ha.2 _ hb.2⟩
    · intro a ha
      rw [hmem] at ha ⊢
      exact ⟨h₁.inv_mem _ ha.1, h₂.inv_mem _ ha.2⟩
    · intro a ha b hb c hc
      rw [hmem] at ha hb hc
      exact Prod.ext (h₁.assoc _ ha.1 _ hb.1 _ hc.1) (h₂.assoc _ ha.2 _ hb.2 _ hc.2)
    · intro a ha
      rw [hmem] at ha
      exact Prod.ext (h₁.one_mul _ ha.1) (h₂.one_mul _ ha.2)
    · intro a ha
      rw [hmem] at ha
      exact Prod.ext (h₁.mul_one _ ha.1) (h₂.mul_one _ ha.2)
    · intro a ha
      rw [hmem] at ha
      exact Prod.ext (h₁.inv_mul _ ha.1) (h₂.inv_mul _ ha.2)
    · intro a ha
      rw [hmem] at ha
      exact Prod.ext (h₁.mul_inv _ ha.1) (h₂.mul_inv _ ha.2)
  · refine ⟨_, rfl, List.length_zip, fun i x y hx hy => ?_⟩
    exact List.getElem?_zip_eq_some.2 ⟨hx, hy⟩

/-- **C88** The random grids have one element for each sample, which is an element of the group; an unknown type is an error. -/
theorem C88_random (N : ℕ) : (∀ s, ∃ L, SO2.grid N (.rand s) = .ok L ∧ L.length = s.length ∧ ∀ g ∈ L, SO2.IsElement g) ∧ SO2.grid N .other = .error .value ∧
    (∀ s, (∀ u ∈ s, u.1 = 0 ∨ u.1 = 1) → ∃ L, O2.grid N (.rand s) = .ok L ∧ L.length = s.length ∧ ∀ g ∈ L, O2.IsElement g) ∧ O2.grid N .other = .error .value ∧
    (∀ s, ∃ L, O2.gridSO2 N (.rand s) = .ok L ∧ L.length = s.length ∧ ∀ g ∈ L, O2.IsElement g ∧ g.1 = 0) ∧ O2.gridSO2 N .other = .error .value := by
  refine ⟨fun s => ⟨_, rfl, by simp, fun g hg => ?_⟩, rfl, fun s hs => ?_, rfl, fun s => ?_, rfl⟩
  · obtain ⟨u, -, rfl⟩ := List.mem_map.1 hg
    exact ⟨mod2pi_nonneg _, mod2pi_lt _⟩
  · refine ⟨_, O2.mapM_element fun e he => ?_, by simp, fun g hg => ?_⟩
    · obtain ⟨u, hu, rfl⟩ := List.mem_map.1 he
      exact hs u hu
    · obtain ⟨e, he, rfl⟩ := List.mem_map.1 hg
      obtain ⟨u, hu, rfl⟩ := List.mem_map.1 he
      exact ⟨hs u hu, mod2pi_nonneg _, mod2pi_lt _⟩
  · refine ⟨_, O2.mapM_element fun e he => ?_, by simp, fun g hg => ?_⟩
    · obtain ⟨u, hu, rfl⟩ := List.mem_map.1 he
      exact .inl rfl
    · obtain ⟨e, he, rfl⟩ := List.mem_map.1 hg
      obtain ⟨u, hu, rfl⟩ := List.mem_map.1 he
      exact ⟨⟨.inl rfl, mod2pi_nonneg _, mod2pi_lt _⟩, rfl⟩

/-- The grid of `D_6` with three rotations, and the product of grids of SO(2). -/
example : Dihedral.gridRegular 6 3 = .ok [(0, 0), (0, 2), (0, 4), (1, 0), (1, 2), (1, 4)] ∧
    ∃ L, dpGrid false (SO2.grid 4 .regular) (SO2.grid 3 .regular) = .ok L ∧ L.length = 12 := by
  refine ⟨by decide, ?_⟩
  obtain ⟨L, hL, hlen, -, hG, -⟩ := C88_so2 (N := 4) (by norm_num)
  obtain ⟨L', hL', hlen', -, hG', -⟩ := C88_so2 (N := 3) (by norm_num)
  obtain ⟨L'', h, hl, -⟩ := (C88_product hG hG').1
  rw [hL, hL']
  exact ⟨L'', h, by rw [hl, hlen, hlen']⟩

end Escnn
