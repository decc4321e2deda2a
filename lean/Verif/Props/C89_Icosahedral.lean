import Verif.Lemmas.WignerExample
import Verif.Lemmas.IcoElement
import Verif.Props.C20_Generators
import Verif.Props.C75_SO3
import Verif.Props.C84_Exact

/-!
# C89: the icosahedral group, its irreps and its representations
-/

namespace Escnn

open Real Quaternion NpMat
open scoped Matrix

namespace Ico

open Gold
open Octa (toNp)

/-- **C89** The 60 elements of `Icosahedral()` are pairwise different and form a group of rotations: product and inverse are the ones of the matrices, and the stored quaternions are the ones of the matrices. -/
theorem C89_group :
    FinGroup elements combine inverse identity ∧ elements.length = 60 ∧ (∀ a ∈ elements, ∀ b ∈ elements, mat (combine a b) = mat a * mat b) ∧ (∀ a, mat (inverse a) = (mat a)ᵀ) ∧
      mat identity = 1 ∧ (∀ a b, mat a = mat b → a = b) ∧ ∀ e ∈ elements, normSq (toQ e) = 1 ∧ rotOf (toQ e) = mat e ∧ mat e * (mat e)ᵀ = 1 ∧ (mat e).det = 1 :=
  ⟨finGroup, rfl, fun _ ha _ hb => mat_combine ha hb, mat_inverse, mat_identity, fun _ _ => mat_inj, fun e he => ⟨toQ_unit he, rotOf_toQ he, by
    rw [← rotOf_toQ he]; exact rotOf_orth (toQ_unit he), by rw [← rotOf_toQ he]; exact rotOf_det (toQ_unit he)⟩⟩

/-- **C89** `_is_element` and `element(q, 'Q')` accept exactly the unit quaternions (of either sign) of the elements; others raise `ValueError`. -/
theorem C89_is_element (q : UQuat) :
    (IsElement q ↔ normSq q = 1 ∧ ∃ e ∈ elements, rotOf q = mat e) ∧ (IsElement q → element q = .ok q) ∧ (¬ IsElement q → element q = .error .value) :=
  ⟨⟨fun h => ⟨h.1, (isElement_iff h.1).1 h⟩, fun h => (isElement_iff h.1).2 h.2⟩, fun h => if_pos h, fun h => if_neg h⟩

/-- The rotation by `2 π / 5` around `(φ, 0, 1)` is accepted; the rotation by `2 π / 4` around Z is not. -/
example : IsElement (goldQ (hA, 0, hB, hC)) ∧ ¬ IsElement (quat 0 0 (√2 / 2) (√2 / 2)) := by
  refine ⟨(isElement_iff (goldQ_unit (by decide +kernel))).2 ⟨_, List.mem_map_of_mem (by decide +kernel), rotOf_goldQ (by decide +kernel)⟩, fun h => ?_⟩
  have h2 : √2 * √2 = (2 : ℝ) := Real.mul_self_sqrt (by norm_num)
  obtain ⟨e, he, hr⟩ := (isElement_iff h.1).1 h
  have h00 := congrFun (congrFun hr 0) 1
  have h01 := congrFun (congrFun hr 1) 2
  have h11 := congrFun (congrFun hr 0) 0
  have k0 : e.m₀₁.val = (-1 : Gold).val := by
    rw [val_neg, val_one]
    change _ = e.m₀₁.val at h00
    rw [← h00]
    simp [rotOf, quat]
    nlinarith
  have k1 : e.m₁₂.val = (0 : Gold).val := by
    rw [val_zero]
    change _ = e.m₁₂.val at h01
    rw [← h01]
    simp [rotOf, quat]
  have key : ∀ e ∈ elements, e.m₀₁ = -1 → e.m₁₂ ≠ 0 := by decide +kernel
  exact key e he (val_inj k0) (val_inj k1)

/-- **C89** The group meets the contract by which SO(3) and O(3) use it as a subgroup. -/
theorem C89_lawful : rotGroup.Lawful where
  unit h hh := toQ_unit hh
  mul_el a b ha hb := combine_mem a ha b hb
  mul_rot := fun (a b : Elem) (ha : a ∈ elements) (hb : b ∈ elements) => by
    change rotOf (toQ (combine a b)) = rotOf (toQ a) * rotOf (toQ b)
    rw [rotOf_toQ (combine_mem a ha b hb), rotOf_toQ ha, rotOf_toQ hb, mat_combine ha hb]
  ofQ_ok q h hq hh hr := by
    change h ∈ elements at hh
    change rotOf q = rotOf (toQ h) at hr
    rw [rotOf_toQ hh] at hr
    refine ⟨h, ?_, rfl⟩
    change (element q).map ofRot = _
    rw [element, if_pos ((isElement_iff hq).2 ⟨h, hh, hr⟩)]
    exact congrArg Except.ok (ofRot_eq hh hr)
  ofQ_err q hq hn := by
    change (element q).map ofRot = _
    rw [element, if_neg]
    · rfl
    · intro hE
      obtain ⟨e, he, h⟩ := (isElement_iff hq).1 hE
      exact hn ⟨e, he, by rw [h]; exact (rotOf_toQ he).symm⟩

/-- **C89** The subgroup `('ico', adj)` of SO(3): the rotations of the icosahedron turned by `adj`. -/
theorem C89_in_so3 {aq : UQuat → UQuat} (haq : AsQuat aq) (octa : RotGroup) {adj : UQuat} (hadj : normSq adj = 1) :
    ∃ P C, SO3.subgroup aq rotGroup octa (.str "ico") adj = .ok ⟨Elem, (· ∈ elements), combine, P, C⟩ ∧
      RealisesAs (fun e => normSq e = 1) rotOf (· ∈ elements) (fun a b => rotOf (toQ a) = rotOf (toQ b)) combine (rotOf adj) (fun h => rotOf (toQ h)) P C ∧
      ExactChild (fun e => normSq e = 1) rotOf (· ∈ elements) (rotOf adj) (fun h => rotOf (toQ h)) C :=
  SO3.C75_plato haq rotGroup octa hadj "ico" rotGroup (.inl ⟨rfl, rfl⟩) C89_lawful

/-! ### Generators -/

theorem foldl_foldr : ∀ (L : List Elem), (∀ x ∈ L, x ∈ elements) → ∀ a ∈ elements, L.foldl combine a = combine a (L.foldr combine identity) ∧ L.foldr combine identity ∈ elements
  | [], _, a, ha => ⟨(finGroup.mul_one a ha).symm, identity_mem⟩
  | x :: L, h, a, ha => by
    have hx := h x (by simp)
    have hL : ∀ y ∈ L, y ∈ elements := fun y hy => h y (by simp [hy])
    obtain ⟨e, he⟩ := foldl_foldr L hL (combine a x) (combine_mem a ha x hx)
    exact ⟨by rw [List.foldl_cons, List.foldr_cons, e, finGroup.assoc a ha x hx _ he], combine_mem x hx _ he⟩

/-- **C89** The generators: rotations of order 5 and 2 which generate the group. -/
theorem C89_generators :
    (∀ g ∈ generators, g ∈ elements) ∧ (∀ g ∈ elements, ∃ w : List Elem, (∀ x ∈ w, x ∈ generators) ∧ w.foldl combine identity = g) ∧
      generators.length = 2 ∧ nth 21 ≠ identity ∧ combine (nth 21) (combine (nth 21) (combine (nth 21) (combine (nth 21) (nth 21)))) = identity ∧ nth 0 ≠ identity ∧
      combine (nth 0) (nth 0) = identity := by
  refine ⟨gens_el, fun g hg => ?_, rfl, by decide +kernel, by decide +kernel, by decide +kernel, by decide +kernel⟩
  rw [← words_ok] at hg
  obtain ⟨w, hw, rfl⟩ := List.mem_map.1 hg
  have hw' : ∀ x ∈ w.map (fun i => generators.getD i identity), x ∈ generators := fun x hx => by
    obtain ⟨i, hi, rfl⟩ := List.mem_map.1 hx
    exact words_gens w hw i hi
  obtain ⟨e, he⟩ := foldl_foldr (w.map fun i => generators.getD i identity) (fun x hx => gens_el x (hw' x hx)) identity identity_mem
  exact ⟨_, hw', by rw [e, finGroup.one_mul _ he]⟩

/-! ### Irreps -/

variable {W : ℕ → UQuat → NpMat ℝ} {ord : List Elem → List Elem}

theorem irrepGens_ok {l : ℤ} (hl : l = 3 ∨ l = 4) : ∃ L, irrepGens l = .ok L ∧ L.map Prod.fst = generators ∧ ∀ p ∈ L, p.2 ≈ psi W l p.1 := by
  rcases hl with rfl | rfl
  · refine ⟨_, if_pos rfl, rfl, fun p hp => ?_⟩
    simp only [List.mem_cons, List.not_mem_nil, or_false] at hp
    rcases hp with rfl | rfl
    · exact psi3_p.symm
    · exact psi3_q.symm
  · refine ⟨_, (if_neg (by norm_num)).trans (if_pos rfl), rfl, fun p hp => ?_⟩
    simp only [List.mem_cons, List.not_mem_nil, or_false] at hp
    rcases hp with rfl | rfl
    · exact psi4_p.symm
    · exact psi4_q.symm

/-- **C89** `irrep(l)` succeeds exactly for `0 ≤ l ≤ 4`, whatever the order of iteration over sets: no assertion of the construction from generators fails; the size is the dimension of the irrep and
the matrix of every element is the one of the mathematical definition. -/
theorem C89_irreps (h1 : Wigner 1 (W 1)) (h2 : Wigner 2 (W 2)) (hord : ∀ L, (ord L).Perm L) (l : ℤ) :
    (0 ≤ l → l ≤ 4 → ∃ I, irrep W ord l = .ok I ∧ I.size = dim l ∧ ∀ e ∈ elements, ∃ M, I.mat e = .ok M ∧ M ≈ psi W l e) ∧
      (¬ (0 ≤ l ∧ l ≤ 4) → irrep W ord l = .error .assertion) := by
  refine ⟨fun b1 b2 => ?_, fun h => if_pos h⟩
  rw [irrep, if_neg (by tauto)]
  by_cases h0 : l = 0
  · subst h0
    exact ⟨_, if_pos rfl, rfl, fun e he => ⟨_, rfl, (Octa.toNp_one 1).symm⟩⟩
  rw [if_neg h0]
  by_cases hl2 : l ≤ 2
  · rw [if_pos hl2]
    obtain rfl | rfl : l = 1 ∨ l = 2 := by omega
    · refine ⟨_, rfl, rfl, fun e he => ⟨_, rfl, (h1.one rfl _ (toQ_unit he)).trans ?_⟩⟩
      rw [rotOf_toQ he, psi, if_pos rfl]
      refine ⟨rfl, rfl, fun i j hi hj => ?_⟩
      change i < 3 at hi; change j < 3 at hj
      interval_cases i <;> interval_cases j <;> rfl
    · refine ⟨_, rfl, rfl, fun e he => ⟨_, rfl, ?_⟩⟩
      rw [psi, if_neg (by norm_num), if_pos rfl]
      exact Eqv.refl _
  rw [if_neg hl2]
  obtain ⟨L, hL, hf, hp⟩ := irrepGens_ok (W := W) (l := l) (by omega)
  have hmem : ∀ p ∈ L, p.1 ∈ generators := fun p hp => hf ▸ List.mem_map.2 ⟨p, hp, rfl⟩
  obtain ⟨rho, hrho, hval⟩ := C20_generators_complete finGroup (psi_rep h2 l) L (by rintro rfl; simp [generators] at hf) (fun p hpL => ⟨gens_el _ (hmem p hpL), hp p hpL⟩)
    (fun S hS1 hS x hx => generate hS1 (fun y _ hy g hg => by
      rw [← hf] at hg
      obtain ⟨p, hp, rfl⟩ := List.mem_map.1 hg
      exact (hS y hy p hp).1) x hx) ord hord (elements.length + 1) le_rfl
  obtain ⟨A, hA, hA'⟩ := hval identity finGroup.one_mem
  refine ⟨⟨A.rows, fun e => match rho e with
    | none => .error .key
    | some M => .ok M⟩, ?_, hA'.1.trans ((psi_rep h2 l).rows _ finGroup.one_mem), fun e he => ?_⟩
  · rw [builtIrrep, hL]
    simp only [bind, Except.bind]
    rw [hrho]
    simp only [hA]
    exact congrArg Except.ok (congrArg _ (funext fun e => by cases rho e <;> rfl))
  · obtain ⟨M, hM, hM'⟩ := hval e he
    exact ⟨M, by simp only [hM], hM'⟩

/-- **C89** The other values of `_build_ico_irrep` raise `ValueError`. -/
theorem C89_build_errors {l : ℤ} (hl : l ≠ 3 ∧ l ≠ 4) : builtIrrep ord l = .error .value := by
  rw [builtIrrep, irrepGens, if_neg hl.1, if_neg hl.2]
  rfl

theorem table_spec (h1 : Wigner 1 (W 1)) (h2 : Wigner 2 (W 2)) (hord : ∀ L, (ord L).Perm L) {l : ℤ} (hl : (table W ord).ok l = true) :
    l ∈ irrepIds ∧ (table W ord).size l = dim l ∧ ∀ e ∈ elements, (table W ord).mat l e ≈ psi W l e := by
  have hm : l ∈ irrepIds := by simpa [table] using hl
  have hb : 0 ≤ l ∧ l ≤ 4 := by
    simp only [irrepIds, List.mem_cons, List.not_mem_nil, or_false] at hm
    omega
  obtain ⟨I, hI, hs, hmat⟩ := (C89_irreps h1 h2 hord l).1 hb.1 hb.2
  refine ⟨hm, by simp only [table, hI, hs], fun e he => ?_⟩
  obtain ⟨M, hM, hM'⟩ := hmat e he
  simp only [table, hI, hM]
  exact hM'

theorem table_trace (h1 : Wigner 1 (W 1)) (h2 : Wigner 2 (W 2)) (hord : ∀ L, (ord L).Perm L) {l : ℤ} (hl : l ∈ irrepIds) {g : Elem} (hg : g ∈ elements) :
    trace ((table W ord).mat l g) = (chi l g).val := by
  have h := (table_spec h1 h2 hord (l := l) (by simpa [table] using hl)).2.2 g hg
  rw [← psi_trace h1 h2 l g hg]
  exact trace_congr' h (by rw [h.1, h.2.1, (psi_rep h2 l).rows g hg, (psi_rep h2 l).cols g hg])

/-- **C89** The five irreps are orthogonal representations, irreducible of real type, pairwise inequivalent (the characters are orthonormal), and all the irreps: the characters weighted with the dimensions add up
to the character of the regular representation. -/
theorem C89_complete (h1 : Wigner 1 (W 1)) (h2 : Wigner 2 (W 2)) (hord : ∀ L, (ord L).Perm L) :
    (table W ord).Valid (· ∈ elements) combine identity ∧ irrepIds.Nodup ∧ (∀ l, (table W ord).ok l = true ↔ l ∈ irrepIds) ∧
      (∀ l ∈ irrepIds, HasType (· ∈ elements) ((table W ord).mat l) .R ((table W ord).size l)) ∧
      (∀ i ∈ irrepIds, ∀ j ∈ irrepIds, (elements.map fun g => trace ((table W ord).mat i g) * trace ((table W ord).mat j g)).sum = if i = j then 60 else 0) ∧
      (∀ g ∈ elements, (irrepIds.map fun l => ((table W ord).size l : ℝ) * trace ((table W ord).mat l g)).sum = if g = identity then 60 else 0) ∧
      irrepIds.map (table W ord).size = [1, 3, 5, 3, 4] := by
  have hok : ∀ l, (table W ord).ok l = true ↔ l ∈ irrepIds := fun l => by simp [table]
  have horth : ∀ i ∈ irrepIds, ∀ j ∈ irrepIds, (elements.map fun g => trace ((table W ord).mat i g) * trace ((table W ord).mat j g)).sum = if i = j then 60 else 0 := by
    intro i hi j hj
    rw [List.map_congr_left (g := fun g => 1 / 2 * (mul2 (chi i g) (chi j g)).val) fun g hg => by rw [table_trace h1 h2 hord hi hg, table_trace h1 h2 hord hj hg, val_mul2]; ring]
    have e := congrArg val (chi_orth i hi j hj)
    rw [val_gsum, List.map_map] at e
    rw [List.sum_map_mul_left]
    change 1 / 2 * (elements.map (val ∘ fun g => mul2 (chi i g) (chi j g))).sum = _
    rw [e]
    split_ifs
    · simp only [val]; norm_num
    · simp
  have hvalid : (table W ord).Valid (· ∈ elements) combine identity := fun l hl => by
    obtain ⟨-, hs, hm⟩ := table_spec h1 h2 hord hl
    rw [hs]
    exact (psi_rep h2 l).congr hm finGroup.one_mem finGroup.mul_mem
  refine ⟨hvalid, by decide +kernel, hok, fun l hl => ?_, horth, fun g hg => ?_, ?_⟩
  · refine type_of_char finGroup (hvalid l ((hok l).2 hl)) ?_ ?_
    · rw [(table_spec h1 h2 hord ((hok l).2 hl)).2.1]
      have : ∀ l ∈ irrepIds, 0 < dim l := by decide
      exact this l hl
    · rw [horth l hl l hl, if_pos rfl, show elements.length = 60 from rfl]; norm_num
  · rw [List.map_congr_left (g := fun l => (mul2 ⟨dim l, 0⟩ (chi l g)).val) fun l hl => by
      rw [table_trace h1 h2 hord hl hg, (table_spec h1 h2 hord ((hok l).2 hl)).2.1, val_mul2]
      simp only [val]; push_cast; ring]
    have e := congrArg val (chi_reg g hg)
    rw [val_gsum, List.map_map] at e
    change (irrepIds.map (val ∘ fun l => mul2 ⟨dim l, 0⟩ (chi l g))).sum = _
    rw [e]
    split_ifs
    · simp only [val]; norm_num
    · simp
  · rw [List.map_congr_left (g := dim) fun l hl => (table_spec h1 h2 hord ((hok l).2 hl)).2.1]
    rfl

/-- **C89** The numerical Clebsch–Gordan coefficients of the icosahedral group: with exact numerical routines the tensor product of any two irreps is decomposed, the multiplicities are the ones of the
characters, and the coefficients satisfy the law of Clebsch and Gordan, whatever the random samples are. -/
theorem C89_clebsch_gordan {N : Numerics} (hN : NullExact N) (h1 : Wigner 1 (W 1)) (h2 : Wigner 2 (W 2)) (hord : ∀ L, (ord L).Perm L) {tries : ℤ → ℤ → ℤ → List (List Elem × List Elem)}
    (htr : ∀ J l j, tries J l j ≠ [] ∧ ∀ p ∈ tries J l j, (∀ g ∈ p.1, g ∈ elements) ∧ (∀ g ∈ p.2, g ∈ elements) ∧ p.2 ≠ []) {J l : ℤ} (hJ : J ∈ irrepIds) (hl : l ∈ irrepIds) :
    (∃ L, cgDecompose (table W ord).size irrepIds (fun j => cgTensor N (table W ord) (fun _ => .R) generators (tries J l j) J l j) J l = .ok L) ∧
      (∀ j ∈ irrepIds, ∃ R, cgTensor N (table W ord) (fun _ => .R) generators (tries J l j) J l j = .ok R ∧
        (R.mult : ℝ) * 60 = (elements.map fun g => (chi j g).val * ((chi J g).val * (chi l g).val)).sum) ∧
      CGLaw (· ∈ elements) (table W ord).ok (table W ord).size (table W ord).mat (numKGroup N (table W ord) (fun _ => .R) generators irrepIds tries).tensor
        (numKGroup N (table W ord) (fun _ => .R) generators irrepIds tries).cg J l := by
  obtain ⟨hv, hnd, hok, htyp, horth, hreg, -⟩ := C89_complete h1 h2 hord
  have h60 : (elements.length : ℝ) = 60 := by norm_num [show elements.length = 60 from rfl]
  have h := C84_exact hN finGroup hv hnd (fun i hi => (hok i).2 hi) (fun i hi => (hok i).1 hi) (typ := fun _ => .R) (fun i hi => ⟨rfl, htyp i hi⟩)
    (fun i hi j hj hij => by rw [horth i hi j hj, if_neg hij]) (fun g hg => by rw [hreg g hg, h60]) C89_generators.1 C89_generators.2.1 htr ((hok J).2 hJ) ((hok l).2 hl)
  refine ⟨h.1, fun j hj => ?_, h.2.2⟩
  obtain ⟨R, hR, hm⟩ := h.2.1 j hj
  refine ⟨R, hR, ?_⟩
  rw [h60] at hm
  rw [hm]
  exact congrArg List.sum (List.map_congr_left fun g hg => by rw [table_trace h1 h2 hord hj hg, table_trace h1 h2 hord hJ hg, table_trace h1 h2 hord hl hg])

/-- **C89** `bl_irreps(L)`: the first `L + 1` ids, for `0 ≤ L ≤ 4`. -/
theorem C89_bl_irreps (L : ℤ) : (0 ≤ L → L ≤ 4 → ∃ ids, blIrreps L = .ok ids ∧ ids <+: irrepIds ∧ ids.length = L + 1 ∧ ∀ l, l ∈ ids ↔ 0 ≤ l ∧ l ≤ L) ∧
    (¬ (0 ≤ L ∧ L ≤ 4) → blIrreps L = .error .assertion) := by
  refine ⟨fun h0 h4 => ⟨_, if_pos ⟨h0, h4⟩, ?_⟩, fun h => if_neg h⟩
  interval_cases L
  all_goals refine ⟨by decide, by decide, fun l => ?_⟩
  all_goals simp [List.range_succ]; omega

/-- **C89** `standard_representation()` is the rotation matrix. -/
theorem C89_standard (h1 : Wigner 1 (W 1)) {e : Elem} (he : e ∈ elements) : standardMat W e ≈ toNp 3 (mat e) := by
  have h := h1.one rfl _ (toQ_unit he)
  rw [rotOf_toQ he] at h
  have hr := h.1; have hc := h.2.1
  refine (mul_congr (mul_congr (Eqv.refl _) h (by rw [hr]; rfl)) (Eqv.refl _) (by simp [mul, transpose, Octa.axisCob, Octa.lit, hc])).trans ?_
  refine ⟨rfl, rfl, fun i j hi hj => ?_⟩
  change i < 3 at hi; change j < 3 at hj
  simp only [mul, transpose, Octa.axisCob, Octa.lit, Finset.sum_range_succ, Finset.sum_range_zero, harmonicAxis, toNp, Fin.ofNat]
  interval_cases i <;> interval_cases j <;> simp

/-- The hypotheses are met: Wigner matrices of frequency 1 and 2, reversing a list is a permutation, an exact null space exists, and the list of samples is not empty. -/
example : Wigner 1 (wignerUpTo2 1) ∧ Wigner 2 (wignerUpTo2 2) ∧ (∀ L : List Elem, L.reverse.Perm L) ∧ (∃ N, NullExact N) ∧
    (∀ p ∈ [([nth 0], [nth 1, nth 2])], (∀ g ∈ p.1, g ∈ elements) ∧ (∀ g ∈ p.2, g ∈ elements) ∧ p.2 ≠ []) ∧ (3 : ℤ) ∈ irrepIds ∧ nth 40 ∈ elements :=
  ⟨wignerUpTo2_ok (by norm_num) (by norm_num), wignerUpTo2_ok (by norm_num) (by norm_num), fun L => L.reverse_perm, NullExact.exists, by decide +kernel, by decide, by decide +kernel⟩

/-- The irreps 3 and 1 have the same size and are different: their characters on the first generator are the golden ratio and its conjugate. -/
example : chi 1 (nth 21) = ⟨0, 2⟩ ∧ chi 3 (nth 21) = ⟨2, -2⟩ := by decide +kernel

end Ico

end Escnn
