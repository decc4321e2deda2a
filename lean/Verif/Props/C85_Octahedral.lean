import Verif.Lemmas.WignerExample
import Verif.Lemmas.OctaIrreps
import Verif.Lemmas.RotSurj
import Verif.Props.C20_Generators
import Verif.Props.C75_SO3
import Verif.Props.C84_Exact

/-!
# C85: the octahedral group, its irreps and its representations
-/

namespace Escnn

open Real Quaternion NpMat
open scoped Matrix

namespace Octa

/-- **C85** The 24 elements of `Octahedral()` are pairwise different and form a group; they are exactly the rotations whose matrix has integer entries, that is the rotations which preserve the cube. -/
theorem C85_group :
    FinGroup elements combine inverse identity ∧ elements.length = 24 ∧ (∀ a b, mat (combine a b) = mat a * mat b) ∧ (∀ a, mat (inverse a) = (mat a)ᵀ) ∧ mat identity = 1 ∧
      (∀ a b, mat a = mat b → a = b) ∧ ∀ M : Mat3, (∃ e ∈ elements, mat e = M) ↔ M * Mᵀ = 1 ∧ M.det = 1 ∧ ∀ i j, ∃ z : ℤ, M i j = z := by
  refine ⟨finGroup, rfl, mat_combine, mat_inverse, mat_identity, fun _ _ => mat_inj, fun M => ⟨?_, ?_⟩⟩
  · rintro ⟨e, he, rfl⟩
    refine ⟨((mem_iff e).1 he).1, ((mem_iff e).1 he).2, fun i j => ?_⟩
    fin_cases i <;> fin_cases j <;> exact ⟨_, rfl⟩
  · rintro ⟨h1, h2, h3⟩
    choose z hz using h3
    have e : M = mat ⟨z 0 0, z 0 1, z 0 2, z 1 0, z 1 1, z 1 2, z 2 0, z 2 1, z 2 2⟩ := by
      ext i j
      rw [hz]
      fin_cases i <;> fin_cases j <;> rfl
    rw [e] at h1 h2
    exact ⟨_, (mem_iff _).2 ⟨h1, h2⟩, e.symm⟩

/-- **C85** `_is_element` and `element(q, 'Q')` accept exactly the unit quaternions (of either sign) of the elements; others raise `ValueError`. -/
theorem C85_is_element (q : UQuat) :
    (IsElement q ↔ normSq q = 1 ∧ ∃ e ∈ elements, rotOf q = mat e) ∧ (IsElement q → element q = .ok q) ∧ (¬ IsElement q → element q = .error .value) := by
  refine ⟨⟨fun h => ⟨h.1, (isElement_iff h.1).1 h⟩, fun h => (isElement_iff h.1).2 h.2⟩, fun h => if_pos h, fun h => if_neg h⟩

/-- **C85** The stored quaternions are the ones of the elements. -/
theorem C85_stored {e : Elem} (he : e ∈ elements) : normSq (toQ e) = 1 ∧ rotOf (toQ e) = mat e := ⟨toQ_unit he, rotOf_toQ he⟩

/-- **C85** The group meets the contract by which SO(3) and O(3) use it as a subgroup. -/
theorem C85_lawful : rotGroup.Lawful where
  unit h hh := toQ_unit hh
  mul_el a b ha hb := finGroup.mul_mem a ha b hb
  mul_rot := fun (a b : Elem) (ha : a ∈ elements) (hb : b ∈ elements) => by
    change rotOf (toQ (combine a b)) = rotOf (toQ a) * rotOf (toQ b)
    rw [rotOf_toQ (finGroup.mul_mem a ha b hb), rotOf_toQ ha, rotOf_toQ hb, mat_combine]
  ofQ_ok q h hq hh hr := by
    change h ∈ elements at hh
    change rotOf q = rotOf (toQ h) at hr
    rw [rotOf_toQ hh] at hr
    refine ⟨h, ?_, rfl⟩
    change (element q).map ofRot = _
    rw [element, if_pos ((isElement_iff hq).2 ⟨h, hh, hr⟩)]
    exact congrArg Except.ok (floor_cast q h hr)
  ofQ_err q hq hn := by
    change (element q).map ofRot = _
    rw [element, if_neg]
    · rfl
    · intro hE
      obtain ⟨e, he, h⟩ := (isElement_iff hq).1 hE
      exact hn ⟨e, he, by rw [h]; exact (rotOf_toQ he).symm⟩

/-- **C85** The subgroup `('octa', adj)` of SO(3): the rotations of the cube turned by `adj`. -/
theorem C85_in_so3 {aq : UQuat → UQuat} (haq : AsQuat aq) (ico : RotGroup) {adj : UQuat} (hadj : normSq adj = 1) :
    ∃ P C, SO3.subgroup aq ico rotGroup (.str "octa") adj = .ok ⟨Elem, (· ∈ elements), combine, P, C⟩ ∧
      RealisesAs (fun e => normSq e = 1) rotOf (· ∈ elements) (fun a b => rotOf (toQ a) = rotOf (toQ b)) combine (rotOf adj) (fun h => rotOf (toQ h)) P C ∧
      ExactChild (fun e => normSq e = 1) rotOf (· ∈ elements) (rotOf adj) (fun h => rotOf (toQ h)) C :=
  SO3.C75_plato haq ico rotGroup hadj "octa" rotGroup (.inr ⟨rfl, rfl⟩) C85_lawful

/-! ### Generators -/

/-- The words of the elements in `t, k, s`. -/
def wordsT : List (List ℕ) :=
  [[1], [2, 2, 1, 2], [2, 1, 2, 2], [], [2, 1, 2], [2, 1], [1, 2], [2, 2], [1, 2, 1], [1, 2, 2], [2, 2, 1], [2], [2, 2, 1, 2, 0], [2, 1, 0],
   [1, 0, 2], [0, 2, 1], [1, 2, 0], [2, 1, 0, 2], [1, 0], [0], [1, 2, 1, 0], [2, 0], [2, 1, 2, 0], [0, 2]]

/-- The words of the elements in the generators. -/
def wordsG : List (List ℕ) :=
  [[0, 0], [2, 1, 2, 1], [1, 0, 2, 1], [], [1, 0, 2], [1, 0, 0], [0, 2], [2, 0], [2, 1, 0], [0, 2, 1], [2, 1, 2], [1], [1, 2], [2, 1], [2, 0, 0],
   [1, 2, 1], [2, 0, 2], [0], [2, 0, 2, 1], [2, 1, 0, 2], [1, 0], [2, 1, 0, 0], [2], [0, 2, 1, 0]]

theorem words_T : ∀ e ∈ elements, ∃ w ∈ wordsT, (w.map fun i => [elemT, nth 0, nth 11].getD i identity).foldr combine identity = e := by decide +kernel

theorem words_G : ∀ e ∈ elements, ∃ w ∈ wordsG, (w.map fun i => generators.getD i identity).foldl combine identity = e := by decide +kernel

/-- **C85** The generators: rotations of order 4, 3 and 2 which generate the group. -/
theorem C85_generators :
    (∀ g ∈ generators, g ∈ elements) ∧ (∀ g ∈ elements, ∃ w : List Elem, (∀ x ∈ w, x ∈ generators) ∧ w.foldl combine identity = g) ∧
      generators.map (fun g => (combine g g = identity, combine (combine g g) g = identity, combine (combine (combine g g) g) g = identity)) =
        [(False, False, True), (False, True, False), (True, False, True)] := by
  refine ⟨by decide +kernel, fun g hg => ?_, ?_⟩
  · obtain ⟨w, hw, h⟩ := words_G g hg
    refine ⟨_, fun x hx => ?_, h⟩
    obtain ⟨i, hi, rfl⟩ := List.mem_map.1 hx
    have : ∀ w ∈ wordsG, ∀ i ∈ w, generators.getD i identity ∈ generators := by decide +kernel
    exact this w hw i hi
  · have h : ∀ {p q : Prop} [Decidable p] [Decidable q], decide p = decide q → p = q := fun h => propext (by simpa using h)
    simp only [generators, List.map_cons, List.map_nil, List.cons.injEq, Prod.mk.injEq, and_true]
    refine ⟨⟨?_, ?_, ?_⟩, ⟨?_, ?_, ?_⟩, ?_, ?_, ?_⟩ <;> first | exact eq_true (by decide +kernel) | exact eq_false (by decide +kernel)

theorem generate_T {S : Elem → Prop} (h1 : S identity) (h : ∀ x, S x → ∀ g ∈ [elemT, nth 0, nth 11], S (combine g x)) : ∀ x ∈ elements, S x := by
  intro x hx
  obtain ⟨w, hw, rfl⟩ := words_T x hx
  have hmem : ∀ w ∈ wordsT, ∀ i ∈ w, [elemT, nth 0, nth 11].getD i identity ∈ [elemT, nth 0, nth 11] := by decide +kernel
  have hw' := hmem w hw
  clear hw hx
  induction w with
  | nil => exact h1
  | cons i w ih => exact h _ (ih fun i hi => hw' i (List.mem_cons_of_mem _ hi)) _ (hw' i (List.mem_cons_self ..))

/-! ### Irreps -/

theorem inAxis_eqv (A : NpMat ℝ) (hr : A.rows = 3) (hc : A.cols = 3) : inAxis A ≈ ⟨3, 3, fun i j => A.get (harmonicAxis i) (harmonicAxis j)⟩ := by
  refine ⟨rfl, rfl, fun i j hi hj => ?_⟩
  change i < 3 at hi; change j < 3 at hj
  simp only [inAxis, mul, transpose, axisCob, lit, hr, hc, Finset.sum_range_succ, Finset.sum_range_zero, harmonicAxis]
  interval_cases i <;> interval_cases j <;> simp

theorem psiNeg {e : Elem} : psi (-1) e = toNp 3 ((sgn e : ℝ) • (mat e).submatrix ax ax) := by rw [psi, if_neg (by norm_num), if_pos rfl]

theorem psi3' {e : Elem} : psi 3 e = toNp 1 ((sgn e : ℝ) • 1) := by
  rw [psi, if_neg (by norm_num), if_neg (by norm_num), if_neg (by norm_num), if_pos rfl]

theorem irrepGens_ok {l : ℤ} (hl : l = -1 ∨ l = 2 ∨ l = 3) : ∃ L, irrepGens l = .ok L ∧ L.map Prod.fst = [elemT, nth 0, nth 11] ∧ ∀ p ∈ L, p.2 ≈ psi l p.1 := by
  rcases hl with rfl | rfl | rfl
  · refine ⟨_, if_pos rfl, rfl, fun p hp => ?_⟩
    simp only [List.mem_cons, List.not_mem_nil, or_false] at hp
    rcases hp with rfl | rfl | rfl
    · refine (inAxis_eqv _ rfl rfl).trans ?_
      rw [psiNeg, show sgn elemT = -1 by decide +kernel, elemT_eq]
      refine ⟨rfl, rfl, fun i j hi hj => ?_⟩
      change i < 3 at hi; change j < 3 at hj
      simp only [toNp, Matrix.smul_apply, Matrix.submatrix_apply]
      interval_cases i <;> interval_cases j <;> simp [lit, mat, ax, Fin.ofNat, harmonicAxis]
    · refine (inAxis_eqv _ rfl rfl).trans (Eqv.trans ?_ (psi3_0 (.inr rfl)).symm)
      refine ⟨rfl, rfl, fun i j hi hj => ?_⟩
      change i < 3 at hi; change j < 3 at hj
      interval_cases i <;> interval_cases j <;> simp [lit, harmonicAxis]
    · refine (inAxis_eqv _ rfl rfl).trans (Eqv.trans ?_ (psi3_11 (.inr rfl)).symm)
      refine ⟨rfl, rfl, fun i j hi hj => ?_⟩
      change i < 3 at hi; change j < 3 at hj
      interval_cases i <;> interval_cases j <;> simp [lit, harmonicAxis]
  · refine ⟨_, (if_neg (by norm_num)).trans (if_pos rfl), rfl, fun p hp => ?_⟩
    simp only [List.mem_cons, List.not_mem_nil, or_false] at hp
    rcases hp with rfl | rfl | rfl
    · exact psi2_T.symm
    · exact psi2_0.symm
    · exact psi2_11.symm
  · refine ⟨_, (if_neg (by norm_num)).trans ((if_neg (by norm_num)).trans (if_pos rfl)), rfl, fun p hp => ?_⟩
    simp only [List.mem_cons, List.not_mem_nil, or_false] at hp
    rcases hp with rfl | rfl | rfl
    · rw [psi3', show sgn elemT = -1 by decide +kernel]
      refine ⟨rfl, rfl, fun i j hi hj => ?_⟩
      obtain rfl : i = 0 := by change i < 1 at hi; omega
      obtain rfl : j = 0 := by change j < 1 at hj; omega
      simp [toNp, lit]
    · rw [psi3', show sgn (nth 0) = 1 by decide +kernel]
      refine ⟨rfl, rfl, fun i j hi hj => ?_⟩
      obtain rfl : i = 0 := by change i < 1 at hi; omega
      obtain rfl : j = 0 := by change j < 1 at hj; omega
      simp [toNp, lit]
    · rw [psi3', show sgn (nth 11) = 1 by decide +kernel]
      refine ⟨rfl, rfl, fun i j hi hj => ?_⟩
      obtain rfl : i = 0 := by change i < 1 at hi; omega
      obtain rfl : j = 0 := by change j < 1 at hj; omega
      simp [toNp, lit]

variable {W : ℕ → UQuat → NpMat ℝ} {ord : List Elem → List Elem}

/-- **C85** `irrep(l)` succeeds exactly for `-1 ≤ l ≤ 3`, whatever the order of iteration over sets: no assertion of the construction from generators fails; the size is the dimension of the irrep and
the matrix of every element is the one of the mathematical definition. -/
theorem C85_irreps (hW : Wigner 1 (W 1)) (hord : ∀ L, (ord L).Perm L) (l : ℤ) :
    (-1 ≤ l → l ≤ 3 → ∃ I, irrep W ord l = .ok I ∧ I.size = dim l ∧ ∀ e ∈ elements, ∃ M, I.mat e = .ok M ∧ M ≈ psi l e) ∧
      (¬ (-1 ≤ l ∧ l ≤ 3) → irrep W ord l = .error .assertion) := by
  refine ⟨fun h1 h2 => ?_, fun h => if_pos h⟩
  rw [irrep, if_neg (by tauto)]
  by_cases h0 : l = 0
  · subst h0
    exact ⟨_, if_pos rfl, rfl, fun e he => ⟨_, rfl, (toNp_one 1).symm⟩⟩
  rw [if_neg h0]
  by_cases h1' : l = 1
  · subst h1'
    refine ⟨_, if_pos rfl, rfl, fun e he => ⟨_, rfl, (hW.one rfl _ (toQ_unit he)).trans ?_⟩⟩
    rw [rotOf_toQ he, psi, if_pos rfl]
    refine ⟨rfl, rfl, fun i j hi hj => ?_⟩
    change i < 3 at hi; change j < 3 at hj
    interval_cases i <;> interval_cases j <;> rfl
  rw [if_neg h1']
  obtain ⟨L, hL, hf, hp⟩ := irrepGens_ok (l := l) (by omega)
  have hmem : ∀ p ∈ L, p.1 ∈ [elemT, nth 0, nth 11] := fun p hp => hf ▸ List.mem_map.2 ⟨p, hp, rfl⟩
  have hin : ∀ g ∈ [elemT, nth 0, nth 11], g ∈ elements := by decide +kernel
  obtain ⟨rho, hrho, hval⟩ := C20_generators_complete finGroup (psi_rep l) L (by rintro rfl; simp at hf) (fun p hpL => ⟨hin _ (hmem p hpL), hp p hpL⟩)
    (fun S hS1 hS x hx => generate_T hS1 (fun y hy g hg => by
      rw [← hf] at hg
      obtain ⟨p, hp, rfl⟩ := List.mem_map.1 hg
      exact (hS y hy p hp).1) x hx) ord hord (elements.length + 1) le_rfl
  obtain ⟨A, hA, hA'⟩ := hval identity finGroup.one_mem
  refine ⟨⟨A.rows, fun e => match rho e with
    | none => .error .key
    | some M => .ok M⟩, ?_, hA'.1.trans ((psi_rep l).rows _ finGroup.one_mem), fun e he => ?_⟩
  · rw [builtIrrep, hL]
    simp only [bind, Except.bind]
    rw [hrho]
    simp only [hA]
    exact congrArg Except.ok (congrArg _ (funext fun e => by cases rho e <;> rfl))
  · obtain ⟨M, hM, hM'⟩ := hval e he
    exact ⟨M, by simp only [hM], hM'⟩

/-- **C85** The other values of `_build_octa_irrep` raise `ValueError`. -/
theorem C85_build_errors {l : ℤ} (hl : l ≠ -1 ∧ l ≠ 2 ∧ l ≠ 3) : builtIrrep ord l = .error .value := by
  rw [builtIrrep, irrepGens, if_neg hl.1, if_neg hl.2.1, if_neg hl.2.2]
  rfl

theorem table_spec (hW : Wigner 1 (W 1)) (hord : ∀ L, (ord L).Perm L) {l : ℤ} (hl : (table W ord).ok l = true) :
    l ∈ irrepIds ∧ (table W ord).size l = dim l ∧ ∀ e ∈ elements, (table W ord).mat l e ≈ psi l e := by
  have hm : l ∈ irrepIds := by simpa [table] using hl
  have hb : -1 ≤ l ∧ l ≤ 3 := by
    simp only [irrepIds, List.mem_cons, List.not_mem_nil, or_false] at hm
    omega
  obtain ⟨I, hI, hs, hmat⟩ := (C85_irreps hW hord l).1 hb.1 hb.2
  refine ⟨hm, by simp only [table, hI, hs], fun e he => ?_⟩
  obtain ⟨M, hM, hM'⟩ := hmat e he
  simp only [table, hI, hM]
  exact hM'

/-- **C85** The five irreps are orthogonal representations, irreducible of real type, pairwise inequivalent (the characters are orthonormal), and all the irreps: the characters weighted with the dimensions add up
to the character of the regular representation. -/
theorem C85_complete (hW : Wigner 1 (W 1)) (hord : ∀ L, (ord L).Perm L) :
    (table W ord).Valid (· ∈ elements) combine identity ∧ irrepIds.Nodup ∧ (∀ l, (table W ord).ok l = true ↔ l ∈ irrepIds) ∧
      (∀ l ∈ irrepIds, HasType (· ∈ elements) ((table W ord).mat l) .R ((table W ord).size l)) ∧
      (∀ i ∈ irrepIds, ∀ j ∈ irrepIds, (elements.map fun g => trace ((table W ord).mat i g) * trace ((table W ord).mat j g)).sum = if i = j then 24 else 0) ∧
      ∀ g ∈ elements, (irrepIds.map fun l => ((table W ord).size l : ℝ) * trace ((table W ord).mat l g)).sum = if g = identity then 24 else 0 := by
  have hok : ∀ l, (table W ord).ok l = true ↔ l ∈ irrepIds := fun l => by simp [table]
  have htr : ∀ l ∈ irrepIds, ∀ g ∈ elements, trace ((table W ord).mat l g) = (chi l g : ℝ) := fun l hl g hg => by
    rw [← psi_trace l g hg]
    have h := (table_spec hW hord ((hok l).2 hl)).2.2 g hg
    have hs := (psi_rep l).rows g hg
    have hc := (psi_rep l).cols g hg
    rw [trace, trace, h.1]
    refine Finset.sum_congr rfl fun i hi => h.2.2 i i ?_ ?_
    · rw [h.1]; exact Finset.mem_range.1 hi
    · rw [h.2.1, hc, ← hs]; exact Finset.mem_range.1 hi
  refine ⟨fun l hl => ?_, by decide +kernel, hok, fun l hl => ?_, fun i hi j hj => ?_, fun g hg => ?_⟩
  · obtain ⟨-, hs, hm⟩ := table_spec hW hord hl
    rw [hs]
    exact (psi_rep l).congr hm finGroup.one_mem finGroup.mul_mem
  · obtain ⟨-, hs, hm⟩ := table_spec hW hord ((hok l).2 hl)
    rw [hs]
    exact type_of hl hm
  · rw [List.map_congr_left (g := fun g => ((chi i g * chi j g : ℤ) : ℝ)) fun g hg => by rw [htr i hi g hg, htr j hj g hg]; push_cast; rfl]
    have := chi_orth i hi j hj
    have e : (elements.map fun g => ((chi i g * chi j g : ℤ) : ℝ)).sum = (((elements.map fun g => chi i g * chi j g).sum : ℤ) : ℝ) := by
      rw [Int.cast_list_sum, List.map_map]; rfl
    rw [e, this]
    split_ifs <;> norm_num
  · rw [List.map_congr_left (g := fun l => (((dim l : ℤ) * chi l g : ℤ) : ℝ)) fun l hl => by rw [htr l hl g hg, (table_spec hW hord ((hok l).2 hl)).2.1]; push_cast; rfl]
    have := chi_reg g hg
    have e : (irrepIds.map fun l => (((dim l : ℤ) * chi l g : ℤ) : ℝ)).sum = (((irrepIds.map fun l => (dim l : ℤ) * chi l g).sum : ℤ) : ℝ) := by
      rw [Int.cast_list_sum, List.map_map]; rfl
    rw [e, this]
    split_ifs <;> norm_num

/-- **C85** The numerical Clebsch–Gordan coefficients of the octahedral group: with exact numerical routines the tensor product of any two irreps is decomposed, the multiplicities are the ones of the
characters, and the coefficients satisfy the law of Clebsch and Gordan, whatever the random samples are. -/
theorem C85_clebsch_gordan {N : Numerics} (hN : NullExact N) (hW : Wigner 1 (W 1)) (hord : ∀ L, (ord L).Perm L) {tries : ℤ → ℤ → ℤ → List (List Elem × List Elem)}
    (htr : ∀ J l j, tries J l j ≠ [] ∧ ∀ p ∈ tries J l j, (∀ g ∈ p.1, g ∈ elements) ∧ (∀ g ∈ p.2, g ∈ elements) ∧ p.2 ≠ []) {J l : ℤ} (hJ : J ∈ irrepIds) (hl : l ∈ irrepIds) :
    (∃ L, cgDecompose (table W ord).size irrepIds (fun j => cgTensor N (table W ord) (fun _ => .R) generators (tries J l j) J l j) J l = .ok L) ∧
      (∀ j ∈ irrepIds, ∃ R, cgTensor N (table W ord) (fun _ => .R) generators (tries J l j) J l j = .ok R ∧ R.mult * 24 = (elements.map fun g => chi j g * (chi J g * chi l g)).sum) ∧
      CGLaw (· ∈ elements) (table W ord).ok (table W ord).size (table W ord).mat (numKGroup N (table W ord) (fun _ => .R) generators irrepIds tries).tensor
        (numKGroup N (table W ord) (fun _ => .R) generators irrepIds tries).cg J l := by
  obtain ⟨hv, hnd, hok, htyp, horth, hreg⟩ := C85_complete hW hord
  have h := C84_exact hN finGroup hv hnd (fun i hi => (hok i).2 hi) (fun i hi => (hok i).1 hi) (typ := fun _ => .R) (fun i hi => ⟨rfl, htyp i hi⟩)
    (fun i hi j hj hij => by rw [horth i hi j hj, if_neg hij]) (fun g hg => by rw [hreg g hg]; rfl) C85_generators.1 C85_generators.2.1 htr ((hok J).2 hJ) ((hok l).2 hl)
  refine ⟨h.1, fun j hj => ?_, h.2.2⟩
  obtain ⟨R, hR, hm⟩ := h.2.1 j hj
  refine ⟨R, hR, ?_⟩
  have htr : ∀ l ∈ irrepIds, ∀ g ∈ elements, trace ((table W ord).mat l g) = (chi l g : ℝ) := fun l hl g hg => by
    rw [← psi_trace l g hg]
    have h := (table_spec hW hord ((hok l).2 hl)).2.2 g hg
    rw [trace, trace, h.1]
    refine Finset.sum_congr rfl fun i hi => h.2.2 i i ?_ ?_
    · rw [h.1]; exact Finset.mem_range.1 hi
    · rw [h.2.1, (psi_rep l).cols g hg, ← (psi_rep l).rows g hg]; exact Finset.mem_range.1 hi
  rw [List.map_congr_left (g := fun g => ((chi j g * (chi J g * chi l g) : ℤ) : ℝ)) fun g hg => by rw [htr j hj g hg, htr J hJ g hg, htr l hl g hg]; push_cast; rfl] at hm
  have e : (elements.map fun g => ((chi j g * (chi J g * chi l g) : ℤ) : ℝ)).sum = (((elements.map fun g => chi j g * (chi J g * chi l g)).sum : ℤ) : ℝ) := by
    rw [Int.cast_list_sum, List.map_map]; rfl
  rw [e] at hm
  have h24 : (elements.length : ℝ) = 24 := by norm_num [show elements.length = 24 from rfl]
  rw [h24] at hm
  exact_mod_cast hm

/-- **C85** `standard_representation()` is the rotation matrix. -/
theorem C85_standard (hW : Wigner 1 (W 1)) {e : Elem} (he : e ∈ elements) : standardMat W e ≈ toNp 3 (mat e) := by
  have h := hW.one rfl _ (toQ_unit he)
  rw [rotOf_toQ he] at h
  have hr := h.1; have hc := h.2.1
  refine (mul_congr (mul_congr (Eqv.refl _) h (by rw [hr]; rfl)) (Eqv.refl _) (by simp [mul, transpose, axisCob, lit, hc])).trans ?_
  refine ⟨rfl, rfl, fun i j hi hj => ?_⟩
  change i < 3 at hi; change j < 3 at hj
  simp only [mul, transpose, axisCob, lit, Finset.sum_range_succ, Finset.sum_range_zero, harmonicAxis, toNp, Fin.ofNat]
  interval_cases i <;> interval_cases j <;> simp

/-- The hypotheses are met: `wigner1` is a Wigner matrix of frequency 1, reversing a list is a permutation, an exact null space exists, and the list of samples is not empty. -/
example : Wigner 1 (wignerUpTo2 1) ∧ (∀ L : List Elem, L.reverse.Perm L) ∧ (∃ N, NullExact N) ∧ (∀ p ∈ [([nth 0], [nth 1, nth 2])], (∀ g ∈ p.1, g ∈ elements) ∧ (∀ g ∈ p.2, g ∈ elements) ∧ p.2 ≠ []) ∧
    (2 : ℤ) ∈ irrepIds ∧ nth 7 ∈ elements ∧ normSq (quat 0 0 0 1) = 1 :=
  ⟨wignerUpTo2_ok (by norm_num) (by norm_num), fun L => L.reverse_perm, NullExact.exists, by decide +kernel, by decide, by decide +kernel, by rw [SO3.normSq_quat]; norm_num⟩

/-- The product of the irreps 1 and 1 contains 0, 1, -1 and 2 once each. -/
example : [0, 1, -1, 2, 3].map (fun j => (elements.map fun g => chi j g * (chi 1 g * chi 1 g)).sum / 24) = [1, 1, 1, 1, 0] := by decide +kernel

end Octa

end Escnn
