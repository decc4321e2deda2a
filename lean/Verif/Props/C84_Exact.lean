import Verif.Props.C84_ClebschGordan
import Verif.Lemmas.CGCount
import Verif.Props.C83_Groups
import Verif.Props.C61_Instances
import Verif.Props.C16_Regular

/-!
# C84: with exact numerical routines the Clebsch–Gordan coefficients of irreps of real type are always found
-/

namespace Escnn

open NpMat CGComplete

variable {G Id : Type} {T : IrrepTable G Id} {els : List G} {El : G → Prop} {op : G → G → G} {inv : G → G} {one : G}

/-- **C84** With exact numerical routines (`null` is an orthonormal basis of the kernel) and an irrep of real type `_clebsh_gordan_tensor` succeeds in the first attempt if its samples generate the group.
The copies are then all of them: every intertwiner is a linear combination of the ones returned. -/
theorem C84_real {N : Numerics} (hN : NullExact N) (hT : T.Valid El op one) (hel : El one) (hop : ∀ g h, El g → El h → El (op g h)) {typ : Id → IrrType} {J l j : Id} (hJ : T.ok J = true) (hl : T.ok l = true)
    (hj : T.ok j = true) (htyp : typ j = .R) (ht : HasType El (T.mat j) .R (T.size j)) {gens s t : List G} (hgens : ∀ g ∈ gens, El g) (hs : ∀ g ∈ s, El g) (hte : ∀ g ∈ t, El g) (ht0 : t ≠ [])
    (hgen : ∀ g, El g → ∃ w : List G, (∀ x ∈ w, x ∈ gens ++ s) ∧ w.foldl op one = g) (L : List (List G × List G)) :
    ∃ B R, cgTensor N T typ gens ((s, t) :: L) J l j = .ok R ∧ R.mult = B.cols ∧ B.rows = T.size j * (T.size J * T.size l) ∧ OrthoCols B ∧
      ∀ v : ℕ → ℝ, InSpan B v ↔ ∀ g, El g → mul (kron (T.mat J g) (T.mat l g)) (unflatF (T.size J * T.size l) (T.size j) v) ≈ mul (unflatF (T.size J * T.size l) (T.size j) v) (T.mat j g) := by
  obtain ⟨B, hB, hH⟩ := cgLoop_exact hN hT hel hop hJ hl hj hgens hs hte ht0 hgen L
  obtain ⟨R, hR, hm⟩ := cgSelect_real hT hJ hl hj ht hH
  refine ⟨B, R, ?_, hm, hH.rows, hH.ortho, hH.span⟩
  rw [cgTensor, hB]
  simp only [bind, Except.bind, htyp]
  exact hR

/-- **C84** A finite group whose irreps are all of real type, given with all of them (characters orthogonal, regular character), and generators: with exact numerical routines
`_find_tensor_decomposition` never raises `InsufficientIrrepsException` nor fails an assertion, and the tensor product with its coefficients satisfies the law of Clebsch and Gordan. -/
theorem C84_exact [DecidableEq Id] [DecidableEq G] {N : Numerics} (hN : NullExact N) (hG : FinGroup els op inv one) (hT : T.Valid (· ∈ els) op one) {ids : List Id} (hnd : ids.Nodup) (hok : ∀ i ∈ ids, T.ok i = true)
    (hall : ∀ i, T.ok i = true → i ∈ ids) {typ : Id → IrrType} (htyp : ∀ i ∈ ids, typ i = .R ∧ HasType (· ∈ els) (T.mat i) .R (T.size i))
    (horth : ∀ i ∈ ids, ∀ j ∈ ids, i ≠ j → (els.map fun g => trace (T.mat i g) * trace (T.mat j g)).sum = 0)
    (hreg : ∀ g ∈ els, (ids.map fun i => (T.size i : ℝ) * trace (T.mat i g)).sum = if g = one then (els.length : ℝ) else 0) {gens : List G} (hgens : ∀ g ∈ gens, g ∈ els)
    (hgen : ∀ g ∈ els, ∃ w : List G, (∀ x ∈ w, x ∈ gens) ∧ w.foldl op one = g) {tries : Id → Id → Id → List (List G × List G)}
    (htr : ∀ J l j, tries J l j ≠ [] ∧ ∀ p ∈ tries J l j, (∀ g ∈ p.1, g ∈ els) ∧ (∀ g ∈ p.2, g ∈ els) ∧ p.2 ≠ []) {J l : Id} (hJ : T.ok J = true) (hl : T.ok l = true) :
    (∃ L, cgDecompose T.size ids (fun j => cgTensor N T typ gens (tries J l j) J l j) J l = .ok L) ∧
      (∀ j ∈ ids, ∃ R, cgTensor N T typ gens (tries J l j) J l j = .ok R ∧ (R.mult : ℝ) * els.length = (els.map fun g => trace (T.mat j g) * (trace (T.mat J g) * trace (T.mat l g))).sum) ∧
      CGLaw (· ∈ els) T.ok T.size T.mat (numKGroup N T typ gens ids tries).tensor (numKGroup N T typ gens ids tries).cg J l := by
  have hop : ∀ g h, g ∈ els → h ∈ els → op g h ∈ els := fun g h hg hh => hG.mul_mem g hg h hh
  have hn : (els.length : ℝ) ≠ 0 := by exact_mod_cast hG.length_pos.ne'
  have hgen' : ∀ L : List G, ∀ g, g ∈ els → ∃ w : List G, (∀ x ∈ w, x ∈ gens ++ L) ∧ w.foldl op one = g := fun L g hg => by
    obtain ⟨w, hw, e⟩ := hgen g hg
    exact ⟨w, fun x hx => List.mem_append_left _ (hw x hx), e⟩
  have hcg : ∀ j, ∃ m : ℕ, j ∈ ids → ∃ R, cgTensor N T typ gens (tries J l j) J l j = .ok R ∧ R.mult = m ∧ (m : ℝ) * els.length = (els.map fun g => trace (T.mat j g) * (trace (T.mat J g) * trace (T.mat l g))).sum := by
    intro j
    by_cases hj : j ∈ ids
    · obtain ⟨h0, h1⟩ := htr J l j
      rcases htj : tries J l j with _ | ⟨⟨s, t⟩, L⟩
      · exact absurd htj h0
      · rw [htj] at h1
        obtain ⟨h2, h3, h4⟩ := h1 (s, t) (by simp)
        obtain ⟨B, R, hR, hm, hr, hor, hsp⟩ := C84_real hN hT hG.one_mem hop hJ hl (hok j hj) (htyp j hj).1 (htyp j hj).2 hgens h2 h3 h4 (hgen' s) L
        refine ⟨B.cols, fun _ => ⟨R, hR, hm, ?_⟩⟩
        rw [hom_count hG ((hT J hJ).tensor (hT l hl)) (hT j (hok j hj)) hr hor hsp]
        refine congrArg List.sum (List.map_congr_left fun g hg => ?_)
        rw [trace_kron _ _ (by rw [(hT J hJ).rows g hg, (hT J hJ).cols g hg]) (by rw [(hT l hl).rows g hg, (hT l hl).cols g hg])]
    · exact ⟨0, fun h => absurd h hj⟩
  choose m hm using hcg
  obtain ⟨L, hL⟩ := cgDecomposeLoop_total (size := T.size) (cg := fun j => cgTensor N T typ gens (tries J l j) J l j) (m := m) (ids := ids) fun j hj => by
    obtain ⟨R, hR, hm, -⟩ := hm j hj
    exact ⟨R, hR, hm⟩
  have hsum : (ids.map fun j => T.size j * m j).sum = T.size J * T.size l := by
    have e1 : ∀ ids' : List Id, (∀ i ∈ ids', i ∈ ids) → (((ids'.map fun j => T.size j * m j).sum : ℕ) : ℝ) * els.length =
        (els.map fun g => (ids'.map fun i => (T.size i : ℝ) * trace (T.mat i g)).sum * (trace (T.mat J g) * trace (T.mat l g))).sum := by
      intro ids' h'
      induction ids' with
      | nil => simp
      | cons i L ih =>
        obtain ⟨-, -, -, hmi⟩ := hm i (h' i (by simp))
        rw [List.map_cons, List.sum_cons, Nat.cast_add, add_mul, ih fun k hk => h' k (by simp [hk]), Nat.cast_mul, mul_assoc, hmi, list_mul_sum, ← List.sum_map_add]
        refine congrArg List.sum (List.map_congr_left fun g _ => ?_)
        rw [List.map_cons, List.sum_cons]
        ring
    have e2 := e1 ids fun _ h => h
    have htr1 : ∀ {i}, T.ok i = true → trace (T.mat i one) = T.size i := fun hi => by
      rw [trace_congr' (hT _ hi).map_one (by rw [(hT _ hi).rows _ hG.one_mem, (hT _ hi).cols _ hG.one_mem])]
      simp [trace, eye]
    have e3 : (els.map fun g => (ids.map fun i => (T.size i : ℝ) * trace (T.mat i g)).sum * (trace (T.mat J g) * trace (T.mat l g))) =
        els.map fun g => if g = one then (els.length : ℝ) * (T.size J * T.size l) else 0 := List.map_congr_left fun g hg => by
      rw [hreg g hg]
      split_ifs with h1
      · rw [h1, htr1 hJ, htr1 hl]
      · rw [zero_mul]
    rw [e3, List.sum_map_ite_eq, hG.nodup.count, if_pos hG.one_mem, one_smul, mul_comm] at e2
    have e4 : (els.map fun _ => (0 : ℝ)).sum = 0 := by simp
    rw [e4, sub_zero, add_zero] at e2
    exact_mod_cast mul_left_cancel₀ hn e2
  have hdec : cgDecompose T.size ids (fun j => cgTensor N T typ gens (tries J l j) J l j) J l = .ok L := by
    rw [cgDecompose, hL]
    simp only [bind, Except.bind, hsum]
    rw [if_neg (lt_irrefl _), if_neg (lt_irrefl _)]
  refine ⟨⟨L, hdec⟩, fun j hj => ?_, ?_⟩
  · obtain ⟨R, hR, h1, h2⟩ := hm j hj
    exact ⟨R, hR, by rw [h1]; exact h2⟩
  · refine C84_decomposition hT ⟨fun j hj => ?_, fun i j hi hj hij => ?_⟩ hG.one_mem hop hnd hok hgens (fun J l j p hp => ((htr J l j).2 p hp).2.1) (fun J l j p hp => hgen' p.2) hJ hl hdec
    · rw [(htyp j (hall j hj)).1]
      exact (htyp j (hall j hj)).2
    · exact inequivalent_of_char hG (hT j hj) (hT i hi) (horth i (hall i hi) j (hall j hj) hij)

/-- **C84** The dihedral group `D_N`: with exact numerical routines the tensor product of any two irreps is decomposed and the coefficients satisfy the law of Clebsch and Gordan, whatever the random samples are. -/
theorem C84_dihedral {N : Numerics} (hN : NullExact N) (n : ℕ) (hn : 0 < n) {tries : ℕ × ℕ → ℕ × ℕ → ℕ × ℕ → List (List Dihedral.Elem × List Dihedral.Elem)}
    (htr : ∀ J l j, tries J l j ≠ [] ∧ ∀ p ∈ tries J l j, (∀ g ∈ p.1, g ∈ Dihedral.elements n) ∧ (∀ g ∈ p.2, g ∈ Dihedral.elements n) ∧ p.2 ≠ []) {J l : ℕ × ℕ} (hJ : Dihedral.irrepOk n J.1 J.2 = true)
    (hl : Dihedral.irrepOk n l.1 l.2 = true) :
    (∃ L, cgDecompose (Dihedral.table n).size (Dihedral.irrepIds n) (fun j => cgTensor N (Dihedral.table n) (fun _ => .R) (Dihedral.generators n) (tries J l j) J l j) J l = .ok L) ∧
      (∀ j ∈ Dihedral.irrepIds n, ∃ R, cgTensor N (Dihedral.table n) (fun _ => .R) (Dihedral.generators n) (tries J l j) J l j = .ok R ∧
        (R.mult : ℝ) * (2 * n) = ((Dihedral.elements n).map fun g => trace (Dihedral.irrepMat n j.1 j.2 g) * (trace (Dihedral.irrepMat n J.1 J.2 g) * trace (Dihedral.irrepMat n l.1 l.2 g))).sum) ∧
      CGLaw (· ∈ Dihedral.elements n) (Dihedral.table n).ok (Dihedral.table n).size (Dihedral.table n).mat (numKGroup N (Dihedral.table n) (fun _ => .R) (Dihedral.generators n) (Dihedral.irrepIds n) tries).tensor
        (numKGroup N (Dihedral.table n) (fun _ => .R) (Dihedral.generators n) (Dihedral.irrepIds n) tries).cg J l := by
  have hlaw := dihedralData_law hn
  have hok := (Dihedral.C10_ids n hn).1
  have hv := Dihedral.table_valid_mem n hn
  have hmem : ∀ g, g ∈ Dihedral.elements n ↔ Dihedral.isElement n g = true := (Dihedral.C02_dihedral_group_laws n hn).2.2.2.2.2.2.2.2
  have h := C84_exact hN (Dihedral.finGroup n hn) hv (Dihedral.C10_ids n hn).2.1 hok (fun i hi => (Dihedral.C10_ids n hn).2.2 i.1 i.2 hi) (typ := fun _ => .R)
    (fun i hi => ⟨rfl, ?_⟩) (fun i hi j hj hij => ?_) (fun g hg => ?_) hlaw.gens hlaw.generate htr hJ hl
  · refine ⟨h.1, fun j hj => ?_, h.2.2⟩
    obtain ⟨R, hR, hm⟩ := h.2.1 j hj
    refine ⟨R, hR, ?_⟩
    have hlen : ((Dihedral.elements n).length : ℝ) = 2 * n := by simp [Dihedral.elements]; ring
    rw [hlen] at hm
    exact hm
  · have := (Dihedral.typed n hn).2 i (hok i hi)
    exact ⟨fun B hB g hg => this.commute B hB g ((hmem g).1 hg), fun M hr hc hM => this.full M hr hc fun g hg => hM g ((hmem g).2 hg)⟩
  · have := Dihedral.C10_character_orthogonality n i.1 i.2 j.1 j.2 hn (hok i hi) (hok j hj)
    exact this.trans (by rw [if_neg]; simpa [Prod.ext_iff] using hij)
  · have := (Dihedral.regularData n hn).plancherel g hg
    rw [← this]
    refine congrArg List.sum (List.map_congr_left fun i hi => ?_)
    rw [trace, (hv i (hok i hi)).rows g hg]
    rfl

/-- The trivial irrep occurs once in the tensor product of an irrep of `D_N` with itself. -/
theorem C84_dihedral_trivial {N : Numerics} (hN : NullExact N) (n : ℕ) (hn : 0 < n) {J : ℕ × ℕ} (hJ : Dihedral.irrepOk n J.1 J.2 = true) :
    ∃ R, cgTensor N (Dihedral.table n) (fun _ => .R) (Dihedral.generators n) [([], [Dihedral.identity])] J J (0, 0) = .ok R ∧ R.mult = 1 := by
  have hmem : ∀ g, g ∈ Dihedral.elements n ↔ Dihedral.isElement n g = true := (Dihedral.C02_dihedral_group_laws n hn).2.2.2.2.2.2.2.2
  have h1 : Dihedral.identity ∈ Dihedral.elements n := (Dihedral.finGroup n hn).one_mem
  obtain ⟨-, h, -⟩ := C84_dihedral hN n hn (tries := fun _ _ _ => [([], [Dihedral.identity])]) (fun _ _ _ => ⟨by simp, fun p hp => by
    obtain rfl := List.mem_singleton.1 hp
    refine ⟨by simp, ?_, by simp⟩
    intro g hg
    obtain rfl := List.mem_singleton.1 hg
    exact h1⟩) hJ hJ
  obtain ⟨R, hR, hm⟩ := h (0, 0) ((Dihedral.C10_ids n hn).2.2 0 0 (by simp [Dihedral.irrepOk]))
  refine ⟨R, hR, ?_⟩
  have e : ((Dihedral.elements n).map fun g => trace (Dihedral.irrepMat n 0 0 g) * (trace (Dihedral.irrepMat n J.1 J.2 g) * trace (Dihedral.irrepMat n J.1 J.2 g))) =
      (Dihedral.elements n).map fun g => trace (Dihedral.irrepMat n J.1 J.2 g) * trace (Dihedral.irrepMat n J.1 J.2 g) := List.map_congr_left fun g _ => by
    have : trace (Dihedral.irrepMat n 0 0 g) = 1 := by simp [Dihedral.irrepMat, trace, eye]
    rw [this, one_mul]
  dsimp only at hm
  rw [e, Dihedral.C10_character_orthogonality n J.1 J.2 J.1 J.2 hn hJ hJ, if_pos rfl] at hm
  have h2 : (2 * n : ℝ) ≠ 0 := by
    have : (n : ℝ) ≠ 0 := by exact_mod_cast hn.ne'
    positivity
  exact_mod_cast mul_right_cancel₀ h2 (hm.trans (one_mul _).symm)

/-- Non-vacuity of `C84_exact`, `C84_dihedral` and `C84_decomposition`: an exact routine and the decomposition of the square of the irrep of dimension 2 of `D_3`. -/
example : ∃ N, NullExact N ∧ ∃ L, cgDecompose (Dihedral.table 3).size (Dihedral.irrepIds 3) (fun j => cgTensor N (Dihedral.table 3) (fun _ => .R) (Dihedral.generators 3) [([], [Dihedral.identity])] (1, 1) (1, 1) j) (1, 1) (1, 1) = .ok L := by
  obtain ⟨N, hN⟩ := NullExact.exists
  exact ⟨N, hN, (C84_dihedral hN 3 (by norm_num) (tries := fun _ _ _ => [([], [Dihedral.identity])]) (fun _ _ _ => ⟨by simp, fun p hp => by
    obtain rfl := List.mem_singleton.1 hp
    exact ⟨by simp, by simp [Dihedral.identity, Dihedral.elements], by simp⟩⟩) (J := (1, 1)) (l := (1, 1)) (by decide) (by decide)).1⟩

/-- Non-vacuity of `C84_sound` and `C84_real`: an array with one copy is returned. -/
example : ∃ N R, cgTensor N (Dihedral.table 3) (fun _ => .R) (Dihedral.generators 3) [([], [Dihedral.identity])] (1, 1) (1, 1) (0, 0) = .ok R ∧ R.mult = 1 := by
  obtain ⟨N, hN⟩ := NullExact.exists
  exact ⟨N, C84_dihedral_trivial hN 3 (by norm_num) (by decide)⟩

end Escnn
