import Verif.Lemmas.Kernels
import Verif.Props.C15_ClebschGordan

/-!
# C35: kernels of `WignerEckartBasis` satisfy the steerability constraint
-/

namespace Escnn

open NpMat

variable {G J P A : Type} [DecidableEq J]

namespace WE

theorem sum_dims {T : List (J × ℕ)} {mult : J → ℕ} {w : J → ℕ} {L : List (J × ℕ)} (hT : (T.map Prod.fst).Nodup) (hL : (L.map Prod.fst).Nodup)
    (hm : ∀ j, 0 < mult j → j ∈ L.map Prod.fst) :
    let js := T.filter fun e => 0 < mult e.1
    let dims := js.map fun e => (e.1, mult e.1 * e.2 * w e.1)
    ((IBasis.selectJs (js.map Prod.fst) [] L).map fun j => (FType.lookupLast dims j).getD 0).sum = (dims.map Prod.snd).sum := by
  intro js dims
  have hjs : (js.map Prod.fst).Nodup := hT.sublist (List.filter_sublist.map _)
  have hd : dims.map Prod.fst = js.map Prod.fst := by simp [dims, List.map_map, Function.comp_def]
  rw [IBasis.selectJs_eq _ _ _ hL (by simp), List.nil_append]
  have hp : (L.map Prod.fst).filter (· ∈ js.map Prod.fst) |>.Perm (js.map Prod.fst) := by
    refine (List.perm_ext_iff_of_nodup (hL.filter _) hjs).2 fun j => ?_
    rw [List.mem_filter, decide_eq_true_eq]
    refine ⟨fun h => h.2, fun h => ⟨?_, h⟩⟩
    obtain ⟨e, he, rfl⟩ := List.mem_map.1 h
    exact hm _ (by simpa using (List.mem_filter.1 he).2)
  rw [(hp.map _).sum_eq, ← hd, List.map_map]
  congr 1
  refine List.map_congr_left fun e he => ?_
  have : FType.lookupLast dims e.1 = some e.2 := (lookupLast_of_nodup (by rw [hd]; exact hjs)).2 he
  simp [Function.comp, this]

/-- The result of the constructor. -/
theorem init_spec {El : G → Prop} {op : G → G → G} {one : G} (K : KGroup G J) (F : FBasis J P A) (m n : J)
    (hT : K.T.Valid El op one) (hE : EndoValid K.T K.typ El) (hm : K.T.ok m = true)
    (hok : ∀ p ∈ K.tensor m n, K.T.ok p.1 = true) (hnd : ((K.tensor m n).map Prod.fst).Nodup)
    (hcg : ∀ p ∈ K.tensor m n, (K.cg n m p.1).mult = p.2 ∧ ∀ g, El g → Intertwines (K.T.mat n g) (K.T.mat m g) (K.T.mat p.1 g) (K.cg n m p.1))
    (hF : (F.js.map Prod.fst).Nodup) :
    (init K F m n = .error .emptyBasis ∧ ((K.tensor m n).map fun e => F.mult e.1 * e.2 * (K.typ e.1).sumsq).sum = 0) ∨
    ∃ b, init K F m n = .ok b ∧ b.dim = ((K.tensor m n).map fun e => F.mult e.1 * e.2 * (K.typ e.1).sumsq).sum ∧
      b.rows = K.T.size n ∧ b.cols = K.T.size m ∧ (∀ j ∈ b.js, K.T.ok j = true) ∧ b.Good El K.T.size K.T.mat (K.T.mat m) (K.T.mat n) F := by
  have hmultF : ∀ j, 0 < F.mult j → j ∈ F.js.map Prod.fst := fun j hj => List.mem_map.2 ⟨_, FBasis.mem_of_mult hj, rfl⟩
  set js := (K.tensor m n).filter fun e => 0 < F.mult e.1 with hjs
  set dims := js.map fun e => (e.1, F.mult e.1 * e.2 * (K.typ e.1).sumsq) with hdims
  have htot : (dims.map Prod.snd).sum = ((K.tensor m n).map fun e => F.mult e.1 * e.2 * (K.typ e.1).sumsq).sum := by
    rw [hdims, List.map_map, hjs]
    generalize K.tensor m n = L
    induction L with
    | nil => rfl
    | cons a L ih =>
      rw [List.filter_cons]
      by_cases h : 0 < F.mult a.1
      · rw [if_pos (by simpa using h), List.map_cons, List.sum_cons, List.map_cons, List.sum_cons, ih]; rfl
      · rw [if_neg (by simpa using h), List.map_cons, List.sum_cons, ih, Nat.eq_zero_of_not_pos h, zero_mul, zero_mul, zero_add]
  by_cases h0 : (dims.map Prod.snd).sum = 0
  · exact Or.inl ⟨by rw [init, if_pos h0], htot.symm.trans h0⟩
  · right
    have hjsnd : (js.map Prod.fst).Nodup := hnd.sublist (List.filter_sublist.map _)
    have hsel : IBasis.selectJs (js.map Prod.fst) [] F.js = (F.js.map Prod.fst).filter (· ∈ js.map Prod.fst) := by
      rw [IBasis.selectJs_eq _ _ _ hF (by simp), List.nil_append]
    have hmem : ∀ j ∈ IBasis.selectJs (js.map Prod.fst) [] F.js, ∃ jJl, (j, jJl) ∈ js ∧ (j, jJl) ∈ K.tensor m n ∧ 0 < F.mult j := by
      intro j hj
      rw [hsel, List.mem_filter, decide_eq_true_eq] at hj
      obtain ⟨e, he, rfl⟩ := List.mem_map.1 hj.2
      exact ⟨e.2, he, (List.mem_filter.1 he).1, by simpa using (List.mem_filter.1 he).2⟩
    have hjJl : ∀ j jJl, (j, jJl) ∈ js → FType.lookupLast js j = some jJl := fun j jJl h => (lookupLast_of_nodup hjsnd).2 h
    have hd1 : dims.map Prod.fst = js.map Prod.fst := by rw [hdims, List.map_map]; rfl
    have hdimH : ∀ j jJl, (j, jJl) ∈ js → FType.lookupLast dims j = some (F.mult j * jJl * (K.typ j).sumsq) := fun j jJl h =>
      (lookupLast_of_nodup (by rw [hd1]; exact hjsnd)).2 (List.mem_map.2 ⟨_, h, rfl⟩)
    refine ⟨_, by
      rw [init, if_neg h0, if_pos]
      rw [List.all_eq_true]
      intro j hj
      obtain ⟨jJl, h1, h2, -⟩ := hmem j hj
      show decide ((FType.lookupLast js j).getD 0 = (K.cg n m j).mult) = true
      rw [hjJl j jJl h1, (hcg _ h2).1]; simp, htot, rfl, rfl, fun j hj => ?_, ?_⟩
    · obtain ⟨jJl, h1, h2, -⟩ := hmem j hj
      exact hok _ h2
    · refine ⟨?_, fun j hj => ?_, ?_, Nat.pos_of_ne_zero h0, fun j hj => ?_, fun j hj e he => ?_⟩
      · show (IBasis.selectJs _ _ _).Nodup
        rw [hsel]; exact hF.filter _
      · obtain ⟨jJl, h1, h2, h3⟩ := hmem j hj
        exact h3
      · exact (sum_dims (w := fun j => (K.typ j).sumsq) hnd hF hmultF).symm
      · have : j ∉ dims.map Prod.fst := by
          intro h
          refine hj ?_
          show j ∈ IBasis.selectJs _ _ _
          rw [hsel, List.mem_filter, decide_eq_true_eq, ← hd1]
          refine ⟨?_, h⟩
          rw [hd1] at h
          obtain ⟨e, he, rfl⟩ := List.mem_map.1 h
          exact hmultF _ (by simpa using (List.mem_filter.1 he).2)
        show (FType.lookupLast dims j).getD 0 = 0
        rw [lookupLast_none this]; rfl
      · obtain ⟨jJl, h1, h2, h3⟩ := hmem j hj
        change e < (FType.lookupLast dims j).getD 0 at he
        rw [hdimH j jJl h1, Option.getD_some] at he
        obtain ⟨hmul, hint⟩ := hcg _ h2
        have hm2 : (K.cg n m j).mult = jJl := hmul
        have hokj : K.T.ok j = true := hok _ h2
        have hpos : 0 < F.mult j * jJl := by
          rcases Nat.eq_zero_or_pos (F.mult j * jJl) with h | h
          · rw [h, zero_mul] at he; exact absurd he (Nat.not_lt_zero _)
          · exact h
        have hjpos : 0 < jJl := Nat.pos_of_mul_pos_left hpos
        obtain ⟨hlen, hshape, -⟩ := C18_endo_orthogonal (K.typ j) (K.T.size j) (hE j hokj).1
        have hk : e / F.mult j / jJl < (K.endo j).length := by
          rw [KGroup.endo, hlen, Nat.div_div_eq_div_mul]
          exact Nat.div_lt_of_lt_mul he
        refine ⟨coeff (K.T.size j) (K.cg n m j) ((K.endo j).getD (e / F.mult j / (K.cg n m j).mult) (zeros 0 0)) (e / F.mult j % (K.cg n m j).mult), e % F.mult j,
          Nat.mod_lt _ h3, fun Y p q => rfl, fun g hg => ?_⟩
        rw [hm2]
        have hEmem : (K.endo j).getD (e / F.mult j / jJl) (zeros 0 0) ∈ K.endo j := by
          rw [List.getD_eq_getElem _ _ hk]; exact List.getElem_mem hk
        exact coeff_steer (hint g hg) ((hT m hm).ortho g hg) ((hT j hokj).rows g hg) ((hT j hokj).ortho g hg) (hshape _ hEmem).1 (hshape _ hEmem).2
          ((hE j hokj).2 _ hEmem g hg) (by rw [hm2]; exact Nat.mod_lt _ hjpos)

/-- **C35** Let the irreps be orthogonal, let their endomorphism bases commute with them, let the tensor product list every irrep once with
its multiplicity and let the Clebsch–Gordan coefficients intertwine (C15 proves this for the cyclic groups and SO(2)).  For every steerable
filter basis, `WignerEckartBasis` raises `EmptyBasisException` if the number of solutions is zero, and otherwise every one of its elements is
a steerable kernel. -/
theorem C35_wigner_eckart {El : G → Prop} {op : G → G → G} {one : G} (K : KGroup G J) (F : FBasis J P A) (act : G → P → P) (m n : J)
    (hT : K.T.Valid El op one) (hE : EndoValid K.T K.typ El) (hm : K.T.ok m = true) (hn : K.T.ok n = true)
    (hok : ∀ p ∈ K.tensor m n, K.T.ok p.1 = true) (hnd : ((K.tensor m n).map Prod.fst).Nodup)
    (hcg : ∀ p ∈ K.tensor m n, (K.cg n m p.1).mult = p.2 ∧ ∀ g, El g → Intertwines (K.T.mat n g) (K.T.mat m g) (K.T.mat p.1 g) (K.cg n m p.1))
    (hF : (F.js.map Prod.fst).Nodup) (hst : F.Steerable K.T.size K.T.mat El act) :
    (init K F m n = .error .emptyBasis ∧ ((K.tensor m n).map fun e => F.mult e.1 * e.2 * (K.typ e.1).sumsq).sum = 0) ∨
    ∃ b, init K F m n = .ok b ∧ b.dim = ((K.tensor m n).map fun e => F.mult e.1 * e.2 * (K.typ e.1).sumsq).sum ∧
      ∀ e < b.dim, SteerableKernel El act (K.T.mat m) (K.T.mat n) fun x => b.sample K.T.size F x e := by
  rcases init_spec K F m n hT hE hm hok hnd hcg hF with h | ⟨b, hb, hdim, hr, hc, hbok, hgood⟩
  · exact Or.inl h
  · refine Or.inr ⟨b, hb, hdim, fun e he => hgood.sample hF hst (fun j hj g hg => ?_) (fun g hg => ?_) (fun g hg => ?_) he⟩
    · exact ⟨(hT j (hbok j hj)).rows g hg, (hT j (hbok j hj)).cols g hg⟩
    · rw [hc]; exact ⟨(hT m hm).rows g hg, (hT m hm).cols g hg⟩
    · rw [hr]; exact ⟨(hT n hn).rows g hg, (hT n hn).cols g hg⟩

end WE


/-! ### The groups with explicit Clebsch–Gordan coefficients -/

theorem natDist_comm (a b : ℕ) : natDist a b = natDist b a := by
  unfold natDist; split_ifs <;> omega

theorem SO2.tensor_comm (m n : ℕ) : SO2.tensorIrreps m n = SO2.tensorIrreps n m := by
  unfold SO2.tensorIrreps
  rw [natDist_comm n m, add_comm n m]
  by_cases hm : m = 0
  · subst hm
    by_cases hn : n = 0
    · subst hn; rfl
    · simp [hn]
  · by_cases hn : n = 0
    · subst hn; simp [hm]
    · simp [hm, hn, eq_comm]

theorem SO2.tensor_nodup (m n : ℕ) : ((SO2.tensorIrreps m n).map Prod.fst).Nodup := by
  unfold SO2.tensorIrreps natDist
  split_ifs <;> simp <;> omega

theorem Cyclic.foldSum_comm (N m n : ℕ) : Cyclic.foldSum N m n = Cyclic.foldSum N n m := by
  unfold Cyclic.foldSum; rw [add_comm m n, Nat.sub_right_comm]

theorem Cyclic.tensor_comm (N m n : ℕ) : Cyclic.tensorIrreps N m n = Cyclic.tensorIrreps N n m := by
  unfold Cyclic.tensorIrreps
  rw [natDist_comm n m, add_comm n m, Cyclic.foldSum_comm N m n]
  simp only [or_comm (a := m = 0), or_comm (a := m = N / 2)]
  by_cases h : n = m
  · subst h; rfl
  · have h' : ¬ m = n := fun e => h e.symm
    simp only [h, h', if_false]

theorem Cyclic.tensor_nodup (N m n : ℕ) (hm : m ≤ N / 2) (hn : n ≤ N / 2) : ((Cyclic.tensorIrreps N m n).map Prod.fst).Nodup := by
  unfold Cyclic.tensorIrreps natDist Cyclic.foldSum
  split_ifs <;> simp <;> omega

/-- The contract of the Clebsch–Gordan coefficients holds for SO(2). -/
theorem SO2.kgroup_cg (m n : ℕ) : ∀ p ∈ SO2.kgroup.tensor m n, (SO2.kgroup.cg n m p.1).mult = p.2 ∧
    ∀ g, SO2.IsElement g → Intertwines (SO2.kgroup.T.mat n g) (SO2.kgroup.T.mat m g) (SO2.kgroup.T.mat p.1 g) (SO2.kgroup.cg n m p.1) := by
  intro p hp
  obtain ⟨h1, h2, -⟩ := SO2.C15_so2 n m
  have hp' : p ∈ SO2.tensorIrreps n m := by rw [SO2.tensor_comm]; exact hp
  exact ⟨(h2 p hp').2, fun g _ => h1 p.1 g⟩

theorem Cyclic.kgroup_cg (N : ℕ) (hN : 0 < N) (m n : ℕ) (hm : m ≤ N / 2) (hn : n ≤ N / 2) : ∀ p ∈ (Cyclic.kgroup N).tensor m n,
    (Cyclic.kgroup N).T.ok p.1 = true ∧ ((Cyclic.kgroup N).cg n m p.1).mult = p.2 ∧ ∀ g, Cyclic.isElement N g = true →
      Intertwines ((Cyclic.kgroup N).T.mat n g) ((Cyclic.kgroup N).T.mat m g) ((Cyclic.kgroup N).T.mat p.1 g) ((Cyclic.kgroup N).cg n m p.1) := by
  intro p hp
  obtain ⟨h1, h2, -⟩ := Cyclic.C15_cyclic N n m hN hn hm
  have hp' : p ∈ Cyclic.tensorIrreps N n m := by rw [Cyclic.tensor_comm]; exact hp
  obtain ⟨h3, h4, h5⟩ := h2 p hp'
  exact ⟨decide_eq_true h3, h5, fun g _ => h1 p.1 h3 g⟩

namespace WE

/-- **C35** for SO(2): no assumption but the steerability of the filters. -/
theorem C35_so2 (F : FBasis ℕ P A) (act : ℝ → P → P) (m n : ℕ) (hF : (F.js.map Prod.fst).Nodup)
    (hst : F.Steerable SO2.irrepSize SO2.irrepMat SO2.IsElement act) :
    (init SO2.kgroup F m n = .error .emptyBasis ∧ ((SO2.tensorIrreps m n).map fun e => F.mult e.1 * e.2 * (SO2.irrepType e.1).sumsq).sum = 0) ∨
    ∃ b, init SO2.kgroup F m n = .ok b ∧ b.dim = ((SO2.tensorIrreps m n).map fun e => F.mult e.1 * e.2 * (SO2.irrepType e.1).sumsq).sum ∧
      ∀ e < b.dim, SteerableKernel SO2.IsElement act (SO2.irrepMat m) (SO2.irrepMat n) fun x => b.sample SO2.irrepSize F x e :=
  C35_wigner_eckart SO2.kgroup F act m n SO2.table_valid SO2.C18_so2 rfl rfl (fun _ _ => rfl) (SO2.tensor_nodup m n) (SO2.kgroup_cg m n) hF hst

/-- **C35** for the cyclic groups. -/
theorem C35_cyclic (N : ℕ) (hN : 0 < N) (F : FBasis ℕ P A) (act : ℤ → P → P) (m n : ℕ) (hm : m ≤ N / 2) (hn : n ≤ N / 2) (hF : (F.js.map Prod.fst).Nodup)
    (hst : F.Steerable (Cyclic.irrepSize N) (Cyclic.irrepMat N) (fun g => Cyclic.isElement N g = true) act) :
    (init (Cyclic.kgroup N) F m n = .error .emptyBasis ∧
      ((Cyclic.tensorIrreps N m n).map fun e => F.mult e.1 * e.2 * (Cyclic.irrepType N e.1).sumsq).sum = 0) ∨
    ∃ b, init (Cyclic.kgroup N) F m n = .ok b ∧ b.dim = ((Cyclic.tensorIrreps N m n).map fun e => F.mult e.1 * e.2 * (Cyclic.irrepType N e.1).sumsq).sum ∧
      ∀ e < b.dim, SteerableKernel (fun g => Cyclic.isElement N g = true) act (Cyclic.irrepMat N m) (Cyclic.irrepMat N n) fun x =>
        b.sample (Cyclic.irrepSize N) F x e :=
  C35_wigner_eckart (Cyclic.kgroup N) F act m n (Cyclic.table_valid N hN) (Cyclic.C18_cyclic N hN).1 (decide_eq_true hm) (decide_eq_true hn)
    (fun p hp => (Cyclic.kgroup_cg N hN m n hm hn p hp).1) (Cyclic.tensor_nodup N m n hm hn) (fun p hp => (Cyclic.kgroup_cg N hN m n hm hn p hp).2) hF hst

/-- The filters `1` and `(cos θ, sin θ)` on the circle are steerable under SO(2); between the irreps 1 and 1 there are four kernels
(`1 ⊗ 1` contains the trivial irrep twice; the irrep 2 has no filter). -/
noncomputable def demoF : FBasis ℕ ℝ Unit :=
  ⟨[(0, 2), (1, 1)], fun θ i => if i < 2 then 1 else if i = 2 then Real.cos θ else Real.sin θ, fun _ _ => .ok (),
    fun j => .ok (List.replicate (if j = 0 then 2 else 1) ())⟩

theorem demo_steerable : demoF.Steerable SO2.irrepSize SO2.irrepMat SO2.IsElement fun g x => g + x := by
  intro g _ x k j m hk i hi c hc
  have hk2 : k < 2 := (List.getElem?_eq_some_iff.1 hk).1
  interval_cases k
  · obtain ⟨rfl, rfl⟩ : 0 = j ∧ 2 = m := by simpa [demoF] using hk
    change c < 1 at hc
    interval_cases c
    interval_cases i <;> simp [demoF, SO2.irrepSize, SO2.irrepMat, NpMat.eye]
  · obtain ⟨rfl, rfl⟩ : 1 = j ∧ 1 = m := by simpa [demoF] using hk
    change c < 2 at hc
    interval_cases i
    interval_cases c <;> simp [demoF, SO2.irrepSize, SO2.irrepMat, psi, Finset.sum_range_succ, of2, Real.cos_add, Real.sin_add] <;> ring

example : ∃ b, init SO2.kgroup demoF 1 1 = .ok b ∧ b.dim = 4 ∧
    ∀ e < 4, SteerableKernel SO2.IsElement (fun g x => g + x) (SO2.irrepMat 1) (SO2.irrepMat 1) fun x => b.sample SO2.irrepSize demoF x e := by
  rcases C35_so2 demoF (fun g x => g + x) 1 1 (by decide) demo_steerable with h | ⟨b, hb, hd, h⟩
  · exact absurd h.2 (by decide)
  · have : b.dim = 4 := hd.trans (by decide)
    exact ⟨b, hb, this, fun e he => h e (this ▸ he)⟩

end WE

end Escnn
