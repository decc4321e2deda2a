import Verif.Lemmas.Kernels
import Verif.Lemmas.BlockRows
import Verif.Props.C13_RestrictRep
import Verif.Props.C35_WignerEckart

/-!
# C36: kernels of `RestrictedWignerEckartBasis` satisfy the constraint for the subgroup
-/

namespace Escnn

open NpMat

variable {H J J' P A : Type} [DecidableEq J] [DecidableEq J']

namespace RWE

theorem idPos_mem (size : J' → ℕ) (j : J') : ∀ (L : List J') (p p0 : ℕ), p0 ∈ idPos size j p L → ∃ k, L[k]? = some j ∧ p0 = p + chanOffset size L k
  | [], _, _, h => by simp [idPos] at h
  | i :: L, p, p0, h => by
    rw [idPos] at h
    have key : p0 ∈ idPos size j (p + size i) L → ∃ k, (i :: L)[k]? = some j ∧ p0 = p + chanOffset size (i :: L) k := by
      intro h
      obtain ⟨k, hk, rfl⟩ := idPos_mem size j L _ _ h
      exact ⟨k + 1, by simpa using hk, by simp [chanOffset, add_assoc]⟩
    by_cases hi : i = j
    · rw [if_pos hi, List.mem_cons] at h
      rcases h with rfl | h
      · exact ⟨0, by simp [hi], by simp [chanOffset]⟩
      · exact key h
    · rw [if_neg hi] at h
      exact key h

/-- The rows of `change_of_basis_inv` of one copy of an irrep intertwine the representation with the irrep. -/
theorem rows_intertwine {El : H → Prop} {op : H → H → H} {one : H} {T : IrrepTable H J'} (hT : T.Valid El op one) {r : Rep H J'} (hr : r.WF T El)
    {k : ℕ} {j : J'} (hk : r.irreps[k]? = some j) {h : H} (hh : El h) : ∀ o < T.size j, ∀ y < (r.mat h).cols,
      ∑ z ∈ Finset.range (r.mat h).rows, r.cobInv.get (chanOffset T.size r.irreps k + o) z * (r.mat h).get z y =
        ∑ l ∈ Finset.range (T.size j), (T.mat j h).get o l * r.cobInv.get (chanOffset T.size r.irreps k + l) y := by
  intro o ho y hy
  have hok : ∀ i ∈ r.irreps, (T.mat i h).rows = T.size i ∧ (T.mat i h).cols = T.size i := fun i hi => ⟨(hT i (hr.ok i hi)).rows h hh, (hT i (hr.ok i hi)).cols h hh⟩
  obtain ⟨hbr, hbc⟩ := blockDiag_map_size (ρ := fun i => T.mat i h) hok
  rw [hr.size] at hbr hbc
  have hinv := hr.inv
  have hcr : r.cob.rows = r.size := rfl
  have hcc : r.cob.cols = r.size := hr.cob_cols
  have hir : r.cobInv.rows = r.size := hr.inv.2.1.trans rfl
  have hic : r.cobInv.cols = r.size := hr.inv.2.2.1.trans rfl
  have hm := hr.mat h hh
  have hmr : (r.mat h).rows = r.size := hm.1
  have hmc : (r.mat h).cols = r.size := hm.2.1.trans hic
  have hE : mul r.cobInv (r.mat h) ≈ mul (blockDiag (r.irreps.map fun i => T.mat i h)) r.cobInv := by
    refine (mul_congr_right _ hm (by rw [hic, hmr])).trans ?_
    refine (mul_assoc' _ _ _).symm.trans ?_
    refine mul_congr_left _ ?_ (by show (mul r.cob _).cols = _; rw [hir]; exact hbc)
    refine (mul_assoc' _ _ _).symm.trans ?_
    refine (mul_congr_left _ hinv.2.2.2.2 (by show r.cob.cols = _; rw [hcc, hbr])).trans ?_
    exact eye_mul' _ hbr
  have hoff := chanOffset_lt (sz := T.size) hk ho
  rw [hr.size] at hoff
  have := hE.2.2 (chanOffset T.size r.irreps k + o) y (by show _ < r.cobInv.rows; rw [hir]; exact hoff) hy
  change ∑ z ∈ Finset.range r.cobInv.cols, _ = ∑ z ∈ Finset.range (blockDiag _).cols, _ at this
  rw [hic, hbc, ← hr.size, blockDiag_row hok hk ho fun z => r.cobInv.get z y] at this
  rw [hmr, ← hr.size]
  exact this

theorem coeffs_spec (K : KGroup H J') (n m : J') (inv : NpMat ℝ) : ∀ (L : List (J' × List ℕ)) (d : ℕ), d < (L.map (count K n m)).sum →
    ∃ e ∈ L, ∃ d' < count K n m e, coeffs K n m inv L d =
      coeff (K.T.size e.1) (K.cg n m e.1) ((K.endo e.1).getD (d' / e.2.length / (K.cg n m e.1).mult) (zeros 0 0)) inv
        (e.2.getD (d' % e.2.length) 0) (d' / e.2.length % (K.cg n m e.1).mult)
  | [], d, h => by simp at h
  | e :: L, d, h => by
    rw [coeffs]
    by_cases hd : d < count K n m e
    · rw [if_pos hd]
      exact ⟨e, by simp, d, hd, rfl⟩
    · rw [if_neg hd]
      rw [List.map_cons, List.sum_cons] at h
      obtain ⟨e', he', d', hd', hc⟩ := coeffs_spec K n m inv L (d - count K n m e) (by omega)
      exact ⟨e', by simp [he'], d', hd', hc⟩

theorem idPos_length (size : J' → ℕ) (j : J') : ∀ (L : List J') (p : ℕ), (idPos size j p L).length = L.count j
  | [], _ => rfl
  | i :: L, p => by
    rw [idPos, List.count_cons]
    by_cases h : i = j
    · rw [if_pos h, List.length_cons, idPos_length size j L, if_pos (by simpa using h)]
    · rw [if_neg h, idPos_length size j L, if_neg (by simpa using h), add_zero]

/-- The number of solutions for one filter of type `j`. -/
theorem count_sum (K : KGroup H J') (n m : J') (r : Rep H J') (L : List (J' × ℕ)) :
    ((restriction K.T.size (L.map Prod.fst) r).map (count K n m)).sum =
      (L.map fun p => (K.endo p.1).length * (K.cg n m p.1).mult * r.irreps.count p.1).sum := by
  rw [restriction]
  induction L with
  | nil => rfl
  | cons a L ih =>
    rw [List.map_cons, List.map_cons, List.filter_cons, List.map_cons, List.sum_cons]
    by_cases h : 0 < (idPos K.T.size a.1 0 r.irreps).length
    · rw [if_pos (by simpa using h), List.map_cons, List.sum_cons, ih, count, idPos_length]
    · rw [if_neg (by simpa using h), ih, ← idPos_length K.T.size a.1 r.irreps 0, Nat.eq_zero_of_not_pos h, mul_zero, zero_add]

/-- The result of the constructor. -/
theorem init_spec {El : H → Prop} {op : H → H → H} {one : H} (K : KGroup H J') (F : FBasis J P A) (Gsize : J → ℕ) (res : J → Rep H J') (m n : J')
    (hT : K.T.Valid El op one) (hE : EndoValid K.T K.typ El) (hm : K.T.ok m = true)
    (hok : ∀ p ∈ K.tensor m n, K.T.ok p.1 = true)
    (hcg : ∀ p ∈ K.tensor m n, ∀ g, El g → Intertwines (K.T.mat n g) (K.T.mat m g) (K.T.mat p.1 g) (K.cg n m p.1))
    (hF : (F.js.map Prod.fst).Nodup) (hres : ∀ e ∈ F.js, (res e.1).WF K.T El ∧ (res e.1).size = Gsize e.1) :
    (init K F Gsize res m n = .error .emptyBasis ∧ (F.js.map fun e => e.2 * ((K.tensor m n).map fun p => (res e.1).irreps.count p.1 * (K.cg n m p.1).mult * (K.typ p.1).sumsq).sum).sum = 0) ∨
    ∃ b, init K F Gsize res m n = .ok b ∧
      b.dim = (F.js.map fun e => e.2 * ((K.tensor m n).map fun p => (res e.1).irreps.count p.1 * (K.cg n m p.1).mult * (K.typ p.1).sumsq).sum).sum ∧ b.rows = K.T.size n ∧ b.cols = K.T.size m ∧ (∀ j ∈ b.js, j ∈ F.js.map Prod.fst) ∧
      b.Good El Gsize (fun j h => (res j).mat h) (K.T.mat m) (K.T.mat n) F := by
  set R := fun j => if F.mult j = 0 then [] else restriction K.T.size ((K.tensor m n).map Prod.fst) (res j) with hR
  set js := (F.js.map Prod.fst).dedup.filter fun j => 0 < (R j).length with hjs
  set cnt := fun j => ((R j).map (count K n m)).sum with hcnt
  have htot : (js.map fun j => cnt j * F.mult j).sum = (F.js.map fun e => e.2 * ((K.tensor m n).map fun p => (res e.1).irreps.count p.1 * (K.cg n m p.1).mult * (K.typ p.1).sumsq).sum).sum := by
    have e1 : (js.map fun j => cnt j * F.mult j).sum = ((F.js.map Prod.fst).map fun j => cnt j * F.mult j).sum := by
      rw [hjs, hF.dedup]
      generalize F.js.map Prod.fst = L
      induction L with
      | nil => rfl
      | cons a L ih =>
        rw [List.filter_cons, List.map_cons, List.sum_cons]
        by_cases h : 0 < (R a).length
        · rw [if_pos (by simpa using h), List.map_cons, List.sum_cons, ih]
        · have : R a = [] := List.eq_nil_of_length_eq_zero (Nat.eq_zero_of_not_pos h)
          rw [if_neg (by simpa using h), ih, hcnt]
          simp [this]
    rw [e1, List.map_map]
    refine congrArg _ (List.map_congr_left fun e he => ?_)
    have hme : F.mult e.1 = e.2 := FBasis.mult_of_mem hF he
    simp only [Function.comp, hcnt, hR]
    rw [hme]
    by_cases h : e.2 = 0
    · rw [h, zero_mul, mul_zero]
    · rw [if_neg h, count_sum, mul_comm]
      refine congrArg _ (congrArg _ (List.map_congr_left fun p hp => ?_))
      rw [KGroup.endo, (C18_endo_orthogonal (K.typ p.1) (K.T.size p.1) (hE p.1 (hok p hp)).1).1]
      ring
  by_cases h0 : (js.map fun j => cnt j * F.mult j).sum = 0
  · exact Or.inl ⟨by rw [init, if_pos h0], htot.symm.trans h0⟩
  right
  have hjs' : js = (F.js.map Prod.fst).filter fun j => 0 < (R j).length := by rw [hjs, hF.dedup]
  have hsel : IBasis.selectJs js [] F.js = js := by
    rw [IBasis.selectJs_eq _ _ _ hF (by simp), List.nil_append, hjs']
    refine List.filter_congr fun j hj => ?_
    rw [Bool.eq_iff_iff, decide_eq_true_eq, List.mem_filter]
    exact ⟨fun h => h.2, fun h => ⟨hj, h⟩⟩
  have hjF : ∀ j ∈ js, j ∈ F.js.map Prod.fst ∧ 0 < F.mult j ∧ R j = restriction K.T.size ((K.tensor m n).map Prod.fst) (res j) := by
    intro j hj
    rw [hjs', List.mem_filter, decide_eq_true_eq] at hj
    have hne : F.mult j ≠ 0 := by
      intro h
      have hRj : R j = [] := by rw [hR]; exact if_pos h
      rw [hRj] at hj
      exact absurd hj.2 (lt_irrefl 0)
    exact ⟨hj.1, Nat.pos_of_ne_zero hne, by rw [hR]; exact if_neg hne⟩
  refine ⟨_, by rw [init, if_neg h0], htot, rfl, rfl, fun j hj => ?_, ?_, fun j hj => ?_, ?_, Nat.pos_of_ne_zero h0, fun j hj => ?_, fun j hj e he => ?_⟩
  · change j ∈ IBasis.selectJs js [] F.js at hj
    rw [hsel] at hj
    exact (hjF j hj).1
  · show (IBasis.selectJs js [] F.js).Nodup
    rw [hsel, hjs']; exact hF.filter _
  · change j ∈ IBasis.selectJs js [] F.js at hj
    rw [hsel] at hj
    exact (hjF j hj).2.1
  · show (js.map fun j => cnt j * F.mult j).sum = ((IBasis.selectJs js [] F.js).map fun j => if j ∈ js then F.mult j * cnt j else 0).sum
    rw [hsel]
    refine congrArg _ (List.map_congr_left fun j hj => ?_)
    rw [if_pos hj, mul_comm]
  · change j ∉ IBasis.selectJs js [] F.js at hj
    rw [hsel] at hj
    exact if_neg hj
  · change j ∈ IBasis.selectJs js [] F.js at hj
    rw [hsel] at hj
    change e < (if j ∈ js then F.mult j * cnt j else 0) at he
    rw [if_pos hj] at he
    obtain ⟨hjF1, hmpos, hRj⟩ := hjF j hj
    obtain ⟨e0, he0, rfl⟩ := List.mem_map.1 hjF1
    obtain ⟨hwf, hsz⟩ := hres e0 he0
    refine ⟨coeffs K n m (res e0.1).cobInv (R e0.1) (e / F.mult e0.1), e % F.mult e0.1, Nat.mod_lt _ hmpos, fun Y p q => rfl, fun g hg => ?_⟩
    obtain ⟨f, hf, d', hd', hco⟩ := coeffs_spec K n m (res e0.1).cobInv (R e0.1) (e / F.mult e0.1) (Nat.div_lt_of_lt_mul he)
    rw [hco]
    rw [hRj, restriction, List.mem_filter] at hf
    obtain ⟨p, hp, rfl⟩ := List.mem_map.1 hf.1
    obtain ⟨q, hq, rfl⟩ := List.mem_map.1 hp
    have hlen : 0 < (idPos K.T.size q.1 0 (res e0.1).irreps).length := by simpa using hf.2
    have hokq := hok q hq
    obtain ⟨hlenE, hshape, -⟩ := C18_endo_orthogonal (K.typ q.1) (K.T.size q.1) (hE q.1 hokq).1
    simp only [count] at hd'
    set t := (idPos K.T.size q.1 0 (res e0.1).irreps).length with ht
    set s := (K.cg n m q.1).mult with hs
    have hspos : 0 < s := by
      rcases Nat.eq_zero_or_pos s with h | h
      · rw [h, mul_zero, zero_mul] at hd'; exact absurd hd' (Nat.not_lt_zero _)
      · exact h
    have hk : d' / t / s < (K.endo q.1).length := by
      rw [Nat.div_div_eq_div_mul]
      refine Nat.div_lt_of_lt_mul ?_
      calc d' < (K.endo q.1).length * s * t := hd'
        _ = t * s * (K.endo q.1).length := by ring
    have hEmem : (K.endo q.1).getD (d' / t / s) (zeros 0 0) ∈ K.endo q.1 := by
      rw [List.getD_eq_getElem _ _ hk]; exact List.getElem_mem hk
    have htmem : (idPos K.T.size q.1 0 (res e0.1).irreps).getD (d' % t) 0 ∈ idPos K.T.size q.1 0 (res e0.1).irreps := by
      rw [List.getD_eq_getElem _ _ (Nat.mod_lt _ hlen)]; exact List.getElem_mem _
    obtain ⟨k, hk', hpos⟩ := idPos_mem _ _ _ _ _ htmem
    rw [zero_add] at hpos
    rw [hpos]
    have hmm := hwf.mat g hg
    have hic : (res e0.1).cobInv.cols = (res e0.1).size := hwf.inv.2.2.1.trans rfl
    exact coeff_steer (hcg q hq g hg) ((hT m hm).ortho g hg) ((hT q.1 hokq).rows g hg) ((hT q.1 hokq).ortho g hg) (hshape _ hEmem).1 (hshape _ hEmem).2
      ((hE q.1 hokq).2 _ hEmem g hg) (Nat.mod_lt _ hspos) (hmm.1.trans (hmm.2.1.trans hic).symm) (rows_intertwine hT hwf hk' hg)

/-- **C36** Let the subgroup `K` be as in C35, and let `res j` be well-formed restrictions of the irreps `j` of the filters (C13).  For every
filter basis steerable under the subgroup through the restricted irreps, `RestrictedWignerEckartBasis` raises `EmptyBasisException` or all
its elements are steerable kernels of the subgroup. -/
theorem C36_restricted {El : H → Prop} {op : H → H → H} {one : H} (K : KGroup H J') (F : FBasis J P A) (Gsize : J → ℕ) (res : J → Rep H J')
    (act : H → P → P) (m n : J') (hT : K.T.Valid El op one) (hE : EndoValid K.T K.typ El) (hm : K.T.ok m = true) (hn : K.T.ok n = true)
    (hok : ∀ p ∈ K.tensor m n, K.T.ok p.1 = true)
    (hcg : ∀ p ∈ K.tensor m n, ∀ g, El g → Intertwines (K.T.mat n g) (K.T.mat m g) (K.T.mat p.1 g) (K.cg n m p.1))
    (hF : (F.js.map Prod.fst).Nodup) (hres : ∀ e ∈ F.js, (res e.1).WF K.T El ∧ (res e.1).size = Gsize e.1)
    (hst : F.Steerable Gsize (fun j h => (res j).mat h) El act) :
    (init K F Gsize res m n = .error .emptyBasis ∧ (F.js.map fun e => e.2 * ((K.tensor m n).map fun p => (res e.1).irreps.count p.1 * (K.cg n m p.1).mult * (K.typ p.1).sumsq).sum).sum = 0) ∨
    ∃ b, init K F Gsize res m n = .ok b ∧
      b.dim = (F.js.map fun e => e.2 * ((K.tensor m n).map fun p => (res e.1).irreps.count p.1 * (K.cg n m p.1).mult * (K.typ p.1).sumsq).sum).sum ∧
      ∀ e < b.dim, SteerableKernel El act (K.T.mat m) (K.T.mat n) fun x => b.sample Gsize F x e := by
  rcases init_spec K F Gsize res m n hT hE hm hok hcg hF hres with h | ⟨b, hb, hdim, hr, hc, hbF, hgood⟩
  · exact Or.inl h
  · refine Or.inr ⟨b, hb, hdim, fun e he => hgood.sample hF hst (fun j hj g hg => ?_) (fun g hg => ?_) (fun g hg => ?_) he⟩
    · obtain ⟨e0, he0, rfl⟩ := List.mem_map.1 (hbF j hj)
      obtain ⟨hwf, hsz⟩ := hres e0 he0
      exact ⟨(hwf.rows hg).trans hsz, (hwf.cols hg).trans hsz⟩
    · rw [hc]; exact ⟨(hT m hm).rows g hg, (hT m hm).cols g hg⟩
    · rw [hr]; exact ⟨(hT n hn).rows g hg, (hT n hn).cols g hg⟩

/-- Filters steerable under a group are steerable under a subgroup, through the restricted irreps. -/
theorem Steerable.restrict {G : Type} {F : FBasis J P A} {size : J → ℕ} {mat : J → G → NpMat ℝ} {ElG : G → Prop} {act : G → P → P}
    (hst : F.Steerable size mat ElG act) {El : H → Prop} {parent : H → Except Err G} {actH : H → P → P} {matH : J → H → NpMat ℝ}
    (hpar : ∀ h, El h → ∃ g, parent h = .ok g ∧ ElG g ∧ actH h = act g)
    (hmat : ∀ e ∈ F.js, ∀ h g, El h → parent h = .ok g → matH e.1 h ≈ mat e.1 g ∧ (matH e.1 h).rows = size e.1 ∧ (matH e.1 h).cols = size e.1) :
    F.Steerable size matH El actH := by
  intro h hh x k j m hk i hi c hc
  obtain ⟨g, hg, hgE, ha⟩ := hpar h hh
  obtain ⟨h1, h2, h3⟩ := hmat _ (List.mem_of_getElem? hk) h g hh hg
  show F.sample (actH h x) _ = _
  rw [ha]
  refine (hst g hgE x k j m hk i hi c hc).trans (Finset.sum_congr rfl fun c' hc' => ?_)
  rw [h1.2.2 c c' (by rw [h2]; exact hc) (by rw [h3]; exact Finset.mem_range.1 hc')]

/-- **C36** from the larger group: filters steerable under the group of the irreps `TG`, restrictions `res` of its irreps as produced by
`restrict` (C13), and a subgroup embedded by `parent`.  The kernels are steerable for every element of the subgroup, acting on points as its
image in the larger group. -/
theorem C36_from_group {G : Type} {TG : IrrepTable G J} {ElG : G → Prop} {act : G → P → P}
    {El : H → Prop} {op : H → H → H} {one : H} (K : KGroup H J') (F : FBasis J P A) (res : J → Rep H J')
    (parent : H → Except Err G) (actH : H → P → P) (m n : J') (hT : K.T.Valid El op one) (hE : EndoValid K.T K.typ El) (hm : K.T.ok m = true)
    (hn : K.T.ok n = true) (hok : ∀ p ∈ K.tensor m n, K.T.ok p.1 = true)
    (hcg : ∀ p ∈ K.tensor m n, ∀ g, El g → Intertwines (K.T.mat n g) (K.T.mat m g) (K.T.mat p.1 g) (K.cg n m p.1))
    (hF : (F.js.map Prod.fst).Nodup) (hst : F.Steerable TG.size TG.mat ElG act)
    (hpar : ∀ h, El h → ∃ g, parent h = .ok g ∧ ElG g ∧ actH h = act g)
    (hres : ∀ e ∈ F.js, (res e.1).WF K.T El ∧ (res e.1).size = TG.size e.1 ∧ ∀ h g, El h → parent h = .ok g → (res e.1).mat h ≈ TG.mat e.1 g) :
    (init K F TG.size res m n = .error .emptyBasis ∧ (F.js.map fun e => e.2 * ((K.tensor m n).map fun p => (res e.1).irreps.count p.1 * (K.cg n m p.1).mult * (K.typ p.1).sumsq).sum).sum = 0) ∨
    ∃ b, init K F TG.size res m n = .ok b ∧
      b.dim = (F.js.map fun e => e.2 * ((K.tensor m n).map fun p => (res e.1).irreps.count p.1 * (K.cg n m p.1).mult * (K.typ p.1).sumsq).sum).sum ∧
      ∀ e < b.dim, SteerableKernel El actH (K.T.mat m) (K.T.mat n) fun x => b.sample TG.size F x e :=
  C36_restricted K F TG.size res actH m n hT hE hm hn hok hcg hF (fun e he => ⟨(hres e he).1, (hres e he).2.1⟩)
    (Steerable.restrict hst hpar fun e he h g hh hg =>
      ⟨(hres e he).2.2 h g hh hg, ((hres e he).1.rows hh).trans (hres e he).2.1, ((hres e he).1.cols hh).trans (hres e he).2.1⟩)

end RWE

theorem irrepRep_wf {T : IrrepTable H J'} {El : H → Prop} {op : H → H → H} {one : H} (hT : T.Valid El op one) {j : J'} (hj : T.ok j = true)
    (hpos : 0 < T.size j) (name : String) (nl : Finset String) : (irrepRep T name nl j).WF T El := by
  refine ⟨hpos, IsInv.eye _, fun i hi => by rw [List.mem_singleton.1 hi]; exact hj, by simp [irrepRep, Rep.size, eye], fun g hg => ?_⟩
  have hr := (hT j hj).rows g hg
  have hc := (hT j hj).cols g hg
  have e1 : blockDiag ([j].map fun i => T.mat i g) ≈ T.mat j g := blockDiag_single _
  show T.mat j g ≈ mul (mul (eye (T.size j)) (blockDiag ([j].map fun i => T.mat i g))) (eye (T.size j))
  exact ((mul_congr_left _ ((mul_congr_right _ e1 (by show T.size j = _; rw [e1.1, hr])).trans (eye_mul' _ hr)) (by show (blockDiag _).cols = _; rw [e1.2.1, hc]; rfl)).trans
    (mul_eye' _ hc)).symm

namespace RWE

/-- **C36** for `SO(2) → C_N`, with the restrictions computed by `restrict_representation`: only the steerability of the filters under
SO(2) is assumed. -/
theorem C36_so2_cyclic (N : ℕ) (hN : 0 < N) (F : FBasis ℕ P A) (act : ℝ → P → P) (m n : ℕ) (hm : m ≤ N / 2) (hn : n ≤ N / 2)
    (hF : (F.js.map Prod.fst).Nodup) (hst : F.Steerable SO2.irrepSize SO2.irrepMat SO2.IsElement act)
    (taken : List String) (gname : String) (name : ℕ → String) (nl : ℕ → Finset String) (hname : ∀ j, gname ++ ":" ++ name j ∉ taken) :
    ∃ res : ℕ → Rep ℤ ℕ,
      (∀ j, restrictRep SO2.table (Cyclic.table N) taken gname 0 (fun k => SO2.restrictIrrep k N) (irrepRep SO2.table (name j) (nl j) j) = .ok (res j)) ∧
      (init (Cyclic.kgroup N) F SO2.irrepSize res m n = .error .emptyBasis ∨
      ∃ b, init (Cyclic.kgroup N) F SO2.irrepSize res m n = .ok b ∧
        ∀ e < b.dim, SteerableKernel (fun g => Cyclic.isElement N g = true) (fun h => act (SO2.parentMap N h)) (Cyclic.irrepMat N m) (Cyclic.irrepMat N n) fun x =>
          b.sample SO2.irrepSize F x e) := by
  have hwf : ∀ j, (irrepRep SO2.table (name j) (nl j) j).WF SO2.table SO2.IsElement := fun j =>
    irrepRep_wf SO2.table_valid rfl (by show 0 < SO2.irrepSize j; unfold SO2.irrepSize; split_ifs <;> norm_num) _ _
  choose res h1 h2 h3 h4 h5 using fun j => C13_so2 N hN taken gname (irrepRep SO2.table (name j) (nl j) j) (hwf j) (hname j)
  refine ⟨res, h1, ?_⟩
  rcases C36_from_group (TG := SO2.table) (Cyclic.kgroup N) F res (fun h => .ok (SO2.parentMap N h)) (fun h => act (SO2.parentMap N h)) m n (Cyclic.table_valid N hN)
    (Cyclic.C18_cyclic N hN).1 (decide_eq_true hm) (decide_eq_true hn) (fun p hp => (Cyclic.kgroup_cg N hN m n hm hn p hp).1)
    (fun p hp => (Cyclic.kgroup_cg N hN m n hm hn p hp).2.2) hF hst (fun h hh => ⟨_, rfl, SO2.parentMap_isElement N h, rfl⟩)
    (fun e _ => ⟨h2 e.1, h3 e.1, fun h g hh hg => h5 e.1 h g hh (Except.ok.inj hg)⟩) with h | ⟨b, hb, -, h⟩
  · exact Or.inl h.1
  · exact Or.inr ⟨b, hb, h⟩

/-- The filters of `WE.demoF` under `C_4`: four kernels between two copies of the irrep 1. -/
theorem demo_init : ∃ b, init (Cyclic.kgroup 4) WE.demoF SO2.irrepSize (irrepRep (Cyclic.table 4) "" ∅) 1 1 = .ok b ∧ b.dim = 4 ∧
    ∀ e < 4, SteerableKernel (fun g => Cyclic.isElement 4 g = true) (fun h x => Cyclic.radians 4 h + x) (Cyclic.irrepMat 4 1) (Cyclic.irrepMat 4 1) fun x =>
      b.sample SO2.irrepSize WE.demoF x e := by
  have h4 : (0 : ℕ) < 4 := by norm_num
  have hpar : ∀ h, Cyclic.isElement 4 h = true → ∃ g, (Except.ok (Cyclic.radians 4 h) : Except Err ℝ) = .ok g ∧ SO2.IsElement g ∧
      (fun x => Cyclic.radians 4 h + x) = (fun x => g + x) := by
    intro h hh
    refine ⟨_, rfl, ?_, rfl⟩
    have h0 : (0 : ℝ) ≤ h ∧ (h : ℝ) < 4 := by
      simp only [Cyclic.isElement, Bool.and_eq_true, decide_eq_true_eq] at hh
      exact ⟨by exact_mod_cast hh.1, by exact_mod_cast hh.2⟩
    have := Real.pi_pos
    constructor
    · unfold Cyclic.radians
      have := h0.1
      positivity
    · unfold Cyclic.radians
      rw [div_lt_iff₀ (by norm_num)]
      push_cast
      nlinarith
  have hres : ∀ e ∈ WE.demoF.js, (irrepRep (Cyclic.table 4) "" ∅ e.1).WF (Cyclic.table 4) (fun g => Cyclic.isElement 4 g = true) ∧
      (irrepRep (Cyclic.table 4) "" ∅ e.1).size = SO2.table.size e.1 ∧
      ∀ h g, Cyclic.isElement 4 h = true → (Except.ok (Cyclic.radians 4 h) : Except Err ℝ) = .ok g → (irrepRep (Cyclic.table 4) "" ∅ e.1).mat h ≈ SO2.table.mat e.1 g := by
    intro e he
    have : e.1 = 0 ∨ e.1 = 1 := by
      simp only [WE.demoF, List.mem_cons, List.not_mem_nil, or_false] at he
      rcases he with rfl | rfl <;> simp
    refine ⟨irrepRep_wf (Cyclic.table_valid 4 h4) ?_ ?_ _ _, ?_, fun h g hh hg => ?_⟩
    · rcases this with h | h <;> rw [h] <;> rfl
    · rcases this with h | h <;> rw [h] <;> decide
    · rcases this with h | h <;> rw [h] <;> rfl
    · obtain rfl := Except.ok.inj hg
      rcases this with h | h <;> rw [h] <;> exact Eqv.refl _
  rcases C36_from_group (TG := SO2.table) (Cyclic.kgroup 4) WE.demoF (irrepRep (Cyclic.table 4) "" ∅) (fun h => .ok (Cyclic.radians 4 h)) (fun h x => Cyclic.radians 4 h + x) 1 1
    (Cyclic.table_valid 4 h4) (Cyclic.C18_cyclic 4 h4).1 (by decide) (by decide) (fun p hp => (Cyclic.kgroup_cg 4 h4 1 1 (by norm_num) (by norm_num) p hp).1)
    (fun p hp => (Cyclic.kgroup_cg 4 h4 1 1 (by norm_num) (by norm_num) p hp).2.2) (by decide) WE.demo_steerable hpar hres with h | ⟨b, hb, hd, h⟩
  · exact absurd h.2 (by decide)
  · have : b.dim = 4 := hd.trans (by decide)
    exact ⟨b, hb, this, fun e he => h e (this ▸ he)⟩

example : ∃ b, init (Cyclic.kgroup 4) WE.demoF SO2.irrepSize (irrepRep (Cyclic.table 4) "" ∅) 1 1 = .ok b ∧ b.dim = 4 :=
  let ⟨b, h1, h2, _⟩ := demo_init
  ⟨b, h1, h2⟩

end RWE

end Escnn
