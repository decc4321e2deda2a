import Verif.Lemmas.TensorRep
import Verif.Props.C15_ClebschGordan
import Verif.Props.C46_BatchNorm
import Verif.Lemmas.Kron
import Verif.Lemmas.MatKinds
import Mathlib.Logic.Equiv.Fin.Basic

/-!
# C67: `Representation.tensor` is the tensor product of the representations
-/

namespace Escnn

namespace TensorRep

open NpMat Real

variable {G Id : Type} {T : IrrepTable G Id} {El : G → Prop} {op : G → G → G} {one : G} {tens : Id → Id → List (Id × ℕ)} {cg : Id → Id → Id → CGArray}

theorem chanOffset_replicate {R : Type} (sz : R → ℕ) (r : R) (n k : ℕ) (h : k ≤ n) : chanOffset sz (List.replicate n r) k = k * sz r := by
  rw [chanOffset, List.take_replicate, Nat.min_eq_left h]
  simp

theorem kron_cgMat {A B : NpMat ℝ} {C : NpMat ℝ} {d1 d2 dj : ℕ} (hA : A.rows = d1 ∧ A.cols = d1) (hB : B.rows = d2 ∧ B.cols = d2) (hC : C.rows = dj ∧ C.cols = dj) {cg : CGArray} (h : Intertwines A B C cg)
    {α : Type} (j : α) (ρ : α → NpMat ℝ) (hρ : ρ j = C) :
    mul (kron A B) (cgMat (d1 * d2) d2 dj cg.mult cg) ≈ mul (cgMat (d1 * d2) d2 dj cg.mult cg) (blockDiag ((List.replicate cg.mult j).map ρ)) := by
  have hρ' : ∀ r ∈ List.replicate cg.mult j, (ρ r).rows = dj ∧ (ρ r).cols = dj := fun r hr => by rw [List.eq_of_mem_replicate hr, hρ]; exact hC
  obtain ⟨hbr, hbc⟩ := blockDiag_map_size (sz := fun _ => dj) hρ'
  have hsum : ((List.replicate cg.mult j).map fun _ => dj).sum = dj * cg.mult := by simp [mul_comm]
  refine ⟨by simp [kron, cgMat, hA.1, hB.1], by rw [mul_cols, mul_cols, hbc, hsum]; rfl, fun r c hr hc => ?_⟩
  have hr : r < d1 * d2 := by simpa [kron, hA.1, hB.1] using hr
  have hc : c < dj * cg.mult := hc
  have hd2 : 0 < d2 := Nat.pos_of_ne_zero fun h => by simp [h] at hr
  have hdj : 0 < dj := Nat.pos_of_ne_zero fun h => by simp [h] at hc
  have hs : c / dj < cg.mult := Nat.div_lt_of_lt_mul hc
  have e := h (r / d2) (r % d2) (c / dj) (c % dj) (by rw [hA.1]; exact Nat.div_lt_of_lt_mul (by rwa [Nat.mul_comm])) (by rw [hB.1]; exact Nat.mod_lt _ hd2) hs (by rw [hC.1]; exact Nat.mod_lt _ hdj)
  simp only [mul, cgMat, kron]
  rw [hA.2, hB.2, hB.1, sum_range_mul' d1 d2 (fun a b => A.get (r / d2) a * B.get (r % d2) b * cg.get a b (c / dj) (c % dj))]
  rw [hA.2, hB.2] at e
  rw [e, hC.1, Nat.mul_comm dj, sum_range_blocks]
  symm
  rw [Finset.sum_eq_single (c / dj)]
  · refine Finset.sum_congr rfl fun t ht => ?_
    rw [Finset.mem_range] at ht
    have hg := blockDiag_map_get (sz := fun _ => dj) hρ' (k := c / dj) (l := c / dj) (a := t) (b := c % dj) (r := j) (r' := j) (by simp [hs]) (by simp [hs]) ht (Nat.mod_lt _ hdj)
    rw [if_pos rfl, chanOffset_replicate _ _ _ _ hs.le, hρ, Nat.div_add_mod' c dj] at hg
    rw [hg, Nat.mul_comm (c / dj), Nat.mul_add_div hdj, Nat.div_eq_of_lt ht, Nat.mul_add_mod, Nat.mod_eq_of_lt ht, add_zero]
  · intro s hs' hne
    refine Finset.sum_eq_zero fun t ht => ?_
    rw [Finset.mem_range] at hs' ht
    have hg := blockDiag_map_get (sz := fun _ => dj) hρ' (k := s) (l := c / dj) (a := t) (b := c % dj) (r := j) (r' := j) (by simp [hs']) (by simp [hs]) ht (Nat.mod_lt _ hdj)
    rw [if_neg hne, chanOffset_replicate _ _ _ _ hs.le, chanOffset_replicate _ _ _ _ hs'.le, Nat.div_add_mod' c dj] at hg
    rw [hg, mul_zero]
  · intro hn
    exact absurd (Finset.mem_range.2 hs) hn

variable [DecidableEq Id]

/-- The block of the change of basis of a pair of irreps. -/
noncomputable def pairMat (T : IrrepTable G Id) (tens : Id → Id → List (Id × ℕ)) (cg : Id → Id → Id → CGArray) (m n : Id) : NpMat ℝ :=
  hcats (fun e => cgMat (T.size m * T.size n) (T.size n) (T.size e.1) e.2 (cg m n e.1)) ⟨T.size m * T.size n, 0, fun _ _ => 0⟩ (tens m n)

/-- The irreps of a pair. -/
def pairIrreps (tens : Id → Id → List (Id × ℕ)) (m n : Id) : List Id := (tens m n).flatMap fun e => List.replicate e.2 e.1

theorem pairMat_shape {m n : Id} (h : CGLaw El T.ok T.size T.mat tens cg m n) : (pairMat T tens cg m n).rows = T.size m * T.size n ∧ (pairMat T tens cg m n).cols = T.size m * T.size n := by
  refine ⟨hcats_rows _ _ _, ?_⟩
  rw [pairMat, hcats_cols]
  simp only [cgMat, zero_add]
  exact h.dim

theorem pairIrreps_ok {m n : Id} (h : CGLaw El T.ok T.size T.mat tens cg m n) : ∀ i ∈ pairIrreps tens m n, T.ok i = true := by
  intro i hi
  obtain ⟨e, he, hi⟩ := List.mem_flatMap.1 hi
  rw [List.eq_of_mem_replicate hi]
  exact h.ok e he

theorem pairIrreps_size {m n : Id} (h : CGLaw El T.ok T.size T.mat tens cg m n) : ((pairIrreps tens m n).map T.size).sum = T.size m * T.size n := by
  rw [← h.dim, pairIrreps]
  generalize tens m n = L
  induction L with
  | nil => rfl
  | cons e L ih => simp [ih, mul_comm]

theorem pairMat_intertwines (hT : T.Valid El op one) {m n : Id} (hm : T.ok m = true) (hn : T.ok n = true) (h : CGLaw El T.ok T.size T.mat tens cg m n) {g : G} (hg : El g) :
    mul (kron (T.mat m g) (T.mat n g)) (pairMat T tens cg m n) ≈ mul (pairMat T tens cg m n) (blockDiag ((pairIrreps tens m n).map fun i => T.mat i g)) := by
  have sh : ∀ {i}, T.ok i = true → (T.mat i g).rows = T.size i ∧ (T.mat i g).cols = T.size i := fun hi => ⟨(hT _ hi).rows g hg, (hT _ hi).cols g hg⟩
  have hV : ∀ e ∈ tens m n, (blockDiag ((List.replicate e.2 e.1).map fun i => T.mat i g)).rows = T.size e.1 * e.2 := fun e he => by
    rw [(blockDiag_map_size (sz := T.size) fun r hr => by rw [List.eq_of_mem_replicate hr]; exact sh (h.ok e he)).1]
    simp [mul_comm]
  have key := hcats_intertwine (kron (T.mat m g) (T.mat n g)) (fun e : Id × ℕ => cgMat (T.size m * T.size n) (T.size n) (T.size e.1) e.2 (cg m n e.1))
    (fun e => blockDiag ((List.replicate e.2 e.1).map fun i => T.mat i g)) (tens m n) ⟨T.size m * T.size n, 0, fun _ _ => 0⟩ (zeros 0 0)
    ⟨by simp [kron, (sh hm).1, (sh hn).1], rfl, fun _ j _ hj => absurd hj (Nat.not_lt_zero j)⟩ rfl (fun e he => by
      have := kron_cgMat (sh hm) (sh hn) (sh (h.ok e he)) (h.intertwines e he g hg) e.1 (fun i => T.mat i g) rfl
      rwa [h.mult e he] at this) fun e he => ⟨(hV e he).symm, rfl⟩
  refine key.trans (mul_congr_right _ ?_ ?_)
  · exact (diag2_empty_left _).trans (blockDiag_flatMap _ _ _).symm
  · rw [hcats_cols, diag2_rows, blockDiag_rows, List.map_map]
    simp only [zero_add, zeros_rows]
    exact congrArg _ (List.map_congr_left fun e he => (hV e he).symm)

theorem pairMat_ortho {m n : Id} (h : CGLaw El T.ok T.size T.mat tens cg m n) : IsOrtho (pairMat T tens cg m n) := by
  obtain ⟨hr, hc⟩ := pairMat_shape h
  have key : mul (transpose (pairMat T tens cg m n)) (pairMat T tens cg m n) ≈ eye (T.size m * T.size n) := by
    refine ⟨hc, hc, fun x y hx hy => ?_⟩
    have hx : x < T.size m * T.size n := hc ▸ hx
    have hy : y < T.size m * T.size n := hc ▸ hy
    rw [← h.dim] at hx hy
    obtain ⟨k, e, o, h1, h2, rfl⟩ := exists_field hx
    obtain ⟨k', e', o', h1', h2', rfl⟩ := exists_field hy
    have he := List.mem_of_getElem? h1
    have he' := List.mem_of_getElem? h1'
    obtain ⟨-, hget⟩ := hcats_get (fun e : Id × ℕ => cgMat (T.size m * T.size n) (T.size n) (T.size e.1) e.2 (cg m n e.1)) (tens m n) ⟨T.size m * T.size n, 0, fun _ _ => 0⟩
    have g1 : ∀ i, (pairMat T tens cg m n).get i (chanOffset (fun e => T.size e.1 * e.2) (tens m n) k + o) = (cg m n e.1).get (i / T.size n) (i % T.size n) (o / T.size e.1) (o % T.size e.1) := by
      intro i
      have := hget k e h1 i o h2
      rwa [zero_add] at this
    have g2 : ∀ i, (pairMat T tens cg m n).get i (chanOffset (fun e => T.size e.1 * e.2) (tens m n) k' + o') = (cg m n e'.1).get (i / T.size n) (i % T.size n) (o' / T.size e'.1) (o' % T.size e'.1) := by
      intro i
      have := hget k' e' h1' i o' h2'
      rwa [zero_add] at this
    have p1 : 0 < T.size e.1 := Nat.pos_of_ne_zero fun h => by simp [h] at h2
    have p2 : 0 < T.size e'.1 := Nat.pos_of_ne_zero fun h => by simp [h] at h2'
    have := h.ortho e he e' he' (o / T.size e.1) (o % T.size e.1) (o' / T.size e'.1) (o' % T.size e'.1) (Nat.div_lt_of_lt_mul h2) (Nat.mod_lt _ p1) (Nat.div_lt_of_lt_mul h2') (Nat.mod_lt _ p2)
    simp only [mul, transpose, eye]
    rw [hr, Finset.sum_congr rfl fun i _ => by rw [g1 i, g2 i]]
    rw [sum_range_mul' (T.size m) (T.size n) (fun a b => (cg m n e.1).get a b (o / T.size e.1) (o % T.size e.1) * (cg m n e'.1).get a b (o' / T.size e'.1) (o' % T.size e'.1))]
    refine this.trans (if_congr ⟨fun hh => ?_, fun hh => ?_⟩ rfl rfl)
    · obtain ⟨q1, q2⟩ := Prod.mk.inj hh
      obtain ⟨q2, q3⟩ := Prod.mk.inj q2
      have hk : k = k' := by
        have a1 : ((tens m n).map Prod.fst)[k]? = some e.1 := by rw [List.getElem?_map, h1]; rfl
        have a2 : ((tens m n).map Prod.fst)[k']? = some e.1 := by rw [List.getElem?_map, h1', q1]; rfl
        exact (List.getElem?_inj (by obtain ⟨hh, -⟩ := List.getElem?_eq_some_iff.1 a1; exact hh) h.nodup).1 (a1.trans a2.symm)
      subst hk
      rw [← q1] at q2 q3
      rw [← Nat.div_add_mod o (T.size e.1), q2, q3, Nat.div_add_mod]
    · obtain ⟨rfl, rfl⟩ := chanOffset_inj h1 h1' h2 h2' hh
      rw [h1] at h1'
      obtain rfl := Option.some.inj h1'
      rfl
  refine ⟨hr.trans hc.symm, ?_, ?_⟩
  · rw [hr]; exact mul_eye_comm (A := transpose (pairMat T tens cg m n)) hc hr hr hc key
  · rw [hr]; exact key

/-! ### the loops -/

theorem inner_spec {i1 i2 : Id} (h : CGLaw El T.ok T.size T.mat tens cg i1 i2) (n2 D : ℕ) (A : NpMat ℝ) (hA : A.rows = A.cols) (ir : List Id) (P : NpMat ℝ) (q : ℕ) :
    inner T tens cg n2 i1 ⟨frame D A, ir, P, q, A.rows⟩ i2 =
      .ok ⟨frame D (diag2 A (pairMat T tens cg i1 i2)), ir ++ pairIrreps tens i1 i2, permBlocks (T.size i1) n2 (T.size i2) q P, q + T.size i2, A.rows + T.size i1 * T.size i2⟩ := by
  unfold inner
  simp only
  rw [if_neg (by rw [not_not, List.all_eq_true]; exact h.ok), if_neg (by rw [not_not]; exact h.dim)]
  have := cols_spec T.size (cg i1 i2) (T.size i1 * T.size i2) (T.size i2) D A (tens i1 i2) ⟨T.size i1 * T.size i2, 0, fun _ _ => 0⟩ rfl hA h.mult
  rw [frame_empty, zero_add] at this
  rw [h.dim] at this ⊢
  refine bind_eq this ?_
  simp only
  rw [if_neg (by simp)]
  rfl

theorem innerLoop_spec {i1 : Id} (n2 D : ℕ) : ∀ (L : List Id) (A : NpMat ℝ) (ir : List Id) (P : NpMat ℝ) (q : ℕ), A.rows = A.cols → (∀ i2 ∈ L, CGLaw El T.ok T.size T.mat tens cg i1 i2) →
    innerLoop T tens cg n2 i1 ⟨frame D A, ir, P, q, A.rows⟩ L =
      .ok ⟨frame D (diag2 A (blockDiag (L.map (pairMat T tens cg i1)))), ir ++ L.flatMap (pairIrreps tens i1), permLoop (T.size i1) n2 q P (L.map T.size), q + (L.map T.size).sum, A.rows + T.size i1 * (L.map T.size).sum⟩
  | [], A, ir, P, q, _, _ => by
    rw [innerLoop]
    simp only [List.map_nil, List.flatMap_nil, List.append_nil, List.sum_nil, mul_zero, add_zero]
    rw [show blockDiag ([] : List (NpMat ℝ)) = zeros 0 0 from rfl, frame_congr D (diag2_empty_right A)]
    try rfl
  | i2 :: L, A, ir, P, q, hA, h => by
    rw [innerLoop]
    obtain ⟨hr, hc⟩ := pairMat_shape (h i2 (by simp))
    refine bind_eq (inner_spec (h i2 (by simp)) n2 D A hA ir P q) ?_
    have e : A.rows + T.size i1 * T.size i2 = (diag2 A (pairMat T tens cg i1 i2)).rows := by rw [diag2_rows, hr]
    rw [e, innerLoop_spec n2 D L _ _ _ _ (by rw [diag2_rows, diag2_cols, hA, hr, hc]) fun j hj => h j (by simp [hj])]
    rw [frame_congr D (diag2_assoc A _ _), ← e]
    simp only [List.map_cons, List.flatMap_cons, List.sum_cons, List.append_assoc, mul_add, add_assoc]
    rfl

/-- The block of the change of basis of an irrep of the first factor. -/
noncomputable def rowMat (T : IrrepTable G Id) (tens : Id → Id → List (Id × ℕ)) (cg : Id → Id → Id → CGArray) (L2 : List Id) (i1 : Id) : NpMat ℝ :=
  mul (permOf (T.size i1) T.size L2) (blockDiag (L2.map (pairMat T tens cg i1)))

theorem pairs_shape {i1 : Id} {L2 : List Id} (h : ∀ i2 ∈ L2, CGLaw El T.ok T.size T.mat tens cg i1 i2) : (blockDiag (L2.map (pairMat T tens cg i1))).rows = T.size i1 * (L2.map T.size).sum ∧
    (blockDiag (L2.map (pairMat T tens cg i1))).cols = T.size i1 * (L2.map T.size).sum := by
  obtain ⟨h1, h2⟩ := blockDiag_map_size (sz := fun i2 => T.size i1 * T.size i2) fun i2 hi => pairMat_shape (h i2 hi)
  rw [sum_mul_left] at h1 h2
  exact ⟨h1, h2⟩

theorem rowMat_shape {i1 : Id} {L2 : List Id} (h : ∀ i2 ∈ L2, CGLaw El T.ok T.size T.mat tens cg i1 i2) : (rowMat T tens cg L2 i1).rows = T.size i1 * (L2.map T.size).sum ∧
    (rowMat T tens cg L2 i1).cols = T.size i1 * (L2.map T.size).sum := ⟨(permOf_shape _ _ _).1, (pairs_shape h).2⟩

theorem outer_spec {i1 : Id} {r2 : Rep G Id} (hs : (r2.irreps.map T.size).sum = r2.size) (D : ℕ) (A : NpMat ℝ) (ir : List Id) (P : NpMat ℝ) (q : ℕ) (hA : A.rows = A.cols)
    (h : ∀ i2 ∈ r2.irreps, CGLaw El T.ok T.size T.mat tens cg i1 i2) :
    outer T tens cg r2 ⟨frame D A, ir, P, q, A.rows⟩ i1 =
      .ok ⟨frame D (diag2 A (rowMat T tens cg r2.irreps i1)), ir ++ r2.irreps.flatMap (pairIrreps tens i1), permOf (T.size i1) T.size r2.irreps, r2.size, A.rows + T.size i1 * r2.size⟩ := by
  unfold outer
  have hl := innerLoop_spec (i1 := i1) r2.size D r2.irreps A ir (zeros (T.size i1 * r2.size) (T.size i1 * r2.size)) 0 hA h
  refine bind_eq hl ?_
  obtain ⟨b1, b2⟩ := pairs_shape h
  rw [hs] at b1 b2
  have hp : permLoop (T.size i1) r2.size 0 (zeros (T.size i1 * r2.size) (T.size i1 * r2.size)) (r2.irreps.map T.size) = permOf (T.size i1) T.size r2.irreps := by rw [permOf, hs]
  simp only [hs, hp, zero_add]
  rw [if_neg (by rw [not_not, hp]; exact permOf_ortho _ _ _), Nat.add_sub_cancel]
  have hsl : slice (frame D (diag2 A (blockDiag (r2.irreps.map (pairMat T tens cg i1))))) A.rows (A.rows + T.size i1 * r2.size) ≈ blockDiag (r2.irreps.map (pairMat T tens cg i1)) := by
    have := slice_last D A (blockDiag (r2.irreps.map (pairMat T tens cg i1))) hA (b1.trans b2.symm)
    rwa [b1] at this
  obtain ⟨p1, p2⟩ := permOf_shape (T.size i1) T.size r2.irreps
  rw [hs] at p1 p2
  have hset := setBlock_last D A (blockDiag (r2.irreps.map (pairMat T tens cg i1))) (mul (permOf (T.size i1) T.size r2.irreps)
    (slice (frame D (diag2 A (blockDiag (r2.irreps.map (pairMat T tens cg i1))))) A.rows (A.rows + T.size i1 * r2.size))) (by rw [mul_rows, p1, b1]) (by rw [mul_cols, hsl.2.1])
  rw [← hA] at hset
  rw [hset, frame_congr D (diag2_congr (Eqv.refl A) (mul_congr_right _ hsl (by rw [p2, hsl.1, b1])))]
  rfl

theorem outerLoop_spec {r2 : Rep G Id} (hs : (r2.irreps.map T.size).sum = r2.size) (D : ℕ) : ∀ (L : List Id) (A : NpMat ℝ) (ir : List Id) (P : NpMat ℝ) (q : ℕ), A.rows = A.cols →
    (∀ i1 ∈ L, ∀ i2 ∈ r2.irreps, CGLaw El T.ok T.size T.mat tens cg i1 i2) →
    ∃ P' q', outerLoop T tens cg r2 ⟨frame D A, ir, P, q, A.rows⟩ L =
      .ok ⟨frame D (diag2 A (blockDiag (L.map (rowMat T tens cg r2.irreps)))), ir ++ L.flatMap fun i1 => r2.irreps.flatMap (pairIrreps tens i1), P', q', A.rows + (L.map T.size).sum * r2.size⟩
  | [], A, ir, P, q, _, _ => by
    refine ⟨P, q, ?_⟩
    rw [outerLoop]
    simp only [List.map_nil, List.flatMap_nil, List.append_nil, List.sum_nil, zero_mul, add_zero]
    rw [show blockDiag ([] : List (NpMat ℝ)) = zeros 0 0 from rfl, frame_congr D (diag2_empty_right A)]
    try rfl
  | i1 :: L, A, ir, P, q, hA, h => by
    obtain ⟨hr, hc⟩ := rowMat_shape (h i1 (by simp))
    rw [hs] at hr hc
    have e : A.rows + T.size i1 * r2.size = (diag2 A (rowMat T tens cg r2.irreps i1)).rows := by rw [diag2_rows, hr]
    obtain ⟨P', q', hl⟩ := outerLoop_spec hs D L (diag2 A (rowMat T tens cg r2.irreps i1)) (ir ++ r2.irreps.flatMap (pairIrreps tens i1)) (permOf (T.size i1) T.size r2.irreps) r2.size
      (by rw [diag2_rows, diag2_cols, hA, hr, hc]) fun j hj => h j (by simp [hj])
    refine ⟨P', q', ?_⟩
    rw [outerLoop]
    refine bind_eq (outer_spec hs D A ir P q hA (h i1 (by simp))) ?_
    rw [e, hl, frame_congr D (diag2_assoc A _ _), ← e]
    simp only [List.map_cons, List.flatMap_cons, List.sum_cons, List.append_assoc, add_mul, add_assoc]
    rfl

/-! ### the change of basis intertwines -/

theorem _root_.Escnn.NpMat.IsInv.kron {A A' B B' : NpMat ℝ} (h : IsInv A A') (h' : IsInv B B') : IsInv (kron A B) (NpMat.kron A' B') := by
  obtain ⟨h1, h2, h3, h4, h5⟩ := h
  obtain ⟨k1, k2, k3, k4, k5⟩ := h'
  refine ⟨by simp [h1, k1], by simp [h2, k2], by simp [h3, k3], ?_, ?_⟩
  · exact (kron_mul _ _ _ _ (by rw [h2, h1]) (by rw [k2, k1])).trans ((kron_congr h4 k4).trans (kron_eye_eye _ _))
  · exact (kron_mul _ _ _ _ h3 k3).trans ((kron_congr h5 k5).trans (kron_eye_eye _ _))

theorem kron_diag2 (A C B : NpMat ℝ) : kron (diag2 A C) B ≈ diag2 (kron A B) (kron C B) := by
  refine ⟨by simp [add_mul], by simp [add_mul], fun i j hi hj => ?_⟩
  simp only [kron_rows, kron_cols, diag2_rows, diag2_cols] at hi hj
  have hb : 0 < B.rows := Nat.pos_of_ne_zero fun h => by simp [h] at hi
  have hc : 0 < B.cols := Nat.pos_of_ne_zero fun h => by simp [h] at hj
  have e1 : i / B.rows < A.rows ↔ i < A.rows * B.rows := Nat.div_lt_iff_lt_mul hb
  have e2 : j / B.cols < A.cols ↔ j < A.cols * B.cols := Nat.div_lt_iff_lt_mul hc
  have d1 : ∀ x k : ℕ, k * B.rows ≤ x → x / B.rows - k = (x - k * B.rows) / B.rows ∧ x % B.rows = (x - k * B.rows) % B.rows := fun x k h => by
    obtain ⟨y, rfl⟩ := Nat.exists_eq_add_of_le h
    rw [Nat.add_sub_cancel_left, Nat.mul_comm k, Nat.mul_add_div hb, Nat.mul_add_mod, Nat.add_sub_cancel_left]
    exact ⟨rfl, rfl⟩
  have d2 : ∀ x k : ℕ, k * B.cols ≤ x → x / B.cols - k = (x - k * B.cols) / B.cols ∧ x % B.cols = (x - k * B.cols) % B.cols := fun x k h => by
    obtain ⟨y, rfl⟩ := Nat.exists_eq_add_of_le h
    rw [Nat.add_sub_cancel_left, Nat.mul_comm k, Nat.mul_add_div hc, Nat.mul_add_mod, Nat.add_sub_cancel_left]
    exact ⟨rfl, rfl⟩
  show (if i / B.rows < A.rows then (if j / B.cols < A.cols then A.get (i / B.rows) (j / B.cols) else 0) else
      (if j / B.cols < A.cols then 0 else C.get (i / B.rows - A.rows) (j / B.cols - A.cols))) * B.get (i % B.rows) (j % B.cols) =
    (if i < A.rows * B.rows then (if j < A.cols * B.cols then A.get (i / B.rows) (j / B.cols) * B.get (i % B.rows) (j % B.cols) else 0) else
      (if j < A.cols * B.cols then 0 else C.get ((i - A.rows * B.rows) / B.rows) ((j - A.cols * B.cols) / B.cols) * B.get ((i - A.rows * B.rows) % B.rows) ((j - A.cols * B.cols) % B.cols)))
  simp only [e1, e2]
  split_ifs with q1 q2 q2
  · rfl
  · ring
  · ring
  · rw [(d1 i A.rows (by omega)).1, (d2 j A.cols (by omega)).1, (d1 i A.rows (by omega)).2, (d2 j A.cols (by omega)).2]

theorem kron_blockDiag {α : Type} (L : List α) (f : α → NpMat ℝ) (B : NpMat ℝ) : kron (blockDiag (L.map f)) B ≈ blockDiag (L.map fun a => kron (f a) B) := by
  induction L with
  | nil => exact ⟨by simp [kron, blockDiag], by simp [kron, blockDiag], fun i j hi => by simp [kron, blockDiag] at hi⟩
  | cons a L ih => exact (kron_diag2 _ _ _).trans (diag2_congr (Eqv.refl _) ih)

theorem rowMat_intertwines (hT : T.Valid El op one) {i1 : Id} {L2 : List Id} (h1 : T.ok i1 = true) (h2 : ∀ i ∈ L2, T.ok i = true) (h : ∀ i2 ∈ L2, CGLaw El T.ok T.size T.mat tens cg i1 i2) {g : G} (hg : El g) :
    mul (kron (T.mat i1 g) (blockDiag (L2.map fun i => T.mat i g))) (rowMat T tens cg L2 i1) ≈ mul (rowMat T tens cg L2 i1) (blockDiag ((L2.flatMap (pairIrreps tens i1)).map fun i => T.mat i g)) := by
  have sh : ∀ {i}, T.ok i = true → (T.mat i g).rows = T.size i ∧ (T.mat i g).cols = T.size i := fun hi => ⟨(hT _ hi).rows g hg, (hT _ hi).cols g hg⟩
  obtain ⟨p1, p2⟩ := permOf_shape (T.size i1) T.size L2
  obtain ⟨b1, b2⟩ := pairs_shape h
  have hbd := blockDiag_map_size (sz := T.size) (ρ := fun i => T.mat i g) fun i hi => sh (h2 i hi)
  have k1 := permOf_kron (sz := T.size) (ρ := fun i => T.mat i g) (fun i hi => sh (h2 i hi)) (T.mat i1 g) (sh h1).1 (sh h1).2
  have hk := blockDiag_map_size (rs := L2) (sz := fun i => T.size i1 * T.size i) (ρ := fun i => kron (T.mat i1 g) (T.mat i g)) fun i hi => ⟨by rw [kron_rows, (sh h1).1, (sh (h2 i hi)).1], by rw [kron_cols, (sh h1).2, (sh (h2 i hi)).2]⟩
  rw [sum_mul_left] at hk
  have hp : ∀ i2 ∈ L2, (blockDiag ((pairIrreps tens i1 i2).map fun i => T.mat i g)).rows = T.size i1 * T.size i2 := fun i2 hi => by
    rw [irrepsBlock_rows hT (pairIrreps_ok (h i2 hi)) hg, pairIrreps_size (h i2 hi)]
  have k2 : mul (blockDiag (L2.map fun i => kron (T.mat i1 g) (T.mat i g))) (blockDiag (L2.map (pairMat T tens cg i1))) ≈
      mul (blockDiag (L2.map (pairMat T tens cg i1))) (blockDiag ((L2.flatMap (pairIrreps tens i1)).map fun i => T.mat i g)) := by
    refine (blockDiag_mul _ _ _ fun i hi => by rw [kron_cols, (sh h1).2, (sh (h2 i hi)).2, (pairMat_shape (h i hi)).1]).trans ?_
    refine (blockDiag_map_congr fun i hi => pairMat_intertwines hT h1 (h2 i hi) (h i hi) hg).trans ?_
    refine (blockDiag_mul _ _ _ fun i hi => by rw [(pairMat_shape (h i hi)).2, hp i hi]).symm.trans ?_
    refine mul_congr_right _ (blockDiag_flatMap _ _ _).symm ?_
    rw [b2, blockDiag_rows, List.map_map, ← sum_mul_left]
    exact congrArg _ (List.map_congr_left fun i hi => (hp i hi).symm)
  refine (mul_assoc' _ _ _).symm.trans ?_
  refine (mul_congr_left _ k1 (by rw [mul_cols, p2, b1])).trans ?_
  refine (mul_assoc' _ _ _).trans ?_
  refine (mul_congr_right _ k2 (by rw [p2, mul_rows, hk.1])).trans ?_
  exact (mul_assoc' _ _ _).symm

theorem rowMat_inv {i1 : Id} {L2 : List Id} (h : ∀ i2 ∈ L2, CGLaw El T.ok T.size T.mat tens cg i1 i2) :
    IsInv (rowMat T tens cg L2 i1) (mul (blockDiag (L2.map fun i => transpose (pairMat T tens cg i1 i))) (transpose (permOf (T.size i1) T.size L2))) := by
  refine IsInv.mul (IsInv.of_ortho (permOf_ortho _ _ _)) (IsInv.blockDiag (forall₂_map fun i hi => IsInv.of_ortho (pairMat_ortho (h i hi)))) ?_
  rw [(permOf_shape _ _ _).2, (pairs_shape h).1]

theorem conjBy_of_intertwines {R C Ci Φ : NpMat ℝ} (hC : IsInv C Ci) (hr : R.cols = C.rows) (h : mul R C ≈ mul C Φ) : mul (mul C Φ) Ci ≈ R := by
  refine (mul_congr_left _ h.symm (h.2.1.symm.trans (by rw [mul_cols, hC.2.1, hC.1]))).trans ?_
  refine (mul_assoc' _ _ _).trans ?_
  refine (mul_congr_right _ hC.2.2.2.1 (by rw [mul_rows, hr])).trans ?_
  exact mul_eye' R hr

theorem irreps_size {r1 r2 : Rep G Id} (h1 : (r1.irreps.map T.size).sum = r1.size) (h2 : (r2.irreps.map T.size).sum = r2.size) (h : ∀ m ∈ r1.irreps, ∀ n ∈ r2.irreps, CGLaw El T.ok T.size T.mat tens cg m n) :
    ((r1.irreps.flatMap fun m => r2.irreps.flatMap (pairIrreps tens m)).map T.size).sum = r1.size * r2.size := by
  have e2 : ∀ (m : Id) (L : List Id), (∀ n ∈ L, CGLaw El T.ok T.size T.mat tens cg m n) → ((L.flatMap (pairIrreps tens m)).map T.size).sum = T.size m * (L.map T.size).sum := by
    intro m L hL
    induction L with
    | nil => rfl
    | cons n L ih =>
      simp only [List.flatMap_cons, List.map_append, List.sum_append, List.map_cons, List.sum_cons, mul_add]
      rw [pairIrreps_size (hL n (by simp)), ih fun n' hn' => hL n' (by simp [hn'])]
  have e1 : ∀ L : List Id, (∀ m ∈ L, ∀ n ∈ r2.irreps, CGLaw El T.ok T.size T.mat tens cg m n) → ((L.flatMap fun m => r2.irreps.flatMap (pairIrreps tens m)).map T.size).sum = (L.map T.size).sum * r2.size := by
    intro L hL
    induction L with
    | nil => simp
    | cons m L ih =>
      simp only [List.flatMap_cons, List.map_append, List.sum_append, List.map_cons, List.sum_cons, add_mul]
      rw [e2 m _ (hL m (by simp)), ih fun n' hn' => hL n' (by simp [hn']), h2]
  rw [e1 _ h, h1]

/-- The whole change of basis and its inverse intertwine with the direct sum of the listed irreps. -/
theorem cob_spec (hT : T.Valid El op one) {r1 r2 : Rep G Id} (h1 : r1.WF T El) (h2 : r2.WF T El) (h : ∀ m ∈ r1.irreps, ∀ n ∈ r2.irreps, CGLaw El T.ok T.size T.mat tens cg m n) {W : NpMat ℝ}
    (hW : W ≈ blockDiag (r1.irreps.map (rowMat T tens cg r2.irreps))) :
    (∃ Ci, IsInv (mul (kron r1.cob r2.cob) W) Ci) ∧ (mul (kron r1.cob r2.cob) W).rows = r1.size * r2.size ∧ ∀ g, El g →
      mul (kron (r1.mat g) (r2.mat g)) (mul (kron r1.cob r2.cob) W) ≈
        mul (mul (kron r1.cob r2.cob) W) (blockDiag ((r1.irreps.flatMap fun m => r2.irreps.flatMap (pairIrreps tens m)).map fun i => T.mat i g)) := by
  set B := blockDiag (r1.irreps.map (rowMat T tens cg r2.irreps)) with hB
  have hrow : ∀ m ∈ r1.irreps, (rowMat T tens cg r2.irreps m).rows = T.size m * r2.size ∧ (rowMat T tens cg r2.irreps m).cols = T.size m * r2.size := fun m hm => by
    have := rowMat_shape (h m hm); rwa [h2.size] at this
  have hBs : B.rows = r1.size * r2.size ∧ B.cols = r1.size * r2.size := by
    have := blockDiag_map_size (sz := fun m => T.size m * r2.size) hrow
    have e : (r1.irreps.map fun m => T.size m * r2.size).sum = r1.size * r2.size := by
      rw [← h1.size]
      generalize r1.irreps = L
      induction L with
      | nil => simp
      | cons a L ih => simp [ih, add_mul]
    rwa [e] at this
  have hBi : IsInv B _ := IsInv.blockDiag (forall₂_map fun m hm => rowMat_inv (h m hm))
  have hK := IsInv.kron h1.inv h2.inv
  have hkc : (kron r1.cob r2.cob).cols = r1.size * r2.size := by rw [kron_cols, h1.cob_cols, h2.cob_cols]
  refine ⟨⟨_, (hK.mul hBi (by rw [hkc, hBs.1])).congr (mul_congr_right _ hW.symm (by rw [hkc, hBs.1])) (Eqv.refl _)⟩, rfl, fun g hg => ?_⟩
  set b1 := blockDiag (r1.irreps.map fun i => T.mat i g) with hb1
  set b2 := blockDiag (r2.irreps.map fun i => T.mat i g) with hb2
  set Φ := blockDiag ((r1.irreps.flatMap fun m => r2.irreps.flatMap (pairIrreps tens m)).map fun i => T.mat i g) with hΦ
  have s1 : b1.rows = r1.size ∧ b1.cols = r1.size := ⟨(irrepsBlock_rows hT h1.ok hg).trans h1.size, (irrepsBlock_cols hT h1.ok hg).trans h1.size⟩
  have s2 : b2.rows = r2.size ∧ b2.cols = r2.size := ⟨(irrepsBlock_rows hT h2.ok hg).trans h2.size, (irrepsBlock_cols hT h2.ok hg).trans h2.size⟩
  have sh : ∀ {i}, T.ok i = true → (T.mat i g).rows = T.size i ∧ (T.mat i g).cols = T.size i := fun hi => ⟨(hT _ hi).rows g hg, (hT _ hi).cols g hg⟩
  have hpok : ∀ m ∈ r1.irreps, ∀ i ∈ r2.irreps.flatMap (pairIrreps tens m), T.ok i = true := fun m hm i hi => by
    obtain ⟨n, hn, hi⟩ := List.mem_flatMap.1 hi
    exact pairIrreps_ok (h m hm n hn) i hi
  have hps : ∀ m ∈ r1.irreps, ((r2.irreps.flatMap (pairIrreps tens m)).map T.size).sum = T.size m * r2.size := fun m hm => by
    have := rowMat_shape (h m hm)
    have hh : ∀ L : List Id, (∀ n ∈ L, CGLaw El T.ok T.size T.mat tens cg m n) → ((L.flatMap (pairIrreps tens m)).map T.size).sum = T.size m * (L.map T.size).sum := by
      intro L hL
      induction L with
      | nil => rfl
      | cons n L ih =>
        simp only [List.flatMap_cons, List.map_append, List.sum_append, List.map_cons, List.sum_cons, mul_add]
        rw [pairIrreps_size (hL n (by simp)), ih fun n' hn' => hL n' (by simp [hn'])]
    rw [hh _ (h m hm), h2.size]
  have kB : mul (kron b1 b2) B ≈ mul B Φ := by
    refine (mul_congr_left _ (kron_blockDiag _ _ _) (by rw [kron_cols, s1.2, s2.2, hBs.1])).trans ?_
    refine (blockDiag_mul _ _ _ fun m hm => by rw [kron_cols, (sh (h1.ok m hm)).2, s2.2, (hrow m hm).1]).trans ?_
    refine (blockDiag_map_congr fun m hm => rowMat_intertwines hT (h1.ok m hm) h2.ok (h m hm) hg).trans ?_
    refine (blockDiag_mul _ _ _ fun m hm => by rw [(hrow m hm).2, irrepsBlock_rows hT (hpok m hm) hg, hps m hm]).symm.trans ?_
    refine mul_congr_right _ (blockDiag_flatMap _ _ _).symm ?_
    rw [hBs.2, blockDiag_rows, List.map_map, ← irreps_size h1.size h2.size h]
    have e : ∀ L : List Id, ((L.flatMap fun m => r2.irreps.flatMap (pairIrreps tens m)).map T.size).sum = (L.map fun m => ((r2.irreps.flatMap (pairIrreps tens m)).map T.size).sum).sum := by
      intro L
      induction L with
      | nil => rfl
      | cons a L ih => simp only [List.flatMap_cons, List.map_append, List.sum_append, ih, List.map_cons, List.sum_cons]
    rw [e]
    exact congrArg _ (List.map_congr_left fun m hm => ((irrepsBlock_rows hT (hpok m hm) hg)).symm)
  have c1 : mul (r1.mat g) r1.cob ≈ mul r1.cob b1 := by
    refine (mul_congr_left _ (h1.mat g hg) (by rw [h1.cols hg]; rfl)).trans ?_
    refine (mul_assoc' _ _ _).trans ?_
    refine (mul_congr_right _ h1.inv.2.2.2.2 (by rw [mul_cols, mul_rows, h1.inv_rows, s1.2])).trans ?_
    exact mul_eye' _ s1.2
  have c2 : mul (r2.mat g) r2.cob ≈ mul r2.cob b2 := by
    refine (mul_congr_left _ (h2.mat g hg) (by rw [h2.cols hg]; rfl)).trans ?_
    refine (mul_assoc' _ _ _).trans ?_
    refine (mul_congr_right _ h2.inv.2.2.2.2 (by rw [mul_cols, mul_rows, h2.inv_rows, s2.2])).trans ?_
    exact mul_eye' _ s2.2
  have kc : mul (kron (r1.mat g) (r2.mat g)) (kron r1.cob r2.cob) ≈ mul (kron r1.cob r2.cob) (kron b1 b2) :=
    (kron_mul _ _ _ _ (h1.cols hg) (h2.cols hg)).trans ((kron_congr c1 c2).trans (kron_mul _ _ _ _ (by rw [h1.cob_cols, s1.1]) (by rw [h2.cob_cols, s2.1])).symm)
  have hmc : (kron (r1.mat g) (r2.mat g)).cols = r1.size * r2.size := by rw [kron_cols, h1.cols hg, h2.cols hg]
  have hΦr : Φ.rows = r1.size * r2.size := by rw [← hBs.2]; exact (by
    rw [hΦ, irrepsBlock_rows hT (fun i hi => by obtain ⟨m, hm, hi⟩ := List.mem_flatMap.1 hi; exact hpok m hm i hi) hg, irreps_size h1.size h2.size h, hBs.2])
  have wB : mul (kron r1.cob r2.cob) W ≈ mul (kron r1.cob r2.cob) B := mul_congr_right _ hW (by rw [hkc, hW.1, hBs.1])
  refine (mul_congr_right _ wB (by rw [hmc]; rfl)).trans ?_
  refine (mul_assoc' _ _ _).symm.trans ?_
  refine (mul_congr_left _ kc (by rw [mul_cols, hkc, hBs.1])).trans ?_
  refine (mul_assoc' _ _ _).trans ?_
  refine (mul_congr_right _ kB (by rw [hkc, mul_rows, kron_rows, s1.1, s2.1])).trans ?_
  refine (mul_assoc' _ _ _).symm.trans ?_
  exact mul_congr_left _ wB.symm (by rw [mul_cols, hBs.2, hΦr])

/-- **C67** `Representation.tensor`: for every two well formed representations and Clebsch–Gordan coefficients of their irreps, the returned object is well formed, has the product of the sizes and is the Kronecker product of the matrices at every element. -/
theorem C67_tensor (hT : T.Valid El op one) (taken : List String) {r1 r2 : Rep G Id} (h1 : r1.WF T El) (h2 : r2.WF T El) (h : ∀ m ∈ r1.irreps, ∀ n ∈ r2.irreps, CGLaw El T.ok T.size T.mat tens cg m n)
    (hname : r1.name ++ " X " ++ r2.name ∉ taken) :
    ∃ r, tensor T tens cg taken r1 r2 = .ok r ∧ r.WF T El ∧ r.size = r1.size * r2.size ∧
      r.irreps = (r1.irreps.flatMap fun m => r2.irreps.flatMap fun n => (tens m n).flatMap fun e => List.replicate e.2 e.1) ∧ (∀ g, El g → r.mat g ≈ kron (r1.mat g) (r2.mat g)) ∧
      r.nonlin = if 1 < r.irreps.length then nonlin r1 r2 else ∅ := by
  obtain ⟨P, q, hl⟩ := outerLoop_spec (T := T) (tens := tens) (cg := cg) (El := El) h2.size (r1.size * r2.size) r1.irreps (zeros 0 0) [] (zeros 0 0) 0 rfl h
  set W := frame (r1.size * r2.size) (diag2 (zeros 0 0) (blockDiag (r1.irreps.map (rowMat T tens cg r2.irreps)))) with hWd
  have hsz := irreps_size h1.size h2.size h
  have hBs : (blockDiag (r1.irreps.map (rowMat T tens cg r2.irreps))).rows = r1.size * r2.size ∧ (blockDiag (r1.irreps.map (rowMat T tens cg r2.irreps))).cols = r1.size * r2.size := by
    have := blockDiag_map_size (sz := fun m => T.size m * r2.size) (rs := r1.irreps) (ρ := rowMat T tens cg r2.irreps) fun m hm => by
      have := rowMat_shape (h m hm); rwa [h2.size] at this
    have e : (r1.irreps.map fun m => T.size m * r2.size).sum = r1.size * r2.size := by
      rw [← h1.size]
      generalize r1.irreps = L
      induction L with
      | nil => simp
      | cons a L ih => simp [ih, add_mul]
    rwa [e] at this
  have hW : W ≈ blockDiag (r1.irreps.map (rowMat T tens cg r2.irreps)) := by
    rw [hWd, frame_congr _ (diag2_empty_left _)]
    exact frame_self hBs.1 hBs.2
  obtain ⟨⟨Ci, hCi⟩, hCr, hint⟩ := cob_spec hT h1 h2 h hW
  set C := mul (kron r1.cob r2.cob) W with hCd
  set irr := r1.irreps.flatMap fun m => r2.irreps.flatMap (pairIrreps tens m) with hirr
  have hok : ∀ i ∈ irr, T.ok i = true := fun i hi => by
    obtain ⟨m, hm, hi⟩ := List.mem_flatMap.1 hi
    obtain ⟨n, hn, hi⟩ := List.mem_flatMap.1 hi
    exact pairIrreps_ok (h m hm n hn) i hi
  have hpos : 0 < r1.size * r2.size := Nat.mul_pos h1.pos h2.pos
  have hten : tensor T tens cg taken r1 r2 = finish T taken (r1.name ++ " X " ++ r2.name) irr C (nonlin r1 r2) := by
    unfold tensor
    rw [← frame_zero]
    refine bind_eq hl ?_
    simp only [List.nil_append, zeros_rows, zero_add, h1.size]
    rw [if_neg (by rw [not_not]; exact hsz.symm), if_neg (by simp), if_neg (by rw [not_not]; exact hCr.symm), if_neg (by rw [not_not]; exact hCr.symm.trans hCi.1)]
  have hfin : ∀ r : Rep G Id, r.WF T El → r.irreps = irr → r.cob ≈ C → r.size = r1.size * r2.size ∧ r.irreps = irr ∧ ∀ g, El g → r.mat g ≈ kron (r1.mat g) (r2.mat g) := by
    intro r hr e1 e2
    refine ⟨e2.1.trans hCr, e1, fun g hg => (hr.mat g hg).trans ?_⟩
    rw [e1]
    have hci := (hr.inv.congr e2 (Eqv.refl _))
    refine (mul_congr_left _ (mul_congr_left _ e2 ?_) ?_).trans (conjBy_of_intertwines hci ?_ (hint g hg))
    · rw [hr.cob_cols, irrepsBlock_rows hT hok hg, hsz]; exact e2.1.trans hCr
    · rw [mul_cols, irrepsBlock_cols hT hok hg, hsz, hr.inv_rows]; exact (e2.1.trans hCr).symm
    · rw [kron_cols, h1.cols hg, h2.cols hg, hCr]
  rw [hten]
  unfold finish
  by_cases hlen : irr.length > 1
  · rw [if_pos hlen]
    obtain ⟨r, e, hwf, -, hir, hcob, -, hnl⟩ := C14_constructor hT taken (r1.name ++ " X " ++ r2.name) irr C Ci (nonlin r1 r2) hname (by rw [hCr]; exact hpos) hCi hok (by rw [hsz, hCr]) false
    obtain ⟨f1, f2, f3⟩ := hfin r hwf hir (hcob ▸ Eqv.refl _)
    exact ⟨r, e, hwf, f1, f2, f3, by rw [f2, if_pos hlen, hnl]⟩
  · rw [if_neg hlen]
    obtain ⟨i, hi⟩ : ∃ i, irr = [i] := by
      rcases hL : irr with _ | ⟨a, _ | ⟨b, L⟩⟩
      · rw [hL] at hsz; simp only [List.map_nil, List.sum_nil] at hsz; omega
      · exact ⟨a, rfl⟩
      · rw [hL] at hlen; simp at hlen
    have hoki : T.ok i = true := hok i (by rw [hi]; simp)
    have hsi : T.size i = r1.size * r2.size := by rw [← hsz, hi]; simp
    have hwfi : (ofIrrep T i).WF T El := by
      refine ⟨by show 0 < T.size i; rw [hsi]; exact hpos, IsInv.eye _, fun j hj => by rw [List.mem_singleton.1 hj]; exact hoki, by simp [ofIrrep, Rep.size], fun g hg => ?_⟩
      have hd : blockDiag ((ofIrrep T i).irreps.map fun j => T.mat j g) ≈ T.mat i g := diag2_empty_right _
      have hs := hT i hoki
      refine ((mul_congr_left _ (mul_congr_right _ hd ?_) ?_).trans ?_).symm
      · exact (hd.1.trans (hs.rows g hg)).symm
      · exact hd.2.1.trans (hs.cols g hg)
      · exact (mul_congr_left (eye (T.size i)) (eye_mul' _ (hs.rows g hg)) (hs.cols g hg)).trans (mul_eye' _ (hs.cols g hg))
    rw [hi]
    show ∃ r, changeBasis T taken (ofIrrep T i) C (r1.name ++ " X " ++ r2.name) none = .ok r ∧ _
    obtain ⟨r, e, hwf, hrs, hir, hnl, hmat⟩ := C14_change_basis hT taken (ofIrrep T i) hwfi _ hname C Ci hCi (hCr.trans hsi.symm) none
    refine ⟨r, e, hwf, hrs.trans hsi, hir.trans ?_, fun g hg => (hmat g hg).trans ?_, by rw [hir, hnl, if_neg (by simp [ofIrrep])]; rfl⟩
    · exact hi.symm
    · have hd : blockDiag (irr.map fun j => T.mat j g) ≈ T.mat i g := by rw [hi]; exact diag2_empty_right _
      have hs := hT i hoki
      refine (mul_congr_left _ (mul_congr_right C hd.symm ?_) ?_).trans (conjBy_of_intertwines hCi ?_ (hint g hg))
      · rw [← hCi.1, hCr, ← hsi]; exact (hs.rows g hg).symm
      · rw [mul_cols, hCi.2.1, hCr, ← hsi]; exact hs.cols g hg
      · rw [kron_cols, h1.cols hg, h2.cols hg, hCr]

/-! ### the declared nonlinearities -/

theorem _root_.Escnn.IsPermMat.congr {n : ℕ} {A B : NpMat ℝ} (h : IsPermMat n A) (e : A ≈ B) : IsPermMat n B := by
  obtain ⟨h1, h2, σ, h3⟩ := h
  exact ⟨e.1.symm.trans h1, e.2.1.symm.trans h2, σ, fun i j => (e.2.2 i j (by rw [h1]; exact i.2) (by rw [h2]; exact j.2)).symm.trans (h3 i j)⟩

theorem _root_.Escnn.IsPermMat.kron {m n : ℕ} {A B : NpMat ℝ} (hA : IsPermMat m A) (hB : IsPermMat n B) : IsPermMat (m * n) (kron A B) := by
  obtain ⟨a1, a2, σ, a3⟩ := hA
  obtain ⟨b1, b2, τ, b3⟩ := hB
  refine ⟨by rw [kron_rows, a1, b1], by rw [kron_cols, a2, b2], finProdFinEquiv.symm.trans ((Equiv.prodCongr σ τ).trans finProdFinEquiv), fun i j => ?_⟩
  have e : i = (finProdFinEquiv.symm.trans ((Equiv.prodCongr σ τ).trans finProdFinEquiv)) j ↔ i.divNat = σ j.divNat ∧ i.modNat = τ j.modNat := by
    rw [Equiv.trans_apply, Equiv.trans_apply, ← Equiv.symm_apply_eq, ← Prod.mk_inj]
    rfl
  have x := a3 i.divNat j.divNat
  have y := b3 i.modNat j.modNat
  rw [Fin.coe_divNat, Fin.coe_divNat] at x
  rw [Fin.coe_modNat, Fin.coe_modNat] at y
  show A.get (i / B.rows) (j / B.cols) * B.get (i % B.rows) (j % B.cols) = _
  rw [b1, b2, x, y, if_congr e rfl rfl]
  by_cases h1 : i.divNat = σ j.divNat <;> by_cases h2 : i.modNat = τ j.modNat <;> simp [h1, h2]

theorem _root_.Escnn.NpMat.IsOrtho.kron {A B : NpMat ℝ} (hA : IsOrtho A) (hB : IsOrtho B) : IsOrtho (kron A B) := by
  obtain ⟨a, b, c⟩ := hA
  obtain ⟨d, e, f⟩ := hB
  refine ⟨by simp [a, d], ?_, ?_⟩
  · exact (mul_congr (Eqv.refl _) (kron_transpose _ _) (by simp)).trans ((kron_mul _ _ _ _ (by simp) (by simp)).trans ((kron_congr b e).trans (kron_eye_eye _ _)))
  · exact (mul_congr (kron_transpose _ _) (Eqv.refl _) (by simp)).trans ((kron_mul _ _ _ _ (by simp) (by simp)).trans ((kron_congr c f).trans (kron_eye_eye _ _)))

theorem _root_.Escnn.NpMat.IsOrtho.of_eqv {A B : NpMat ℝ} (h : IsOrtho A) (e : A ≈ B) : IsOrtho B := by
  obtain ⟨a, b, c⟩ := h
  have t : transpose A ≈ transpose B := ⟨e.2.1, e.1, fun i j hi hj => e.2.2 j i hj hi⟩
  refine ⟨by rw [← e.1, ← e.2.1, a], ?_, ?_⟩
  · rw [← e.1]; exact (mul_congr e t rfl).symm.trans b
  · rw [← e.1]; exact (mul_congr t e rfl).symm.trans c

/-- **C67** the declared nonlinearities: if `pointwise` is declared by the factors only for permutation matrices and `gate` only for the trivial representation, the same holds for the tensor product; and its matrices are orthogonal, so that the declared `norm` and `gated` are justified, when those of both factors are. -/
theorem C67_flags_partial (hT : T.Valid El op one) (taken : List String) {r1 r2 : Rep G Id} (h1 : r1.WF T El) (h2 : r2.WF T El) (h : ∀ m ∈ r1.irreps, ∀ n ∈ r2.irreps, CGLaw El T.ok T.size T.mat tens cg m n)
    (hname : r1.name ++ " X " ++ r2.name ∉ taken) : ∃ r, tensor T tens cg taken r1 r2 = .ok r ∧ ∀ g, El g →
      (("pointwise" ∈ r1.nonlin → IsPermMat r1.size (r1.mat g)) → ("pointwise" ∈ r2.nonlin → IsPermMat r2.size (r2.mat g)) → "pointwise" ∈ r.nonlin → IsPermMat r.size (r.mat g)) ∧
      (("gate" ∈ r1.nonlin → r1.mat g ≈ eye 1) → ("gate" ∈ r2.nonlin → r2.mat g ≈ eye 1) → "gate" ∈ r.nonlin → r.mat g ≈ eye 1) ∧
      (IsOrtho (r1.mat g) → IsOrtho (r2.mat g) → IsOrtho (r.mat g)) := by
  obtain ⟨r, e, hwf, hs, -, hm, hn⟩ := C67_tensor hT taken h1 h2 h hname
  have hsub : ∀ x, x ∈ r.nonlin → x ∈ nonlin r1 r2 := fun x hx => by
    rw [hn] at hx
    split_ifs at hx with hh
    · exact hx
    · simp at hx
  refine ⟨r, e, fun g hg => ⟨fun p1 p2 hp => ?_, fun p1 p2 hp => ?_, fun o1 o2 => ?_⟩⟩
  · have := hsub _ hp
    simp only [nonlin, Finset.mem_union, Finset.mem_insert, Finset.mem_singleton] at this
    by_cases hh : "pointwise" ∈ r1.nonlin ∧ "pointwise" ∈ r2.nonlin
    · rw [hs]; exact ((p1 hh.1).kron (p2 hh.2)).congr (hm g hg).symm
    · rw [if_neg hh] at this
      split_ifs at this <;> simp at this
  · have := hsub _ hp
    simp only [nonlin, Finset.mem_union, Finset.mem_insert, Finset.mem_singleton] at this
    by_cases hh : "gate" ∈ r1.nonlin ∧ "gate" ∈ r2.nonlin
    · exact (hm g hg).trans ((kron_congr (p1 hh.1) (p2 hh.2)).trans (kron_eye_eye 1 1))
    · rw [if_neg hh] at this
      split_ifs at this <;> simp at this
  · exact (IsOrtho.kron o1 o2).of_eqv (hm g hg).symm

/-! ### the instances -/

theorem cyclic_law (N : ℕ) (hN : 0 < N) {m n : ℕ} (hm : m ≤ N / 2) (hn : n ≤ N / 2) :
    CGLaw (fun e => Cyclic.isElement N e = true) (Cyclic.table N).ok (Cyclic.table N).size (Cyclic.table N).mat (Cyclic.tensorIrreps N) (Cyclic.cg N) m n := by
  obtain ⟨h1, h2, -, h4, h5⟩ := Cyclic.C15_cyclic N m n hN hm hn
  refine ⟨?_, fun e he => by simpa [Cyclic.table] using (h2 e he).1, fun e he => (h2 e he).2.2, ?_, fun e he g _ => h1 e.1 (h2 e he).1 g, h5⟩
  · unfold Cyclic.tensorIrreps
    by_cases q1 : m = 0 ∨ n = 0
    · rw [if_pos q1]; simp
    by_cases q2 : N % 2 = 0 ∧ (m = N / 2 ∨ n = N / 2)
    · rw [if_neg q1, if_pos q2]; simp
    by_cases q3 : n = m
    · rw [if_neg q1, if_neg q2, if_pos q3]
      simp only [List.map_cons, List.map_nil, List.nodup_cons, List.mem_singleton, List.not_mem_nil, not_false_eq_true, List.nodup_nil, and_true]
      unfold Cyclic.foldSum
      split_ifs <;> omega
    · rw [if_neg q1, if_neg q2, if_neg q3]
      simp only [List.map_cons, List.map_nil, List.nodup_cons, List.mem_singleton, List.not_mem_nil, not_false_eq_true, List.nodup_nil, and_true]
      unfold Cyclic.foldSum natDist
      split_ifs <;> omega
  · exact (congrArg _ (List.map_congr_left fun e _ => Nat.mul_comm _ _)).trans h4

theorem so2_law (m n : ℕ) : CGLaw SO2.IsElement SO2.table.ok SO2.table.size SO2.table.mat SO2.tensorIrreps SO2.cg m n := by
  obtain ⟨h1, h2, -, h4, h5⟩ := SO2.C15_so2 m n
  refine ⟨?_, fun e he => rfl, fun e he => (h2 e he).2, ?_, fun e he g _ => h1 e.1 g, h5⟩
  · unfold SO2.tensorIrreps
    split_ifs with q1 q2 q3
    · simp
    · simp
    · simp only [List.map_cons, List.map_nil, List.nodup_cons, List.mem_singleton, List.not_mem_nil, not_false_eq_true, List.nodup_nil, and_true]
      omega
    · simp only [List.map_cons, List.map_nil, List.nodup_cons, List.mem_singleton, List.not_mem_nil, not_false_eq_true, List.nodup_nil, and_true]
      unfold natDist
      split_ifs <;> omega
  · exact (congrArg _ (List.map_congr_left fun e _ => Nat.mul_comm _ _)).trans h4

/-- **C67** for `C_N`: any two well formed representations, any number of copies of the irreps. -/
theorem C67_cyclic (N : ℕ) (hN : 0 < N) (taken : List String) {r1 r2 : Rep ℤ ℕ} (h1 : r1.WF (Cyclic.table N) fun e => Cyclic.isElement N e = true) (h2 : r2.WF (Cyclic.table N) fun e => Cyclic.isElement N e = true)
    (hname : r1.name ++ " X " ++ r2.name ∉ taken) : ∃ r, tensor (Cyclic.table N) (Cyclic.tensorIrreps N) (Cyclic.cg N) taken r1 r2 = .ok r ∧ (r.WF (Cyclic.table N) fun e => Cyclic.isElement N e = true) ∧
      r.size = r1.size * r2.size ∧ ∀ g, Cyclic.isElement N g = true → r.mat g ≈ kron (r1.mat g) (r2.mat g) := by
  obtain ⟨r, e, hwf, hs, -, hm, -⟩ := C67_tensor (Cyclic.table_valid N hN) taken h1 h2 (fun m hm n hn => cyclic_law N hN (by simpa [Cyclic.table] using h1.ok m hm) (by simpa [Cyclic.table] using h2.ok n hn)) hname
  exact ⟨r, e, hwf, hs, hm⟩

/-- **C67** for `SO(2)`. -/
theorem C67_so2 (taken : List String) {r1 r2 : Rep ℝ ℕ} (h1 : r1.WF SO2.table SO2.IsElement) (h2 : r2.WF SO2.table SO2.IsElement) (hname : r1.name ++ " X " ++ r2.name ∉ taken) :
    ∃ r, tensor SO2.table SO2.tensorIrreps SO2.cg taken r1 r2 = .ok r ∧ r.WF SO2.table SO2.IsElement ∧ r.size = r1.size * r2.size ∧ ∀ g, SO2.IsElement g → r.mat g ≈ kron (r1.mat g) (r2.mat g) := by
  obtain ⟨r, e, hwf, hs, -, hm, -⟩ := C67_tensor SO2.table_valid taken h1 h2 (fun m _ n _ => so2_law m n) hname
  exact ⟨r, e, hwf, hs, hm⟩

/-- **C67 violated** `tensor` declares `norm` although a factor which does not support it is not orthogonal: here `C_2` acts by `[[1, -2], [0, -1]]` and the other factor is trivial. -/
theorem C67_norm_violated : ∃ r1 r2 r : Rep ℤ ℕ, (r1.WF (Cyclic.table 2) fun e => Cyclic.isElement 2 e = true) ∧ (r2.WF (Cyclic.table 2) fun e => Cyclic.isElement 2 e = true) ∧ r1.nonlin = ∅ ∧
    tensor (Cyclic.table 2) (Cyclic.tensorIrreps 2) (Cyclic.cg 2) [] r1 r2 = .ok r ∧ "norm" ∈ r.nonlin ∧ ¬ IsOrtho (r.mat 1) := by
  have hinv : IsInv (of2 1 1 0 1) (of2 1 (-1) 0 1) := by
    refine ⟨rfl, rfl, rfl, ⟨rfl, rfl, fun i j hi hj => ?_⟩, ⟨rfl, rfl, fun i j hi hj => ?_⟩⟩ <;>
    · have hi : i < 2 := hi
      have hj : j < 2 := hj
      interval_cases i <;> interval_cases j <;> simp [mul, of2, eye, Finset.sum_range_succ]
  obtain ⟨r1, e1, w1, -, i1, c1, v1, n1⟩ := C14_constructor (Cyclic.table_valid 2 (by norm_num)) [] "a" [0, 1] (of2 1 1 0 1) (of2 1 (-1) 0 1) ∅ (by simp) (by simp [of2]) hinv
    (by simp [Cyclic.table]) (by simp [Cyclic.table, Cyclic.irrepSize, of2]) true
  obtain ⟨r2, e2, w2, -, i2, c2, v2, n2⟩ := C14_constructor (Cyclic.table_valid 2 (by norm_num)) [] "b" [0] (eye 1) (eye 1) ∅ (by simp) (by simp) (IsInv.eye 1)
    (by simp [Cyclic.table]) (by simp [Cyclic.table, Cyclic.irrepSize]) true
  obtain ⟨r, e, hwf, hs, hir, hm, hn⟩ := C67_tensor (Cyclic.table_valid 2 (by norm_num)) [] w1 w2 (fun m hm n hn => cyclic_law 2 (by norm_num) (by simpa [Cyclic.table] using w1.ok m hm) (by simpa [Cyclic.table] using w2.ok n hn)) (by simp)
  refine ⟨r1, r2, r, w1, w2, n1, e, ?_, fun ho => ?_⟩
  · have hl : 1 < r.irreps.length := by rw [hir, i1, i2]; decide
    rw [hn, if_pos hl]
    simp [nonlin]
  · have hg : Cyclic.isElement 2 1 = true := by decide
    have ho' := ho.of_eqv (hm 1 hg)
    have hb1 : blockDiag (r1.irreps.map fun i => (Cyclic.table 2).mat i 1) ≈ of2 1 0 0 (-1) := by
      have hc : cos (((1 : ℕ) : ℝ) * Cyclic.radians 2 1) = -1 := by
        have : ((1 : ℕ) : ℝ) * Cyclic.radians 2 1 = π := by rw [Cyclic.radians]; push_cast; ring
        rw [this, cos_pi]
      rw [Nat.cast_one, one_mul] at hc
      rw [i1]
      refine ⟨rfl, rfl, fun i j hi hj => ?_⟩
      have hi : i < 2 := hi
      have hj : j < 2 := hj
      interval_cases i <;> interval_cases j <;> simp [blockDiag, diag2, Cyclic.table, Cyclic.irrepMat, of2, of1, eye, hc]
    have hb2 : blockDiag (r2.irreps.map fun i => (Cyclic.table 2).mat i 1) ≈ eye 1 := by
      rw [i2]; exact diag2_empty_right _
    have m1 : r1.mat 1 ≈ mul (mul (of2 1 1 0 1) (of2 1 0 0 (-1))) (of2 1 (-1) 0 1) := by
      refine (w1.mat 1 hg).trans ?_
      rw [c1]
      exact mul_congr (mul_congr_right _ hb1 hb1.1.symm) v1 (by rw [mul_cols, hb1.2.1, v1.1]; rfl)
    have m2 : r2.mat 1 ≈ mul (mul (eye 1) (eye 1)) (eye 1) := by
      refine (w2.mat 1 hg).trans ?_
      rw [c2]
      exact mul_congr (mul_congr_right _ hb2 hb2.1.symm) v2 (by rw [mul_cols, hb2.2.1, v2.1]; rfl)
    have ho2 := ho'.of_eqv (kron_congr m1 m2)
    have := ho2.2.1.2.2 0 0 (by decide) (by decide)
    simp [mul, kron, transpose, of2, eye, Finset.sum_range_succ] at this

/-- A concrete case: `irrep(1) ⊕ irrep(2)` of `C_5` tensored with itself has size 16. -/
example : ∃ r1 r : Rep ℤ ℕ, tensor (Cyclic.table 5) (Cyclic.tensorIrreps 5) (Cyclic.cg 5) [] r1 r1 = .ok r ∧ r.size = 16 ∧ r.irreps = [0, 0, 2, 1, 2, 1, 2, 0, 0, 1] ∧
    ∀ g, Cyclic.isElement 5 g = true → r.mat g ≈ kron (r1.mat g) (r1.mat g) := by
  obtain ⟨r1, -, w1, -, i1, c1, -⟩ := C14_constructor (Cyclic.table_valid 5 (by norm_num)) [] "r" [1, 2] (eye 4) (eye 4) ∅ (by simp)
    (by simp) (IsInv.eye 4) (by simp [Cyclic.table]) (by simp [Cyclic.table, Cyclic.irrepSize]) false
  obtain ⟨r, e, -, hs, hir, hm, -⟩ := C67_tensor (Cyclic.table_valid 5 (by norm_num)) [] w1 w1 (fun m hm n hn => cyclic_law 5 (by norm_num) (by simpa [Cyclic.table] using w1.ok m hm) (by simpa [Cyclic.table] using w1.ok n hn)) (by simp)
  refine ⟨r1, r, e, by rw [hs, Rep.size, c1]; rfl, ?_, hm⟩
  rw [hir, i1]
  decide

end TensorRep

end Escnn
