import Verif.Lemmas.CompleteSKB
import Verif.Props.C37_Restricted

/-!
# The bases of the blocks for restricted filters are complete
-/

namespace Escnn

open NpMat

variable {H J J' P A : Type} [DecidableEq J] [DecidableEq J']

namespace RWE

/-- A sum over the channels of a representation, irrep by irrep and position by position. -/
theorem sum_idPos (size : J' → ℕ) (jsG : List J') (hnd : jsG.Nodup) (h : ℕ → ℝ) : ∀ (L : List J') (p : ℕ), (∀ (k : ℕ) i, L[k]? = some i → i ∉ jsG → ∑ o ∈ Finset.range (size i), h (p + chanOffset size L k + o) = 0) →
    ∑ z ∈ Finset.range (L.map size).sum, h (p + z) = (jsG.map fun i => ((idPos size i p L).map fun p0 => ∑ o ∈ Finset.range (size i), h (p0 + o)).sum).sum
  | [], p, _ => by
    symm
    refine List.sum_eq_zero fun v hv => ?_
    obtain ⟨i, -, rfl⟩ := List.mem_map.1 hv
    rfl
  | i0 :: L, p, hz => by
    have ih := sum_idPos size jsG hnd h L (p + size i0) fun k i hk hi => by
      have := hz (k + 1) i (by simpa using hk) hi
      rw [chanOffset_cons_succ, ← add_assoc] at this
      exact this
    rw [List.map_cons, List.sum_cons, Finset.sum_range_add]
    simp only [← add_assoc]
    rw [ih]
    have hcons : ∀ i, ((idPos size i p (i0 :: L)).map fun p0 => ∑ o ∈ Finset.range (size i), h (p0 + o)).sum =
        (if i0 = i then ∑ o ∈ Finset.range (size i), h (p + o) else 0) + ((idPos size i (p + size i0) L).map fun p0 => ∑ o ∈ Finset.range (size i), h (p0 + o)).sum := by
      intro i
      rw [idPos]
      split_ifs with e
      · rw [List.map_cons, List.sum_cons]
      · rw [zero_add]
    rw [List.map_congr_left fun i _ => hcons i, List.sum_map_add]
    congr 1
    by_cases hmem : i0 ∈ jsG
    · rw [sum_map_single id _ (by simpa using hnd) hmem fun c _ hc => if_neg fun e => hc e.symm, if_pos rfl]
    · have := hz 0 i0 rfl hmem
      rw [chanOffset_zero, add_zero] at this
      rw [this]
      symm
      refine List.sum_eq_zero fun v hv => ?_
      obtain ⟨i, hi, rfl⟩ := List.mem_map.1 hv
      exact if_neg fun e : i0 = i => hmem (e ▸ hi)

/-- The coefficients are those of Wigner and Eckart, in the basis of the restriction. -/
theorem coeff_eq (d : ℕ) (cg : CGArray) (E inv : NpMat ℝ) (p0 s p n y : ℕ) : coeff d cg E inv p0 s p n y = ∑ o ∈ Finset.range d, WE.coeff d cg E s p n o * inv.get (p0 + o) y := by
  simp only [coeff, WE.coeff, Finset.sum_mul]
  exact Finset.sum_comm

/-- The tensors which commute with two irreps and a restricted representation. -/
theorem coeffs_complete {El : H → Prop} {op : H → H → H} {one : H} (K : KGroup H J') {m n : J'} (hT : K.T.Valid El op one) (hS : CGComplete.Schur K.T K.typ El) (hE : ∀ j, K.T.ok j = true → (K.typ j).sizeOk (K.T.size j))
    (hm : K.T.ok m = true) (hn : K.T.ok n = true) (hcg : CGLaw El K.T.ok K.T.size K.T.mat K.tensor K.cg n m) (hcomm : K.tensor m n = K.tensor n m) {r : Rep H J'} (hr : r.WF K.T El) {f : ℕ → ℕ → ℕ → ℝ}
    (hf : ∀ g, El g → CoeffSteer (K.T.mat n g) (K.T.mat m g) (r.mat g) f) :
    ∃ v : ℕ → ℝ, ∀ p < K.T.size n, ∀ q < K.T.size m, ∀ y < r.size, f p q y =
      ∑ d ∈ Finset.range ((restriction K.T.size ((K.tensor m n).map Prod.fst) r).map (count K n m)).sum, v d * coeffs K n m r.cobInv (restriction K.T.size ((K.tensor m n).map Prod.fst) r) d p q y := by
  have hnd : ((K.tensor m n).map Prod.fst).Nodup := hcomm ▸ hcg.nodup
  -- the coefficients in the basis of the irreps
  set f' : ℕ → ℕ → ℕ → ℝ := fun p q z => ∑ y ∈ Finset.range r.size, f p q y * r.cob.get y z with hf'
  have hsteer : ∀ (k : ℕ) i, r.irreps[k]? = some i → ∀ g, El g → CoeffSteer (K.T.mat n g) (K.T.mat m g) (K.T.mat i g) fun p q o => f' p q (chanOffset K.T.size r.irreps k + o) := by
    intro k i hk g hg
    have hok : K.T.ok i = true := hr.ok i (List.mem_of_getElem? hk)
    have := (hf g hg).comp (S := K.T.mat i g) (fun y o => r.cob.get y (chanOffset K.T.size r.irreps k + o)) (fun y hy o ho => ?_) (((hT i hok).rows g hg).trans ((hT i hok).cols g hg).symm)
    · rw [hr.rows hg] at this
      exact this
    · rw [(hT i hok).cols g hg] at ho
      rw [hr.rows hg] at hy
      have hL : ∀ i ∈ r.irreps, (K.T.mat i g).rows = K.T.size i ∧ (K.T.mat i g).cols = K.T.size i := fun i hi => ⟨(hT i (hr.ok i hi)).rows g hg, (hT i (hr.ok i hi)).cols g hg⟩
      have h1 := (SKB.rep_cob hT hr hg).1.2.2 y (chanOffset K.T.size r.irreps k + o) (by rw [mul_rows, hr.rows hg]; exact hy) (by rw [mul_cols, hr.cob_cols, ← hr.size]; exact chanOffset_lt hk ho)
      have h2 : ∑ x ∈ Finset.range (r.irreps.map K.T.size).sum, r.cob.get y x * (blockDiag (r.irreps.map fun i => K.T.mat i g)).get x (chanOffset K.T.size r.irreps k + o) =
          ∑ x ∈ Finset.range (r.mat g).cols, (r.mat g).get y x * r.cob.get x (chanOffset K.T.size r.irreps k + o) := by
        rw [hr.size, ← hr.cob_cols]
        exact h1.symm
      rw [blockDiag_col hL hk ho] at h2
      rw [(hT i hok).rows g hg]
      exact h2
  have hback : ∀ p q, ∀ y < r.size, f p q y = ∑ z ∈ Finset.range r.size, f' p q z * r.cobInv.get z y := by
    intro p q y hy
    have i1 : mul r.cob r.cobInv ≈ eye r.size := hr.inv.2.2.2.1
    have h1 : ∀ y' < r.size, ∑ z ∈ Finset.range r.size, r.cob.get y' z * r.cobInv.get z y = if y' = y then 1 else 0 := fun y' hy' => by
      have := i1.2.2 y' y hy' (by rw [mul_cols, hr.inv_cols]; exact hy)
      rw [← hr.cob_cols]
      exact this
    simp only [hf', Finset.sum_mul]
    rw [Finset.sum_comm]
    have h2 : ∀ y' ∈ Finset.range r.size, ∑ z ∈ Finset.range r.size, f p q y' * r.cob.get y' z * r.cobInv.get z y = f p q y' * if y' = y then 1 else 0 := fun y' hy' => by
      rw [← h1 y' (Finset.mem_range.1 hy'), Finset.mul_sum]
      exact Finset.sum_congr rfl fun _ _ => by ring
    rw [Finset.sum_congr rfl h2, Finset.sum_eq_single y (fun b _ hb => by rw [if_neg hb, mul_zero]) (fun hb => absurd (Finset.mem_range.2 hy) hb), if_pos rfl, mul_one]
  -- the blocks
  have hblock : ∀ i p0, ∃ w : ℕ → ℕ → ℝ, (∃ k : ℕ, r.irreps[k]? = some i ∧ p0 = chanOffset K.T.size r.irreps k) → i ∈ (K.tensor m n).map Prod.fst → ∀ p < K.T.size n, ∀ q < K.T.size m, ∀ o < K.T.size i,
      f' p q (p0 + o) = ∑ s ∈ Finset.range (K.cg n m i).mult, ∑ k ∈ Finset.range (K.endo i).length, w s k * WE.coeff (K.T.size i) (K.cg n m i) ((K.endo i).getD k (zeros 0 0)) s p q o := by
    intro i p0
    by_cases h : (∃ k : ℕ, r.irreps[k]? = some i ∧ p0 = chanOffset K.T.size r.irreps k) ∧ i ∈ (K.tensor m n).map Prod.fst
    · obtain ⟨⟨k, hk, rfl⟩, hi⟩ := h
      have hok : K.T.ok i = true := hr.ok i (List.mem_of_getElem? hk)
      obtain ⟨e, he, rfl⟩ := List.mem_map.1 hi
      rw [hcomm] at he
      obtain ⟨w, hw⟩ := (CGComplete.tensor_complete hT hS hn hm hok hcg (hsteer k _ hk)).2 e.2 he
      refine ⟨w, fun _ _ p hp q hq o ho => ?_⟩
      obtain ⟨hlen, -, -⟩ := C18_endo_orthogonal (K.typ e.1) (K.T.size e.1) (hE e.1 hok)
      rw [hcg.mult e he, KGroup.endo, hlen]
      exact hw p hp q hq o ho
    · exact ⟨fun _ _ => 0, fun h1 h2 => absurd ⟨h1, h2⟩ h⟩
  choose w hw using hblock
  -- the weights
  refine ⟨fun d => match IBasis.locate (count K n m) (restriction K.T.size ((K.tensor m n).map Prod.fst) r) d with
    | some (e, d') => w e.1 (e.2.getD (d' % e.2.length) 0) (d' / e.2.length % (K.cg n m e.1).mult) (d' / e.2.length / (K.cg n m e.1).mult)
    | none => 0, fun p hp q hq y hy => ?_⟩
  have hco : ∀ (L : List (J' × List ℕ)) d, coeffs K n m r.cobInv L d p q y = match IBasis.locate (count K n m) L d with
      | some (e, d') => coeff (K.T.size e.1) (K.cg n m e.1) ((K.endo e.1).getD (d' / e.2.length / (K.cg n m e.1).mult) (zeros 0 0)) r.cobInv (e.2.getD (d' % e.2.length) 0)
          (d' / e.2.length % (K.cg n m e.1).mult) p q y
      | none => 0 := by
    intro L
    induction L with
    | nil => intro d; rfl
    | cons e L ih =>
      intro d
      rw [coeffs, IBasis.locate]
      split_ifs with h
      · rfl
      · exact ih _
  set V : Option ((J' × List ℕ) × ℕ) → ℝ := fun o => match o with
    | some (e, d') => w e.1 (e.2.getD (d' % e.2.length) 0) (d' / e.2.length % (K.cg n m e.1).mult) (d' / e.2.length / (K.cg n m e.1).mult) *
        coeff (K.T.size e.1) (K.cg n m e.1) ((K.endo e.1).getD (d' / e.2.length / (K.cg n m e.1).mult) (zeros 0 0)) r.cobInv (e.2.getD (d' % e.2.length) 0)
          (d' / e.2.length % (K.cg n m e.1).mult) p q y
    | none => 0 with hV
  have hterm : ∀ d ∈ Finset.range ((restriction K.T.size ((K.tensor m n).map Prod.fst) r).map (count K n m)).sum,
      (match IBasis.locate (count K n m) (restriction K.T.size ((K.tensor m n).map Prod.fst) r) d with
        | some (e, d') => w e.1 (e.2.getD (d' % e.2.length) 0) (d' / e.2.length % (K.cg n m e.1).mult) (d' / e.2.length / (K.cg n m e.1).mult)
        | none => 0) * coeffs K n m r.cobInv (restriction K.T.size ((K.tensor m n).map Prod.fst) r) d p q y = V (IBasis.locate (count K n m) (restriction K.T.size ((K.tensor m n).map Prod.fst) r) d) := by
    intro d _
    rw [hco, hV]
    cases IBasis.locate (count K n m) (restriction K.T.size ((K.tensor m n).map Prod.fst) r) d with
    | none => simp
    | some a => rfl
  rw [Finset.sum_congr rfl hterm, sum_locate (count K n m) V]
  -- drop the filter
  have hfilter : ∀ L : List J', (((L.map fun j => (j, idPos K.T.size j 0 r.irreps)).filter fun e => 0 < e.2.length).map fun e => ∑ d ∈ Finset.range (count K n m e), V (some (e, d))).sum =
      (L.map fun j => ∑ d ∈ Finset.range (count K n m (j, idPos K.T.size j 0 r.irreps)), V (some ((j, idPos K.T.size j 0 r.irreps), d))).sum := by
    intro L
    induction L with
    | nil => rfl
    | cons a L ih =>
      rw [List.map_cons, List.filter_cons, List.map_cons, List.sum_cons]
      by_cases h : 0 < (idPos K.T.size a 0 r.irreps).length
      · rw [if_pos (by simpa using h), List.map_cons, List.sum_cons, ih]
      · rw [if_neg (by simpa using h), ih, count, Nat.eq_zero_of_not_pos h, mul_zero, Finset.sum_range_zero, zero_add]
  rw [restriction, hfilter, hback p q y hy, ← hr.size]
  have hs := sum_idPos K.T.size ((K.tensor m n).map Prod.fst) hnd (fun z => f' p q z * r.cobInv.get z y) r.irreps 0 (fun k i hk hi => by
    refine Finset.sum_eq_zero fun o ho => ?_
    have hok : K.T.ok i = true := hr.ok i (List.mem_of_getElem? hk)
    have := (CGComplete.tensor_complete hT hS hn hm hok hcg (hsteer k _ hk)).1 (by rwa [hcomm] at hi) p hp q hq o (Finset.mem_range.1 ho)
    rw [zero_add]
    change f' p q (chanOffset K.T.size r.irreps k + o) * _ = 0
    rw [this, zero_mul])
  simp only [zero_add] at hs
  rw [hs]
  congr 1
  refine List.map_congr_left fun i hi => ?_
  have hget : ∀ t < (idPos K.T.size i 0 r.irreps).length, ∃ k : ℕ, r.irreps[k]? = some i ∧ (idPos K.T.size i 0 r.irreps).getD t 0 = chanOffset K.T.size r.irreps k := by
    intro t ht
    obtain ⟨k, hk, e⟩ := idPos_mem K.T.size i r.irreps 0 ((idPos K.T.size i 0 r.irreps).getD t 0) (by rw [List.getD_eq_getElem _ _ ht]; exact List.getElem_mem ht)
    exact ⟨k, hk, by rw [e, zero_add]⟩
  have h1 : ∑ d ∈ Finset.range (count K n m (i, idPos K.T.size i 0 r.irreps)), V (some ((i, idPos K.T.size i 0 r.irreps), d)) =
      ∑ t ∈ Finset.range (idPos K.T.size i 0 r.irreps).length, ∑ s ∈ Finset.range (K.cg n m i).mult, ∑ k ∈ Finset.range (K.endo i).length, w i ((idPos K.T.size i 0 r.irreps).getD t 0) s k *
        coeff (K.T.size i) (K.cg n m i) ((K.endo i).getD k (zeros 0 0)) r.cobInv ((idPos K.T.size i 0 r.irreps).getD t 0) s p q y := by
    have a1 := sum_range_mul' ((K.endo i).length * (K.cg n m i).mult) (idPos K.T.size i 0 r.irreps).length fun u t => w i ((idPos K.T.size i 0 r.irreps).getD t 0) (u % (K.cg n m i).mult) (u / (K.cg n m i).mult) *
      coeff (K.T.size i) (K.cg n m i) ((K.endo i).getD (u / (K.cg n m i).mult) (zeros 0 0)) r.cobInv ((idPos K.T.size i 0 r.irreps).getD t 0) (u % (K.cg n m i).mult) p q y
    have a2 : ∀ t, _ := fun t => sum_range_mul' (K.endo i).length (K.cg n m i).mult fun k s => w i ((idPos K.T.size i 0 r.irreps).getD t 0) s k *
      coeff (K.T.size i) (K.cg n m i) ((K.endo i).getD k (zeros 0 0)) r.cobInv ((idPos K.T.size i 0 r.irreps).getD t 0) s p q y
    refine a1.trans ?_
    rw [Finset.sum_comm]
    refine Finset.sum_congr rfl fun t _ => (a2 t).trans Finset.sum_comm
  have h0 := sum_range_getElem (fun p0 => ∑ o ∈ Finset.range (K.T.size i), f' p q (p0 + o) * r.cobInv.get (p0 + o) y) (idPos K.T.size i 0 r.irreps)
    (fun t => ∑ o ∈ Finset.range (K.T.size i), f' p q ((idPos K.T.size i 0 r.irreps).getD t 0 + o) * r.cobInv.get ((idPos K.T.size i 0 r.irreps).getD t 0 + o) y)
    fun k e hk => by rw [List.getD_eq_getElem?_getD, hk, Option.getD_some]
  rw [h1, ← h0]
  refine Finset.sum_congr rfl fun t ht => ?_
  have hwt := hw i _ (hget t (Finset.mem_range.1 ht)) hi p hp q hq
  simp only [coeff_eq, Finset.mul_sum]
  rw [Finset.sum_congr rfl fun o ho => by rw [hwt o (Finset.mem_range.1 ho)]]
  simp only [Finset.sum_mul]
  rw [Finset.sum_comm]
  refine Finset.sum_congr rfl fun s _ => ?_
  rw [Finset.sum_comm]
  exact Finset.sum_congr rfl fun k _ => Finset.sum_congr rfl fun o _ => by ring

/-- The bases for restricted filters are complete. -/
theorem init_complete {El : H → Prop} {op : H → H → H} {one : H} (K : KGroup H J') (F : FBasis J P A) (Gsize : J → ℕ) (res : J → Rep H J') {m n : J'} (hT : K.T.Valid El op one)
    (hS : CGComplete.Schur K.T K.typ El) (hE : ∀ j, K.T.ok j = true → (K.typ j).sizeOk (K.T.size j)) (hm : K.T.ok m = true) (hn : K.T.ok n = true)
    (hcg : CGLaw El K.T.ok K.T.size K.T.mat K.tensor K.cg n m) (hcomm : K.tensor m n = K.tensor n m) (hres : ∀ e ∈ F.js, (res e.1).WF K.T El ∧ (res e.1).size = Gsize e.1) :
    GenComplete El Gsize (fun j h => (res j).mat h) K.T F m n (init K F Gsize res m n) := by
  intro a ha
  set R := fun j => if F.mult j = 0 then [] else restriction K.T.size ((K.tensor m n).map Prod.fst) (res j) with hR
  set js := (F.js.map Prod.fst).dedup.filter fun j => 0 < (R j).length with hjs
  set cnt := fun j => ((R j).map (count K n m)).sum with hcnt
  have key : ∀ j t, ∃ v : ℕ → ℝ, t < F.mult j → ∀ p < K.T.size n, ∀ q < K.T.size m, ∀ y < Gsize j, a j t p q y = ∑ d ∈ Finset.range (cnt j), v d * coeffs K n m (res j).cobInv (R j) d p q y := by
    intro j t
    by_cases ht : t < F.mult j
    · obtain ⟨h1, h2⟩ := hres _ (FBasis.mem_of_mult (F := F) (j := j) (by omega))
      obtain ⟨v, hv⟩ := coeffs_complete K hT hS hE hm hn hcg hcomm h1 (ha j t ht)
      refine ⟨v, fun _ p hp q hq y hy => ?_⟩
      have hRj : R j = restriction K.T.size ((K.tensor m n).map Prod.fst) (res j) := if_neg (by omega)
      rw [hcnt]
      simp only [hRj]
      exact hv p hp q hq y (by rw [h2]; exact hy)
    · exact ⟨fun _ => 0, fun h => absurd h ht⟩
  choose v hv using key
  have hjs0 : ∀ j, 0 < F.mult j → j ∉ js → cnt j = 0 := by
    intro j hj hn
    have hmem : j ∈ (F.js.map Prod.fst).dedup := List.mem_dedup.2 (List.mem_map.2 ⟨_, FBasis.mem_of_mult hj, rfl⟩)
    have : ¬ 0 < (R j).length := fun h => hn (List.mem_filter.2 ⟨hmem, by simpa using h⟩)
    have h0 : R j = [] := List.length_eq_zero_iff.1 (by omega)
    rw [hcnt]
    simp only [h0]
    rfl
  constructor
  · intro hem j t ht p hp q hq y hy
    rw [hv j t ht p hp q hq y hy]
    have h0 : (js.map fun j => cnt j * F.mult j).sum = 0 := by
      by_contra h0
      rw [init] at hem
      simp only at hem
      rw [if_neg h0] at hem
      cases hem
    have hz : cnt j = 0 := by
      by_cases hj : j ∈ js
      · have := List.sum_eq_zero_iff.1 h0 _ (List.mem_map.2 ⟨j, hj, rfl⟩)
        rcases Nat.mul_eq_zero.1 this with h | h
        · exact h
        · omega
      · exact hjs0 j (by omega) hj
    rw [hz, Finset.sum_range_zero]
  · intro b hb
    have hbeq := init_inv hb
    refine ⟨fun j e => v j (e % F.mult j) (e / F.mult j), fun j Y p hp q hq => ?_⟩
    have hbd : b.dimH j = if j ∈ js then F.mult j * cnt j else 0 := by rw [hbeq]
    have hbb : b.block j = block (Gsize j) (coeffs K n m (res j).cobInv (R j)) (F.mult j) := by rw [hbeq]
    have hbd' : b.dimH j = cnt j * F.mult j := by
      rw [hbd]
      split_ifs with hj
      · exact Nat.mul_comm _ _
      · rcases Nat.eq_zero_or_pos (F.mult j) with h0 | h0
        · rw [h0, mul_zero]
        · rw [hjs0 j h0 hj, zero_mul]
    rw [hbd', hbb]
    have e1 := sum_range_mul' (cnt j) (F.mult j) fun d t => v j t d * ∑ y ∈ Finset.range (Gsize j), coeffs K n m (res j).cobInv (R j) d p q y * Y t y
    refine Eq.trans ?_ e1.symm
    rw [Finset.sum_comm (s := Finset.range (cnt j))]
    refine Finset.sum_congr rfl fun t ht => ?_
    rw [Finset.sum_congr rfl fun y hy => by rw [hv j t (Finset.mem_range.1 ht) p hp q hq y (Finset.mem_range.1 hy)]]
    simp only [Finset.sum_mul, Finset.mul_sum]
    rw [Finset.sum_comm]
    exact Finset.sum_congr rfl fun _ _ => Finset.sum_congr rfl fun _ _ => by ring

end RWE

end Escnn
