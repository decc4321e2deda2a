import Verif.Lemmas.IndependentKernels

/-!
# The elements of the bases of the blocks are linearly independent
-/

namespace Escnn

open NpMat

variable {G H J J' P A : Type} [DecidableEq J] [DecidableEq J']

namespace WE

/-- The coefficients for the copies `s` and the endomorphisms `k` are independent. -/
theorem coeff_indep {El : G → Prop} (K : KGroup G J) {m n j : J} (hcg : CGLaw El K.T.ok K.T.size K.T.mat K.tensor K.cg n m) (hj : j ∈ (K.tensor n m).map Prod.fst)
    (hE : (K.typ j).sizeOk (K.T.size j)) (hpos : 0 < K.T.size j) (x : ℕ → ℝ)
    (h : ∀ p < K.T.size n, ∀ q < K.T.size m, ∀ o < K.T.size j, ∑ u ∈ Finset.range ((K.endo j).length * (K.cg n m j).mult),
      x u * coeff (K.T.size j) (K.cg n m j) ((K.endo j).getD (u / (K.cg n m j).mult) (zeros 0 0)) (u % (K.cg n m j).mult) p q o = 0) :
    ∀ u < (K.endo j).length * (K.cg n m j).mult, x u = 0 := by
  obtain ⟨e, he, rfl⟩ := List.mem_map.1 hj
  set M := (K.cg n m e.1).mult with hM
  have hM' : M = e.2 := hcg.mult e he
  set d := K.T.size e.1 with hd
  obtain ⟨hlen, hshape, hortho⟩ := C18_endo_orthogonal (K.typ e.1) d hE
  have h1 : ∀ p < K.T.size n, ∀ q < K.T.size m, ∀ o < d, ∑ k ∈ Finset.range (K.endo e.1).length, ∑ s ∈ Finset.range M, x (k * M + s) *
      ∑ i ∈ Finset.range d, (K.cg n m e.1).get p q s i * ((K.endo e.1).getD k (zeros 0 0)).get o i = 0 := by
    intro p hp q hq o ho
    have := sum_range_mul' (K.endo e.1).length M fun k s => x (k * M + s) * ∑ i ∈ Finset.range d, (K.cg n m e.1).get p q s i * ((K.endo e.1).getD k (zeros 0 0)).get o i
    refine this.symm.trans (Eq.trans (Finset.sum_congr rfl fun u _ => ?_) (h p hp q hq o ho))
    rw [Nat.div_add_mod']; rfl
  -- the copies are orthonormal
  have h2 : ∀ s0 < M, ∀ i0 < d, ∀ o < d, ∑ k ∈ Finset.range (K.endo e.1).length, x (k * M + s0) * ((K.endo e.1).getD k (zeros 0 0)).get o i0 = 0 := by
    intro s0 hs0 i0 hi0 o ho
    have e1 : ∑ p ∈ Finset.range (K.T.size n), ∑ q ∈ Finset.range (K.T.size m), (K.cg n m e.1).get p q s0 i0 * ∑ k ∈ Finset.range (K.endo e.1).length, ∑ s ∈ Finset.range M, x (k * M + s) *
        ∑ i ∈ Finset.range d, (K.cg n m e.1).get p q s i * ((K.endo e.1).getD k (zeros 0 0)).get o i = 0 :=
      Finset.sum_eq_zero fun p hp => Finset.sum_eq_zero fun q hq => by rw [h1 p (Finset.mem_range.1 hp) q (Finset.mem_range.1 hq) o ho, mul_zero]
    refine Eq.trans ?_ e1
    have e2 : ∑ p ∈ Finset.range (K.T.size n), ∑ q ∈ Finset.range (K.T.size m), (K.cg n m e.1).get p q s0 i0 * ∑ k ∈ Finset.range (K.endo e.1).length, ∑ s ∈ Finset.range M, x (k * M + s) *
        ∑ i ∈ Finset.range d, (K.cg n m e.1).get p q s i * ((K.endo e.1).getD k (zeros 0 0)).get o i =
        ∑ k ∈ Finset.range (K.endo e.1).length, ∑ s ∈ Finset.range M, ∑ i ∈ Finset.range d, x (k * M + s) * ((K.endo e.1).getD k (zeros 0 0)).get o i *
          cgInner (K.T.size n) (K.T.size m) (K.cg n m e.1) (K.cg n m e.1) s0 i0 s i := by
      simp only [cgInner, Finset.mul_sum]
      calc _ = ∑ p ∈ Finset.range (K.T.size n), ∑ k ∈ Finset.range (K.endo e.1).length, ∑ s ∈ Finset.range M, ∑ i ∈ Finset.range d, ∑ q ∈ Finset.range (K.T.size m),
            (K.cg n m e.1).get p q s0 i0 * (x (k * M + s) * ((K.cg n m e.1).get p q s i * ((K.endo e.1).getD k (zeros 0 0)).get o i)) := by
            refine Finset.sum_congr rfl fun p _ => ?_
            rw [Finset.sum_comm]
            refine Finset.sum_congr rfl fun k _ => ?_
            rw [Finset.sum_comm]
            refine Finset.sum_congr rfl fun s _ => ?_
            rw [Finset.sum_comm]
        _ = _ := by
            rw [Finset.sum_comm]
            refine Finset.sum_congr rfl fun k _ => ?_
            rw [Finset.sum_comm]
            refine Finset.sum_congr rfl fun s _ => ?_
            rw [Finset.sum_comm]
            exact Finset.sum_congr rfl fun i _ => Finset.sum_congr rfl fun p _ => Finset.sum_congr rfl fun q _ => by ring
    rw [e2]
    refine Finset.sum_congr rfl fun k _ => ?_
    have hin : ∀ s < M, ∀ i < d, cgInner (K.T.size n) (K.T.size m) (K.cg n m e.1) (K.cg n m e.1) s0 i0 s i = if (e.1, s0, i0) = (e.1, s, i) then 1 else 0 := fun s hs i hi =>
      hcg.ortho e he e he s0 i0 s i (hM' ▸ hs0) hi0 (hM' ▸ hs) hi
    symm
    rw [Finset.sum_eq_single s0 (fun s hs hne => Finset.sum_eq_zero fun i hi => by
        rw [hin s (Finset.mem_range.1 hs) i (Finset.mem_range.1 hi), if_neg (fun h => hne (by simpa using (congrArg (fun z => z.2.1) h).symm)), mul_zero]) (fun h => absurd (Finset.mem_range.2 hs0) h),
      Finset.sum_eq_single i0 (fun i hi hne => by
        rw [hin s0 hs0 i (Finset.mem_range.1 hi), if_neg (fun h => hne (by simpa using (congrArg (fun z => z.2.2) h).symm)), mul_zero]) (fun h => absurd (Finset.mem_range.2 hi0) h),
      hin s0 hs0 i0 hi0, if_pos rfl, mul_one]
  -- the endomorphisms are orthogonal
  have h3 : ∀ s0 < M, ∀ k0 < (K.endo e.1).length, x (k0 * M + s0) = 0 := by
    intro s0 hs0 k0 hk0
    have e1 : ∑ o ∈ Finset.range d, ∑ i ∈ Finset.range d, (∑ k ∈ Finset.range (K.endo e.1).length, x (k * M + s0) * ((K.endo e.1).getD k (zeros 0 0)).get o i) * ((K.endo e.1).getD k0 (zeros 0 0)).get o i = 0 :=
      Finset.sum_eq_zero fun o ho => Finset.sum_eq_zero fun i hi => by rw [h2 s0 hs0 i (Finset.mem_range.1 hi) o (Finset.mem_range.1 ho), zero_mul]
    have e2 : ∑ o ∈ Finset.range d, ∑ i ∈ Finset.range d, (∑ k ∈ Finset.range (K.endo e.1).length, x (k * M + s0) * ((K.endo e.1).getD k (zeros 0 0)).get o i) * ((K.endo e.1).getD k0 (zeros 0 0)).get o i =
        ∑ k ∈ Finset.range (K.endo e.1).length, x (k * M + s0) * ∑ o ∈ Finset.range d, ∑ i ∈ Finset.range d, ((K.endo e.1).getD k (zeros 0 0)).get o i * ((K.endo e.1).getD k0 (zeros 0 0)).get o i := by
      simp only [Finset.sum_mul, Finset.mul_sum]
      calc _ = ∑ o ∈ Finset.range d, ∑ k ∈ Finset.range (K.endo e.1).length, ∑ i ∈ Finset.range d, x (k * M + s0) * ((K.endo e.1).getD k (zeros 0 0)).get o i * ((K.endo e.1).getD k0 (zeros 0 0)).get o i :=
            Finset.sum_congr rfl fun o _ => Finset.sum_comm
        _ = _ := by
            rw [Finset.sum_comm]
            exact Finset.sum_congr rfl fun k _ => Finset.sum_congr rfl fun o _ => Finset.sum_congr rfl fun i _ => by ring
    rw [e2] at e1
    have hk : ∀ k (hk : k < (K.endo e.1).length), ∑ o ∈ Finset.range d, ∑ i ∈ Finset.range d, ((K.endo e.1).getD k (zeros 0 0)).get o i * ((K.endo e.1).getD k0 (zeros 0 0)).get o i = if k = k0 then (d : ℝ) else 0 := by
      intro k hk
      rw [List.getD_eq_getElem _ _ hk, List.getD_eq_getElem _ _ hk0]
      exact hortho k k0 hk hk0
    rw [Finset.sum_eq_single k0 (fun k hk' hne => by rw [hk k (Finset.mem_range.1 hk'), if_neg hne, mul_zero]) (fun h => absurd (Finset.mem_range.2 hk0) h), hk k0 hk0, if_pos rfl] at e1
    rcases mul_eq_zero.1 e1 with h | h
    · exact h
    · exact absurd (Nat.cast_eq_zero.1 h) (by omega)
  intro u hu
  have hMpos : 0 < M := by
    rcases Nat.eq_zero_or_pos M with h | h
    · rw [h, mul_zero] at hu; omega
    · exact h
  have := h3 (u % M) (Nat.mod_lt _ hMpos) (u / M) (Nat.div_lt_of_lt_mul ((Nat.mul_comm M _).symm ▸ hu))
  rwa [Nat.div_add_mod'] at this

/-- The bases of Wigner and Eckart are independent. -/
theorem init_indep {El : G → Prop} (K : KGroup G J) (F : FBasis J P A) {m n : J} (hcg : CGLaw El K.T.ok K.T.size K.T.mat K.tensor K.cg n m) (hcomm : K.tensor m n = K.tensor n m)
    (hE : ∀ j, K.T.ok j = true → (K.typ j).sizeOk (K.T.size j) ∧ 0 < K.T.size j) (hF : (F.js.map Prod.fst).Nodup) : GenIndep K.T m n (init K F m n) := by
  intro b hb j hj w hw
  obtain ⟨hmul, hbeq⟩ := init_inv hb
  set js := (K.tensor m n).filter fun e => 0 < F.mult e.1 with hjs
  set dims := js.map fun e => (e.1, F.mult e.1 * e.2 * (K.typ e.1).sumsq) with hdims
  have hnd : ((K.tensor m n).map Prod.fst).Nodup := hcomm ▸ hcg.nodup
  have hjsnd : (js.map Prod.fst).Nodup := hnd.sublist (List.filter_sublist.map _)
  have hd1 : dims.map Prod.fst = js.map Prod.fst := by rw [hdims, List.map_map]; rfl
  have hbd : b.dimH j = (FType.lookupLast dims j).getD 0 := by rw [hbeq]
  have hbb : b.block j = block K n m j (K.cg n m j).mult (F.mult j) := by rw [hbeq]
  by_cases hmem : j ∈ js.map Prod.fst
  swap
  · intro e he
    rw [hbd, lookupLast_none (by rw [hd1]; exact hmem)] at he
    simp at he
  obtain ⟨a, ha, rfl⟩ := List.mem_map.1 hmem
  obtain ⟨ha1, ha2⟩ := List.mem_filter.1 ha
  have hmpos : 0 < F.mult a.1 := by simpa using ha2
  rw [hcomm] at ha1
  have hok := hcg.ok a ha1
  obtain ⟨hs, hpos⟩ := hE a.1 hok
  obtain ⟨hlen, -, -⟩ := C18_endo_orthogonal (K.typ a.1) (K.T.size a.1) hs
  have hdim : b.dimH a.1 = (K.endo a.1).length * (K.cg n m a.1).mult * F.mult a.1 := by
    rw [hbd, (lookupLast_of_nodup (v := F.mult a.1 * a.2 * (K.typ a.1).sumsq) (by rw [hd1]; exact hjsnd)).2 (List.mem_map.2 ⟨_, ha, rfl⟩), Option.getD_some, hcg.mult a ha1, KGroup.endo, hlen]
    ring
  rw [hdim] at hw ⊢
  rw [hbb] at hw
  -- one copy of the harmonic at a time
  have key : ∀ t < F.mult a.1, ∀ u < (K.endo a.1).length * (K.cg n m a.1).mult, w (u * F.mult a.1 + t) = 0 := by
    intro t ht
    refine coeff_indep K hcg (List.mem_map.2 ⟨a, ha1, rfl⟩) hs hpos (fun u => w (u * F.mult a.1 + t)) fun p hp q hq o ho => ?_
    refine Eq.trans ?_ (hw (fun t' o' => if t' = t ∧ o' = o then 1 else 0) p hp q hq)
    unfold block
    have e1 := sum_range_mul' ((K.endo a.1).length * (K.cg n m a.1).mult) (F.mult a.1) fun u t' => w (u * F.mult a.1 + t') *
      ∑ o' ∈ Finset.range (K.T.size a.1), coeff (K.T.size a.1) (K.cg n m a.1) ((K.endo a.1).getD (u / (K.cg n m a.1).mult) (zeros 0 0)) (u % (K.cg n m a.1).mult) p q o' * if t' = t ∧ o' = o then 1 else 0
    have e2 : ∀ u, u / F.mult a.1 * F.mult a.1 + u % F.mult a.1 = u := fun u => Nat.div_add_mod' u (F.mult a.1)
    simp only [e2] at e1
    rw [e1]
    refine Finset.sum_congr rfl fun u _ => ?_
    rw [Finset.sum_eq_single t (fun t' _ hne => by
        rw [Finset.sum_eq_zero, mul_zero]
        intro o' _
        rw [if_neg (fun h => hne h.1), mul_zero]) (fun h => absurd (Finset.mem_range.2 ht) h),
      Finset.sum_eq_single o (fun o' _ hne => by rw [if_neg (fun h => hne h.2), mul_zero]) (fun h => absurd (Finset.mem_range.2 ho) h), if_pos ⟨rfl, rfl⟩, mul_one]
  intro e he
  have := key (e % F.mult a.1) (Nat.mod_lt _ hmpos) (e / F.mult a.1) (Nat.div_lt_of_lt_mul ((Nat.mul_comm _ _).symm ▸ he))
  rwa [Nat.div_add_mod'] at this

end WE

namespace RWE

theorem idPos_ge (size : J' → ℕ) (i : J') : ∀ (L : List J') (p : ℕ), ∀ x ∈ idPos size i p L, p ≤ x
  | [], _, _, h => by simp [idPos] at h
  | a :: L, p, x, h => by
    rw [idPos] at h
    split_ifs at h with e
    · rcases List.mem_cons.1 h with rfl | h
      · exact le_rfl
      · exact le_trans (Nat.le_add_right _ _) (idPos_ge size i L _ x h)
    · exact le_trans (Nat.le_add_right _ _) (idPos_ge size i L _ x h)

theorem idPos_nodup (size : J' → ℕ) (i : J') (hi : 0 < size i) : ∀ (L : List J') (p : ℕ), (idPos size i p L).Nodup
  | [], _ => by simp [idPos]
  | a :: L, p => by
    rw [idPos]
    split_ifs with e
    · subst e
      refine List.nodup_cons.2 ⟨fun h => ?_, idPos_nodup size a hi L _⟩
      have := idPos_ge size a L _ _ h
      omega
    · exact idPos_nodup size i hi L _

/-- The coefficients for restricted filters are independent. -/
theorem coeffs_indep {El : H → Prop} (K : KGroup H J') {m n : J'} (hcg : CGLaw El K.T.ok K.T.size K.T.mat K.tensor K.cg n m) (hcomm : K.tensor m n = K.tensor n m)
    (hE : ∀ j, K.T.ok j = true → (K.typ j).sizeOk (K.T.size j) ∧ 0 < K.T.size j) {r : Rep H J'} (hr : r.WF K.T El) {v : ℕ → ℝ}
    (hv : ∀ p < K.T.size n, ∀ q < K.T.size m, ∀ y < r.size,
      ∑ d ∈ Finset.range ((restriction K.T.size ((K.tensor m n).map Prod.fst) r).map (count K n m)).sum, v d * coeffs K n m r.cobInv (restriction K.T.size ((K.tensor m n).map Prod.fst) r) d p q y = 0) :
    ∀ d < ((restriction K.T.size ((K.tensor m n).map Prod.fst) r).map (count K n m)).sum, v d = 0 := by
  have hnd : ((K.tensor m n).map Prod.fst).Nodup := hcomm ▸ hcg.nodup
  set L := restriction K.T.size ((K.tensor m n).map Prod.fst) r with hL
  have hkeys : (L.map Prod.fst).Nodup := by
    rw [hL, restriction]
    refine List.Nodup.sublist (List.filter_sublist.map _) ?_
    rw [List.map_map]
    exact (List.map_id _).symm ▸ hnd
  have hmemL : ∀ e ∈ L, e.1 ∈ (K.tensor m n).map Prod.fst ∧ e.2 = idPos K.T.size e.1 0 r.irreps ∧ 0 < e.2.length := by
    intro e he
    rw [hL, restriction] at he
    obtain ⟨h1, h2⟩ := List.mem_filter.1 he
    obtain ⟨j, hj, rfl⟩ := List.mem_map.1 h1
    exact ⟨hj, rfl, by simpa using h2⟩
  have hget : ∀ e ∈ L, ∀ t < e.2.length, ∃ k : ℕ, r.irreps[k]? = some e.1 ∧ e.2.getD t 0 = chanOffset K.T.size r.irreps k := by
    intro e he t ht
    have h2 := (hmemL e he).2.1
    obtain ⟨k, hk, e'⟩ := idPos_mem K.T.size e.1 r.irreps 0 (e.2.getD t 0) (by rw [List.getD_eq_getElem _ _ ht]; exact h2 ▸ List.getElem_mem ht)
    exact ⟨k, hk, by rw [e', zero_add]⟩
  obtain ⟨v1, hv1⟩ := exists_decode (count K n m) (List.Nodup.of_map _ hkeys) v
  have hco : ∀ (L : List (J' × List ℕ)) d p q y, coeffs K n m r.cobInv L d p q y = match IBasis.locate (count K n m) L d with
      | some (e, d') => coeff (K.T.size e.1) (K.cg n m e.1) ((K.endo e.1).getD (d' / e.2.length / (K.cg n m e.1).mult) (zeros 0 0)) r.cobInv (e.2.getD (d' % e.2.length) 0)
          (d' / e.2.length % (K.cg n m e.1).mult) p q y
      | none => 0 := by
    intro L
    induction L with
    | nil => intro d _ _ _; rfl
    | cons e L ih =>
      intro d p q y
      rw [coeffs, IBasis.locate]
      split_ifs with h
      · rfl
      · exact ih _ _ _ _
  -- irrep by irrep
  have h1 : ∀ p < K.T.size n, ∀ q < K.T.size m, ∀ y < r.size, (L.map fun e => ∑ d ∈ Finset.range (count K n m e), v1 e d *
      coeff (K.T.size e.1) (K.cg n m e.1) ((K.endo e.1).getD (d / e.2.length / (K.cg n m e.1).mult) (zeros 0 0)) r.cobInv (e.2.getD (d % e.2.length) 0) (d / e.2.length % (K.cg n m e.1).mult) p q y).sum = 0 := by
    intro p hp q hq y hy
    refine Eq.trans ?_ (hv p hp q hq y hy)
    have := sum_locate (count K n m) (fun o : Option ((J' × List ℕ) × ℕ) => match o with
      | some (e, d) => v1 e d * coeff (K.T.size e.1) (K.cg n m e.1) ((K.endo e.1).getD (d / e.2.length / (K.cg n m e.1).mult) (zeros 0 0)) r.cobInv (e.2.getD (d % e.2.length) 0)
          (d / e.2.length % (K.cg n m e.1).mult) p q y
      | none => 0) L
    refine this.symm.trans (Finset.sum_congr rfl fun d hd => ?_)
    obtain ⟨e, d', hloc⟩ := locate_some (count K n m) L d (Finset.mem_range.1 hd)
    rw [hco, hv1 d (Finset.mem_range.1 hd) e d' hloc, hloc]
  -- the inverse change of basis
  have hinv : ∀ a < r.size, ∀ z < r.size, ∑ y ∈ Finset.range r.size, r.cobInv.get a y * r.cob.get y z = if a = z then 1 else 0 := by
    intro a ha z hz
    have i1 : mul r.cobInv r.cob ≈ eye r.size := hr.inv.2.2.2.2
    have := i1.2.2 a z (by rw [mul_rows, hr.inv_rows]; exact ha) (by rw [mul_cols, hr.cob_cols]; exact hz)
    rw [← hr.inv_cols]
    exact this
  have key : ∀ e ∈ L, ∀ t < e.2.length, ∀ u < (K.endo e.1).length * (K.cg n m e.1).mult, v1 e (u * e.2.length + t) = 0 := by
    intro e he t ht
    obtain ⟨hjm, he2, -⟩ := hmemL e he
    obtain ⟨k, hk, hkt⟩ := hget e he t ht
    obtain ⟨hs, hpos⟩ := hE e.1 (hr.ok _ (List.mem_of_getElem? hk))
    refine WE.coeff_indep K hcg (hcomm ▸ hjm) hs hpos (fun u => v1 e (u * e.2.length + t)) fun p hp q hq o ho => ?_
    set z := e.2.getD t 0 + o with hz
    have hzlt : z < r.size := by rw [hz, hkt, ← hr.size]; exact chanOffset_lt hk ho
    have h2 : ∑ y ∈ Finset.range r.size, (L.map fun e => ∑ d ∈ Finset.range (count K n m e), v1 e d *
      coeff (K.T.size e.1) (K.cg n m e.1) ((K.endo e.1).getD (d / e.2.length / (K.cg n m e.1).mult) (zeros 0 0)) r.cobInv (e.2.getD (d % e.2.length) 0) (d / e.2.length % (K.cg n m e.1).mult) p q y).sum * r.cob.get y z = 0 :=
      Finset.sum_eq_zero fun y hy => by rw [h1 p hp q hq y (Finset.mem_range.1 hy), zero_mul]
    refine Eq.trans ?_ h2
    -- the contribution of one copy
    have hone : ∀ e' ∈ L, ∀ t' < e'.2.length, ∀ c : ℕ → ℝ, ∑ y ∈ Finset.range r.size, (∑ o' ∈ Finset.range (K.T.size e'.1), c o' * r.cobInv.get (e'.2.getD t' 0 + o') y) * r.cob.get y z =
        if e' = e ∧ t' = t then c o else 0 := by
      intro e' he' t' ht' c
      obtain ⟨k', hk', hkt'⟩ := hget e' he' t' ht'
      simp only [Finset.sum_mul]
      rw [Finset.sum_comm]
      have h3 : ∀ o' ∈ Finset.range (K.T.size e'.1), ∑ y ∈ Finset.range r.size, c o' * r.cobInv.get (e'.2.getD t' 0 + o') y * r.cob.get y z = c o' * if e'.2.getD t' 0 + o' = z then 1 else 0 := by
        intro o' ho'
        rw [← hinv _ (by rw [hkt', ← hr.size]; exact chanOffset_lt hk' (Finset.mem_range.1 ho')) z hzlt, Finset.mul_sum]
        exact Finset.sum_congr rfl fun _ _ => by ring
      rw [Finset.sum_congr rfl h3]
      split_ifs with h
      · obtain ⟨rfl, rfl⟩ := h
        rw [Finset.sum_eq_single o (fun o' _ hne => by rw [if_neg (by omega), mul_zero]) (fun h => absurd (Finset.mem_range.2 ho) h), if_pos rfl, mul_one]
      · refine Finset.sum_eq_zero fun o' ho' => ?_
        rw [if_neg, mul_zero]
        intro heq
        rw [hz, hkt, hkt'] at heq
        obtain ⟨hkk, hoo⟩ := TensorRep.chanOffset_inj (sz := K.T.size) hk' hk (Finset.mem_range.1 ho') ho heq
        subst hkk
        have h4 : e'.1 = e.1 := Option.some.inj (hk'.symm.trans hk)
        have h5 : e' = e := Prod.ext h4 (by rw [(hmemL e' he').2.1, he2, h4])
        subst h5
        refine h ⟨rfl, ?_⟩
        have hnd2 : e'.2.Nodup := he2 ▸ idPos_nodup K.T.size e'.1 hpos r.irreps 0
        rw [List.getD_eq_getElem _ _ ht'] at hkt'
        rw [List.getD_eq_getElem _ _ ht] at hkt
        exact (hnd2.getElem_inj_iff).1 (hkt'.trans hkt.symm)
    have hsw : ∀ (L' : List (J' × List ℕ)) (f : (J' × List ℕ) → ℕ → ℝ), ∑ y ∈ Finset.range r.size, (L'.map fun e => f e y).sum * r.cob.get y z = (L'.map fun e => ∑ y ∈ Finset.range r.size, f e y * r.cob.get y z).sum := by
      intro L' f
      induction L' with
      | nil => simp
      | cons a L' ih =>
        simp only [List.map_cons, List.sum_cons, add_mul, Finset.sum_add_distrib]
        rw [ih]
    rw [hsw]
    have hterm : ∀ e' ∈ L, ∑ y ∈ Finset.range r.size, (∑ d ∈ Finset.range (count K n m e'), v1 e' d *
        coeff (K.T.size e'.1) (K.cg n m e'.1) ((K.endo e'.1).getD (d / e'.2.length / (K.cg n m e'.1).mult) (zeros 0 0)) r.cobInv (e'.2.getD (d % e'.2.length) 0) (d / e'.2.length % (K.cg n m e'.1).mult) p q y) * r.cob.get y z =
        ∑ u ∈ Finset.range ((K.endo e'.1).length * (K.cg n m e'.1).mult), ∑ t' ∈ Finset.range e'.2.length, if e' = e ∧ t' = t then
          v1 e' (u * e'.2.length + t') * WE.coeff (K.T.size e'.1) (K.cg n m e'.1) ((K.endo e'.1).getD (u / (K.cg n m e'.1).mult) (zeros 0 0)) (u % (K.cg n m e'.1).mult) p q o else 0 := by
      intro e' he'
      have a1 := sum_range_mul' ((K.endo e'.1).length * (K.cg n m e'.1).mult) e'.2.length fun u t' => if e' = e ∧ t' = t then
          v1 e' (u * e'.2.length + t') * WE.coeff (K.T.size e'.1) (K.cg n m e'.1) ((K.endo e'.1).getD (u / (K.cg n m e'.1).mult) (zeros 0 0)) (u % (K.cg n m e'.1).mult) p q o else 0
      rw [← a1]
      simp only [Finset.sum_mul]
      rw [Finset.sum_comm]
      refine Finset.sum_congr rfl fun d hd => ?_
      have hlen : 0 < e'.2.length := (hmemL e' he').2.2
      have := hone e' he' (d % e'.2.length) (Nat.mod_lt _ hlen) fun o' => v1 e' d * WE.coeff (K.T.size e'.1) (K.cg n m e'.1) ((K.endo e'.1).getD (d / e'.2.length / (K.cg n m e'.1).mult) (zeros 0 0))
        (d / e'.2.length % (K.cg n m e'.1).mult) p q o'
      rw [Nat.div_add_mod']
      refine Eq.trans (Finset.sum_congr rfl fun y _ => ?_) this
      rw [coeff_eq, Finset.mul_sum]
      congr 1
      exact Finset.sum_congr rfl fun _ _ => by ring
    rw [List.map_congr_left hterm, sum_map_single Prod.fst _ hkeys he fun e' he' hne => Finset.sum_eq_zero fun u _ => Finset.sum_eq_zero fun t' _ => if_neg fun h => hne (by rw [h.1])]
    refine Finset.sum_congr rfl fun u _ => ?_
    rw [Finset.sum_eq_single t (fun t' _ hne => if_neg fun h => hne h.2) (fun h => absurd (Finset.mem_range.2 ht) h), if_pos ⟨rfl, rfl⟩]
  intro d hd
  obtain ⟨e, d', hloc⟩ := locate_some (count K n m) L d hd
  obtain ⟨he, hd', -⟩ := locate_mem (count K n m) L d e d' hloc
  rw [hv1 d hd e d' hloc]
  have hlen : 0 < e.2.length := (hmemL e he).2.2
  have := key e he (d' % e.2.length) (Nat.mod_lt _ hlen) (d' / e.2.length) (Nat.div_lt_of_lt_mul (by rw [Nat.mul_comm]; exact hd'))
  rwa [Nat.div_add_mod'] at this

/-- The bases for restricted filters are independent. -/
theorem init_indep {El : H → Prop} (K : KGroup H J') (F : FBasis J P A) (Gsize : J → ℕ) (res : J → Rep H J') {m n : J'} (hcg : CGLaw El K.T.ok K.T.size K.T.mat K.tensor K.cg n m)
    (hcomm : K.tensor m n = K.tensor n m) (hE : ∀ j, K.T.ok j = true → (K.typ j).sizeOk (K.T.size j) ∧ 0 < K.T.size j) (hF : (F.js.map Prod.fst).Nodup)
    (hres : ∀ e ∈ F.js, (res e.1).WF K.T El ∧ (res e.1).size = Gsize e.1) : GenIndep K.T m n (init K F Gsize res m n) := by
  intro b hb j _ w hw
  have hbeq := init_inv hb
  set R := fun j => if F.mult j = 0 then [] else restriction K.T.size ((K.tensor m n).map Prod.fst) (res j) with hR
  set js := (F.js.map Prod.fst).dedup.filter fun j => 0 < (R j).length with hjs
  set cnt := fun j => ((R j).map (count K n m)).sum with hcnt
  have hbd : b.dimH j = if j ∈ js then F.mult j * cnt j else 0 := by rw [hbeq]
  have hbb : b.block j = block (Gsize j) (coeffs K n m (res j).cobInv (R j)) (F.mult j) := by rw [hbeq]
  intro e he
  have hj : j ∈ js := by
    by_contra h
    rw [hbd, if_neg h] at he
    omega
  rw [if_pos hj, Nat.mul_comm] at hbd
  rw [hbd] at hw he
  have hmpos : 0 < F.mult j := by
    rcases Nat.eq_zero_or_pos (F.mult j) with h | h
    · rw [h, mul_zero] at he; omega
    · exact h
  rw [hbb] at hw
  obtain ⟨h1, h2⟩ := hres _ (FBasis.mem_of_mult hmpos)
  have hRj : R j = restriction K.T.size ((K.tensor m n).map Prod.fst) (res j) := if_neg (by omega)
  have key : ∀ t < F.mult j, ∀ d < cnt j, w (d * F.mult j + t) = 0 := by
    intro t ht
    rw [hcnt]
    simp only [hRj]
    refine coeffs_indep K hcg hcomm hE h1 (v := fun d => w (d * F.mult j + t)) fun p hp q hq y hy => ?_
    refine Eq.trans ?_ (hw (fun t' y' => if t' = t ∧ y' = y then 1 else 0) p hp q hq)
    rw [hcnt]
    simp only [hRj]
    unfold block
    have e1 := sum_range_mul' ((restriction K.T.size ((K.tensor m n).map Prod.fst) (res j)).map (count K n m)).sum (F.mult j) fun d t' => w (d * F.mult j + t') *
      ∑ y' ∈ Finset.range (Gsize j), coeffs K n m (res j).cobInv (restriction K.T.size ((K.tensor m n).map Prod.fst) (res j)) d p q y' * if t' = t ∧ y' = y then 1 else 0
    have e2 : ∀ u, u / F.mult j * F.mult j + u % F.mult j = u := fun u => Nat.div_add_mod' u (F.mult j)
    simp only [e2] at e1
    rw [e1]
    refine Finset.sum_congr rfl fun u _ => ?_
    rw [Finset.sum_eq_single t (fun t' _ hne => by
        rw [Finset.sum_eq_zero, mul_zero]
        intro o' _
        rw [if_neg (fun h => hne h.1), mul_zero]) (fun h => absurd (Finset.mem_range.2 ht) h),
      Finset.sum_eq_single y (fun o' _ hne => by rw [if_neg (fun h => hne h.2), mul_zero]) (fun h => absurd (Finset.mem_range.2 (h2 ▸ hy)) h), if_pos ⟨rfl, rfl⟩, mul_one]
  have := key (e % F.mult j) (Nat.mod_lt _ hmpos) (e / F.mult j) (Nat.div_lt_of_lt_mul ((Nat.mul_comm _ _).symm ▸ he))
  rwa [Nat.div_add_mod'] at this

end RWE

end Escnn
