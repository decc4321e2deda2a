import Verif.Lemmas.SteerableBasis
import Verif.Props.C35_WignerEckart
import Verif.Props.C36_RestrictedWE

/-!
# C38: the kernels of a SteerableKernelBasis are steerable
-/

namespace Escnn

open NpMat

namespace SKB

variable {G H J J' P A : Type} [DecidableEq J]

/-- What the generator of the irrep bases must provide for a pair of irreps: nothing (`EmptyBasisException`), or a basis of the right shape
of steerable combinations of harmonics. -/
def GenGood {G' : Type} (El : G' → Prop) (Fsize : J → ℕ) (mat : J → G' → NpMat ℝ) (T : IrrepTable G' J') (F : FBasis J P A) (i o : J') (r : Except Err (IBasis J J' A)) : Prop :=
  r = .error .emptyBasis ∨ ∃ b, r = .ok b ∧ b.rows = T.size o ∧ b.cols = T.size i ∧ (∀ j ∈ b.js, j ∈ F.js.map Prod.fst) ∧ b.Good El Fsize mat (T.mat i) (T.mat o) F

variable {G' : Type} {El : G' → Prop} {Fsize : J → ℕ} {mat : J → G' → NpMat ℝ} {T : IrrepTable G' J'} {F : FBasis J P A} {gen : J' → J' → Except Err (IBasis J J' A)}
  {rin rout : Rep G' J'} {triv : J} {op : G' → G' → G'} {one : G'}

/-- The object built by the constructor. -/
theorem init_spec (hgen : ∀ i ∈ rin.irreps, ∀ o ∈ rout.irreps, GenGood El Fsize mat T F i o (gen i o)) (hF : (F.js.map Prod.fst).Nodup) :
    (init T.size triv F gen rin rout = .error .emptyBasis ∧ ∀ i ∈ rin.irreps, ∀ o ∈ rout.irreps, gen i o = .error .emptyBasis) ∨
    ∃ s, init T.size triv F gen rin rout = .ok s ∧ 0 < s.dim ∧ s.rows = rout.size ∧ s.cols = rin.size ∧ s.Ainv = rin.cobInv ∧ s.B = rout.cob ∧
      s.dim = (rin.irreps.map fun i => (rout.irreps.map fun o => genW IBasis.dim (gen i o)).sum).sum ∧
      s.dim = (s.js.map s.dimH).sum ∧ s.js.Nodup ∧ s.dimH = dimHarm s.cells ∧ s.slices = slicesLoop (fun _ => 0) s.cells ∧
      (∀ j, j ∈ s.js ↔ ∃ c ∈ s.cells, j ∈ c.basis.js) ∧ (triv ∈ s.js → s.js.head? = some triv) ∧ (s.cells.map fun c => (c.ii, c.oo)).Nodup ∧
      (∀ (k : ℕ) i (l : ℕ) o b, rin.irreps[k]? = some i → rout.irreps[l]? = some o → gen i o = .ok b → ∃ c ∈ s.cells, c.ii = k ∧ c.oo = l) ∧
      ∀ c ∈ s.cells, ∃ i o, rin.irreps[c.ii]? = some i ∧ rout.irreps[c.oo]? = some o ∧ gen i o = .ok c.basis ∧ c.iSize = T.size i ∧ c.oSize = T.size o ∧
        c.iPos = chanOffset T.size rin.irreps c.ii ∧ c.oPos = chanOffset T.size rout.irreps c.oo ∧
        c.basis.rows = T.size o ∧ c.basis.cols = T.size i ∧ (∀ j ∈ c.basis.js, j ∈ F.js.map Prod.fst) ∧ c.basis.Good El Fsize mat (T.mat i) (T.mat o) F := by
  have htot : GenTotal gen rin.irreps rout.irreps := fun i hi o ho => by
    rcases hgen i hi o ho with h | ⟨b, h, -⟩
    · exact .inl h
    · exact .inr ⟨b, h⟩
  obtain ⟨cs, h1, h2, h3, h4, h5⟩ := cellsIn_spec T.size gen rout.irreps rin.irreps 0 0 htot
  have hcell : ∀ c ∈ cs, ∃ i o, rin.irreps[c.ii]? = some i ∧ rout.irreps[c.oo]? = some o ∧ gen i o = .ok c.basis ∧ c.iSize = T.size i ∧ c.oSize = T.size o ∧
      c.iPos = chanOffset T.size rin.irreps c.ii ∧ c.oPos = chanOffset T.size rout.irreps c.oo ∧
      c.basis.rows = T.size o ∧ c.basis.cols = T.size i ∧ (∀ j ∈ c.basis.js, j ∈ F.js.map Prod.fst) ∧ c.basis.Good El Fsize mat (T.mat i) (T.mat o) F := by
    intro c hc
    obtain ⟨k, i, o, e, e1, e2, e3, e4, e5, e6, e7⟩ := h2 c hc
    rw [zero_add] at e e6
    subst e
    rcases hgen i (List.mem_of_getElem? e1) o (List.mem_of_getElem? e2) with h | ⟨b, h, hb⟩
    · rw [h] at e3; simp at e3
    · obtain rfl : b = c.basis := by rw [h] at e3; exact Except.ok.inj e3
      exact ⟨i, o, e1, e2, e3, e4, e5, e6, e7, hb⟩
  rw [init, h1]
  simp only [bind, Except.bind]
  by_cases hd : (cs.map fun c => c.basis.dim).sum = 0
  · refine .inl ⟨by rw [if_pos hd], fun i hi o ho => ?_⟩
    rcases hgen i hi o ho with h | ⟨b, h, -⟩
    · exact h
    · exfalso
      obtain ⟨k, hk⟩ := List.mem_iff_getElem?.1 hi
      obtain ⟨l, hl⟩ := List.mem_iff_getElem?.1 ho
      obtain ⟨c, hc, -⟩ := h3 k i l o b hk hl h
      obtain ⟨i', o', -, -, -, -, -, -, -, -, -, -, hG⟩ := hcell c hc
      have := hG.pos
      have := List.sum_eq_zero_iff.1 hd _ (List.mem_map.2 ⟨c, hc, rfl⟩)
      omega
  · refine .inr ⟨_, by rw [if_neg hd], Nat.pos_of_ne_zero hd, rfl, rfl, rfl, rfl, h5 IBasis.dim, ?_, ?_, rfl, rfl, fun j => ?_, fun ht => ?_, h4, ?_, hcell⟩
    · have hp := orderJs_perm triv ((F.js.map Prod.fst).filter fun j => cs.any fun c => decide (j ∈ c.basis.js))
      show _ = ((orderJs triv _).map (dimHarm cs)).sum
      rw [(hp.map _).sum_eq]
      refine (sum_dimHarm _ (hF.filter _) cs fun c hc => ?_).symm
      obtain ⟨i', o', -, -, -, -, -, -, -, -, -, hsub, hG⟩ := hcell c hc
      refine ⟨hG.nodup, hG.dim, fun j hj => List.mem_filter.2 ⟨hsub j hj, ?_⟩⟩
      exact List.any_eq_true.2 ⟨c, hc, by simpa using hj⟩
    · exact (orderJs_perm triv _).nodup_iff.2 (hF.filter _)
    · show j ∈ orderJs triv _ ↔ _
      rw [(orderJs_perm triv _).mem_iff, List.mem_filter, List.any_eq_true]
      constructor
      · rintro ⟨-, c, hc, hj⟩
        exact ⟨c, hc, by simpa using hj⟩
      · rintro ⟨c, hc, hj⟩
        obtain ⟨i', o', -, -, -, -, -, -, -, -, -, hsub, -⟩ := hcell c hc
        exact ⟨hsub j hj, c, hc, by simpa using hj⟩
    · have ht' := (orderJs_perm triv _).mem_iff.1 ht
      show (orderJs triv _).head? = _
      rw [orderJs, if_pos ht']; rfl
    · intro k i l o b hk hl hb
      obtain ⟨c, hc, e, e'⟩ := h3 k i l o b hk hl hb
      exact ⟨c, hc, by omega, e'⟩

/-- The matrix of an element before the change of basis: zero outside of the rows and columns of its pair of irreps. -/
def placed (c : Cell J J' A) (rows cols : ℕ) (k : ℕ → ℕ → ℝ) : NpMat ℝ := ⟨rows, cols, fun o i => if Inside c o i then k (o - c.oPos) (i - c.iPos) else 0⟩

/-- The kernel of an element: the pair of irreps which contains it is filled by the element of the irrep basis. -/
theorem sample_spec {s : SKB J J' A} (hF : (F.js.map Prod.fst).Nodup) (hdim : s.dim = (s.js.map s.dimH).sum) (hdH : s.dimH = dimHarm s.cells)
    (hsl : s.slices = slicesLoop (fun _ => 0) s.cells) (hn : ∀ c ∈ s.cells, c.basis.js.Nodup ∧ ∀ j ∈ c.basis.js, 0 < F.mult j) {e : ℕ} (he : e < s.dim) :
    ∃ j b c b', IBasis.locate s.dimH s.js e = some (j, b) ∧ IBasis.locate (cw j) s.cells b = some (c, b') ∧ c ∈ s.cells ∧ j ∈ c.basis.js ∧ b' < c.basis.dimH j ∧ j ∈ s.js ∧
      ∀ x, ∃ Y, dictGet (F.asDict Fsize x) j = .ok Y ∧ sample Fsize F s x e = .ok (cobApply s.Ainv s.B (placed c s.rows s.cols (c.basis.block j Y b'))) := by
  obtain ⟨j, b, hloc, hj, hb, -⟩ := IBasis.locate_spec s.dimH s.js 0 e (hdim ▸ he)
  have hb' : b < (s.cells.map (cw j)).sum := by rw [hdH] at hb; exact hb
  obtain ⟨c, b', hloc'⟩ := locate_some (cw j) s.cells b hb'
  obtain ⟨hc, hb'', -⟩ := locate_mem (cw j) s.cells b c b' hloc'
  have hjc : j ∈ c.basis.js := by
    by_contra h
    rw [cw, if_neg h] at hb''
    omega
  rw [cw, if_pos hjc] at hb''
  refine ⟨j, b, c, b', hloc, hloc', hc, hjc, hb'', hj, fun x => ?_⟩
  have hget : ∀ c ∈ s.cells, ∀ j ∈ c.basis.js, dictGet (F.asDict Fsize x) j = .ok ((dictGet (F.asDict Fsize x) j).toOption.getD fun _ _ => 0) := by
    intro c hc j hj
    obtain ⟨k, hk⟩ := List.mem_iff_getElem?.1 (FBasis.mem_of_mult ((hn c hc).2 j hj))
    rw [FBasis.asDict_get Fsize hF hk]; rfl
  obtain ⟨out, h1, -, h3⟩ := directSum_spec (F.asDict Fsize x) (fun j => (dictGet (F.asDict Fsize x) j).toOption.getD fun _ _ => 0) s.cells (fun _ => 0) (fun _ _ _ _ => 0)
    (fun c hc => (hn c hc).1) hget
  refine ⟨_, hget c hc j hjc, ?_⟩
  rw [sample, hsl, h1]
  simp only [bind, Except.bind]
  rw [entry_eq _ _ _ _ hloc]
  simp only
  congr 2
  rw [placed]
  congr 1
  funext o i
  have := h3 j b c b' hloc' o i
  rw [zero_add] at this
  exact this

/-- A block of steering coefficients placed at a pair of irreps is steerable for the direct sums. -/
theorem placed_steer {c : Cell J J' A} {i o : J'} {L M : List J'} {ρ : J' → NpMat ℝ} {size : J' → ℕ} (hL : ∀ r ∈ L, (ρ r).rows = size r ∧ (ρ r).cols = size r)
    (hM : ∀ r ∈ M, (ρ r).rows = size r ∧ (ρ r).cols = size r) (hi : L[c.ii]? = some i) (ho : M[c.oo]? = some o) (his : c.iSize = size i) (hos : c.oSize = size o)
    (hip : c.iPos = chanOffset size L c.ii) (hop : c.oPos = chanOffset size M c.oo) {k k' : ℕ → ℕ → ℝ}
    (hk : ∀ p < size o, ∀ q < size i, ∑ q' ∈ Finset.range (size i), k' p q' * (ρ i).get q' q = ∑ p' ∈ Finset.range (size o), (ρ o).get p p' * k p' q) :
    mul (placed c (M.map size).sum (L.map size).sum k') (blockDiag (L.map ρ)) ≈ mul (blockDiag (M.map ρ)) (placed c (M.map size).sum (L.map size).sum k) := by
  obtain ⟨hLr, hLc⟩ := blockDiag_map_size hL
  obtain ⟨hMr, hMc⟩ := blockDiag_map_size hM
  refine ⟨hMr.symm, hLc.trans rfl, fun a b ha hb => ?_⟩
  change a < (M.map size).sum at ha
  rw [mul_cols, hLc] at hb
  obtain ⟨kk, r, y, hkk, hy, rfl⟩ := exists_field ha
  obtain ⟨ll, t, z, hll, hz, rfl⟩ := exists_field hb
  show ∑ q ∈ Finset.range (L.map size).sum, (placed c _ _ k').get _ q * (blockDiag (L.map ρ)).get q _ = ∑ p ∈ Finset.range (blockDiag (M.map ρ)).cols, _ * (placed c _ _ k).get p _
  rw [hMc, blockDiag_col hL hll hz, blockDiag_row hM hkk hy (fun p => (placed c (M.map size).sum (L.map size).sum k).get p (chanOffset size L ll + z))]
  have hdisj : ∀ {N : List J'} {k1 k2 : ℕ} {r1 r2 : J'} {y : ℕ}, N[k1]? = some r1 → N[k2]? = some r2 → y < size r1 → k1 ≠ k2 →
      ¬ (chanOffset size N k2 ≤ chanOffset size N k1 + y ∧ chanOffset size N k1 + y < chanOffset size N k2 + size r2) := by
    rintro N k1 k2 r1 r2 y e1 e2 hy hne ⟨g1, g2⟩
    have s1 := chanOffset_succ (sz := size) e1
    have s2 := chanOffset_succ (sz := size) e2
    rcases Nat.lt_or_gt_of_ne hne with h | h
    · have := chanOffset_mono (sz := size) N (show k1 + 1 ≤ k2 from h); omega
    · have := chanOffset_mono (sz := size) N (show k2 + 1 ≤ k1 from h); omega
  by_cases h : kk = c.oo ∧ ll = c.ii
  · obtain ⟨rfl, rfl⟩ := h
    obtain rfl : r = o := by rw [hkk] at ho; exact Option.some.inj ho
    obtain rfl : t = i := by rw [hll] at hi; exact Option.some.inj hi
    refine Eq.trans (Finset.sum_congr rfl fun q hq => ?_) ((hk y hy z hz).trans (Finset.sum_congr rfl fun p hp => ?_))
    · rw [Finset.mem_range] at hq
      simp only [placed]
      rw [if_pos ⟨⟨by omega, by omega⟩, by omega, by omega⟩, hop, hip, Nat.add_sub_cancel_left, Nat.add_sub_cancel_left]
    · rw [Finset.mem_range] at hp
      simp only [placed]
      rw [if_pos ⟨⟨by omega, by omega⟩, by omega, by omega⟩, hop, hip, Nat.add_sub_cancel_left, Nat.add_sub_cancel_left]
  · rw [Finset.sum_eq_zero, Finset.sum_eq_zero]
    · intro p hp
      rw [Finset.mem_range] at hp
      simp only [placed]
      rw [if_neg, mul_zero]
      rintro ⟨g1, g2⟩
      rw [hop, hos] at g1
      rw [hip, his] at g2
      rcases not_and_or.1 h with h | h
      · exact hdisj hkk ho hp h g1
      · exact hdisj hll hi hz h g2
    · intro q hq
      rw [Finset.mem_range] at hq
      simp only [placed]
      rw [if_neg, zero_mul]
      rintro ⟨g1, g2⟩
      rw [hop, hos] at g1
      rw [hip, his] at g2
      rcases not_and_or.1 h with h | h
      · exact hdisj hkk ho hy h g1
      · exact hdisj hll hi hq h g2

/-- The change of basis of a steerable kernel for the direct sums. -/
theorem cob_steer {r t : Rep G' J'} (hT : T.Valid El op one) (hr : r.WF T El) (ht : t.WF T El) {g : G'} (hg : El g) {k k' : NpMat ℝ}
    (hk : k.rows = t.size ∧ k.cols = r.size) (hk' : k'.rows = t.size ∧ k'.cols = r.size)
    (h : mul k' (blockDiag (r.irreps.map fun i => T.mat i g)) ≈ mul (blockDiag (t.irreps.map fun i => T.mat i g)) k) :
    mul (cobApply r.cobInv t.cob k') (r.mat g) ≈ mul (t.mat g) (cobApply r.cobInv t.cob k) := by
  have e1 : cobApply r.cobInv t.cob k ≈ mul (mul t.cob k) r.cobInv := cobApply_eqv (by rw [ht.cob_cols, ht.cob_rows]) (by rw [hr.inv_rows, hr.inv_cols]) (by rw [ht.cob_cols, hk.1]) (by rw [hr.inv_rows, hk.2])
  have e2 : cobApply r.cobInv t.cob k' ≈ mul (mul t.cob k') r.cobInv := cobApply_eqv (by rw [ht.cob_cols, ht.cob_rows]) (by rw [hr.inv_rows, hr.inv_cols]) (by rw [ht.cob_cols, hk'.1]) (by rw [hr.inv_rows, hk'.2])
  set D := blockDiag (r.irreps.map fun i => T.mat i g) with hD
  set D' := blockDiag (t.irreps.map fun i => T.mat i g) with hD'
  have hDr : D.rows = r.size := (irrepsBlock_rows hT hr.ok hg).trans hr.size
  have hDc : D.cols = r.size := (irrepsBlock_cols hT hr.ok hg).trans hr.size
  have hDr' : D'.rows = t.size := (irrepsBlock_rows hT ht.ok hg).trans ht.size
  have hDc' : D'.cols = t.size := (irrepsBlock_cols hT ht.ok hg).trans ht.size
  have i1 : mul r.cobInv r.cob ≈ eye r.size := hr.inv.2.2.2.2
  have i2 : mul t.cobInv t.cob ≈ eye t.size := ht.inv.2.2.2.2
  -- left side
  have l : mul (cobApply r.cobInv t.cob k') (r.mat g) ≈ mul (mul t.cob (mul k' D)) r.cobInv := by
    refine (mul_congr e2 (hr.mat g hg) (by rw [e2.2.1, mul_cols, hr.inv_cols, hr.rows hg])).trans ?_
    refine (mul_assoc' _ _ _).trans ?_
    have : mul r.cobInv (mul (mul r.cob D) r.cobInv) ≈ mul D r.cobInv := by
      refine (mul_assoc' _ _ _).symm.trans (mul_congr_left _ ?_ (by rw [mul_cols, mul_cols, hDc, hr.inv_rows]))
      exact (mul_assoc' _ _ _).symm.trans ((mul_congr_left D i1 (by rw [mul_cols, hr.cob_cols, hDr])).trans (eye_mul' D hDr))
    refine (mul_congr_right _ this (by rw [mul_cols, mul_rows, hk'.2, hr.inv_rows])).trans ?_
    exact (mul_assoc' _ _ _).symm.trans (mul_congr_left _ (mul_assoc' _ _ _) (by rw [mul_cols, hDc, hr.inv_rows]))
  have rr : mul (t.mat g) (cobApply r.cobInv t.cob k) ≈ mul (mul t.cob (mul D' k)) r.cobInv := by
    refine (mul_congr (ht.mat g hg) e1 (by rw [ht.cols hg, e1.1]; rfl)).trans ?_
    refine (mul_assoc' _ _ _).trans ?_
    have : mul t.cobInv (mul (mul t.cob k) r.cobInv) ≈ mul k r.cobInv := by
      refine (mul_assoc' _ _ _).symm.trans (mul_congr_left _ ?_ (by rw [mul_cols, mul_cols, hk.2, hr.inv_rows]))
      exact (mul_assoc' _ _ _).symm.trans ((mul_congr_left k i2 (by rw [mul_cols, ht.cob_cols, hk.1])).trans (eye_mul' k hk.1))
    refine (mul_congr_right _ this (by rw [mul_cols, mul_rows, hDc', ht.inv_rows])).trans ?_
    exact (mul_assoc' _ _ _).symm.trans (mul_congr_left _ (mul_assoc' _ _ _) (by rw [mul_cols, hk.2, hr.inv_rows]))
  refine l.trans (Eqv.trans ?_ rr.symm)
  exact mul_congr_left _ (mul_congr_right _ h (by rw [mul_rows, ht.cob_cols, hk'.1])) (by rw [mul_cols, mul_cols, hDc, hr.inv_rows])

/-- The kernels are steerable, for every generator of steerable irrep bases. -/
theorem sample_steerable {act : G' → P → P} (hT : T.Valid El op one) (hin : rin.WF T El) (hout : rout.WF T El)
    (hgen : ∀ i ∈ rin.irreps, ∀ o ∈ rout.irreps, GenGood El Fsize mat T F i o (gen i o)) (hF : (F.js.map Prod.fst).Nodup)
    (hst : F.Steerable Fsize mat El act) (hm : ∀ e ∈ F.js, ∀ g, El g → (mat e.1 g).rows = Fsize e.1 ∧ (mat e.1 g).cols = Fsize e.1)
    {s : SKB J J' A} (hs : init T.size triv F gen rin rout = .ok s) {e : ℕ} (he : e < s.dim) :
    SteerableKernel El act rin.mat rout.mat fun x => sample Fsize F s x e := by
  rcases init_spec (triv := triv) hgen hF with ⟨h, -⟩ | ⟨s', hs', -, hrows, hcols, hAi, hB, -, hdim, -, hdH, hsl, -, -, -, -, hcell⟩
  · rw [h] at hs; simp at hs
  obtain rfl : s' = s := Except.ok.inj (hs'.symm.trans hs)
  obtain ⟨j, b, c, b', -, -, hc, hj, hb', -, hx⟩ := sample_spec (Fsize := Fsize) hF hdim hdH hsl (fun c hc => by
    obtain ⟨i', o', -, -, -, -, -, -, -, -, -, -, hG⟩ := hcell c hc
    exact ⟨hG.nodup, hG.mult⟩) he
  obtain ⟨i, o, e1, e2, e3, e4, e5, e6, e7, -, -, -, hG⟩ := hcell c hc
  obtain ⟨C, a, ha, hblk, hC⟩ := hG.coeff j hj b' hb'
  obtain ⟨k, hk⟩ := List.mem_iff_getElem?.1 (FBasis.mem_of_mult (hG.mult j hj))
  have hiok : T.ok i = true := hin.ok i (List.mem_of_getElem? e1)
  have hook : T.ok o = true := hout.ok o (List.mem_of_getElem? e2)
  have hY : ∀ x Y, dictGet (F.asDict Fsize x) j = .ok Y → Y a = fun c => F.sample x (((F.js.take k).map fun e => Fsize e.1 * e.2).sum + (a * Fsize j + c)) := by
    intro x Y h
    rw [FBasis.asDict_get Fsize hF hk] at h
    obtain rfl := Except.ok.inj h
    rfl
  intro x
  obtain ⟨Y, hYx, hsx⟩ := hx x
  refine ⟨_, hsx, fun g hg => ?_⟩
  obtain ⟨Y', hYx', hsx'⟩ := hx (act g x)
  rw [hAi, hB, hrows, hcols] at hsx hsx' ⊢
  have hcob := fun K (hK : K.rows = rout.size ∧ K.cols = rin.size) => cobApply_eqv (Ainv := rin.cobInv) (B := rout.cob) (K := K) (by rw [hout.cob_cols, hout.cob_rows]) (by rw [hin.inv_rows, hin.inv_cols])
    (by rw [hout.cob_cols, hK.1]) (by rw [hin.inv_rows, hK.2])
  refine ⟨?_, ?_, _, hsx', ?_⟩
  · rw [(hcob (placed c rout.size rin.size _) ⟨rfl, rfl⟩).1, hout.rows hg]; rfl
  · rw [(hcob (placed c rout.size rin.size _) ⟨rfl, rfl⟩).2.1, mul_cols, hin.inv_cols, hin.rows hg]
  · refine cob_steer hT hin hout hg ⟨rfl, rfl⟩ ⟨rfl, rfl⟩ ?_
    rw [← hin.size, ← hout.size]
    refine placed_steer (fun r hr => ⟨(hT r (hin.ok r hr)).rows g hg, (hT r (hin.ok r hr)).cols g hg⟩) (fun r hr => ⟨(hT r (hout.ok r hr)).rows g hg, (hT r (hout.ok r hr)).cols g hg⟩)
      e1 e2 e4 e5 e6 e7 fun p hp q hq => ?_
    have hmj := hm _ (FBasis.mem_of_mult (hG.mult j hj)) g hg
    have := hC g hg (Y a) (Y' a) (fun y hy => by
      rw [hmj.1] at hy
      rw [hmj.2, hY x Y hYx, hY (act g x) Y' hYx']
      exact hst g hg x k j _ hk a ha y hy) p (by rw [(hT o hook).rows g hg]; exact hp) q (by rw [(hT i hiok).cols g hg]; exact hq)
    simp only [hblk]
    rw [(hT i hiok).rows g hg, (hT o hook).cols g hg, hmj.1] at this
    exact this

/-- **C38** for any generator of steerable irrep bases: the constructor fails with `EmptyBasisException` only if there is no kernel for any pair
of irreps; otherwise the dimension is the sum over the pairs of irreps, the harmonics share it, every element of a harmonic belongs to exactly
one slice, and every kernel is steerable for the two representations. -/
theorem C38_steerable_kernel_basis {act : G' → P → P} (hT : T.Valid El op one) (hin : rin.WF T El) (hout : rout.WF T El)
    (hgen : ∀ i ∈ rin.irreps, ∀ o ∈ rout.irreps, GenGood El Fsize mat T F i o (gen i o)) (hF : (F.js.map Prod.fst).Nodup)
    (hst : F.Steerable Fsize mat El act) (hm : ∀ e ∈ F.js, ∀ g, El g → (mat e.1 g).rows = Fsize e.1 ∧ (mat e.1 g).cols = Fsize e.1) :
    (init T.size triv F gen rin rout = .error .emptyBasis ∧ ∀ i ∈ rin.irreps, ∀ o ∈ rout.irreps, gen i o = .error .emptyBasis) ∨
    ∃ s, init T.size triv F gen rin rout = .ok s ∧ 0 < s.dim ∧ s.rows = rout.size ∧ s.cols = rin.size ∧
      s.dim = (rin.irreps.map fun i => (rout.irreps.map fun o => match gen i o with | .ok b => b.dim | .error _ => 0).sum).sum ∧
      s.dim = (s.js.map s.dimH).sum ∧ s.js.Nodup ∧ (triv ∈ s.js → s.js.head? = some triv) ∧
      (∀ j b, b < s.dimH j ↔ ∃ p ∈ s.slices, ∃ t ∈ p.2, t.1 = j ∧ t.2.1 ≤ b ∧ b < t.2.2) ∧
      (∀ (k k' : ℕ) p p' t t' b, s.slices[k]? = some p → s.slices[k']? = some p' → t ∈ p.2 → t' ∈ p'.2 → t.1 = t'.1 → t.2.1 ≤ b → b < t.2.2 → t'.2.1 ≤ b → b < t'.2.2 →
        k = k' ∧ t = t') ∧
      ∀ e < s.dim, SteerableKernel El act rin.mat rout.mat fun x => sample Fsize F s x e := by
  rcases init_spec (triv := triv) hgen hF with h | ⟨s, hs, hpos, hrows, hcols, -, -, hd1, hdim, hnd, hdH, hsl, -, htriv, -, -, hcell⟩
  · exact .inl h
  have hn : ∀ c ∈ s.cells, c.basis.js.Nodup := fun c hc => by
    obtain ⟨i', o', -, -, -, -, -, -, -, -, -, -, hG⟩ := hcell c hc
    exact hG.nodup
  have hsplit : ∀ k c, s.cells[k]? = some c → ∀ j, dimHarm (s.cells.take (k + 1)) j = dimHarm (s.cells.take k) j + cw j c := by
    intro k c hk j
    obtain ⟨hlt, rfl⟩ := List.getElem?_eq_some_iff.1 hk
    rw [dimHarm, List.take_succ_eq_append_getElem hlt, List.map_append, List.sum_append]
    simp [dimHarm, cw]
  have hmono : ∀ k k', k ≤ k' → ∀ j, dimHarm (s.cells.take k) j ≤ dimHarm (s.cells.take k') j := by
    intro k k' h j
    have := List.take_append_drop k (s.cells.take k')
    rw [List.take_take, min_eq_left h] at this
    rw [← this, dimHarm, dimHarm, List.map_append, List.sum_append]
    omega
  have hslice : ∀ k p t, s.slices[k]? = some p → t ∈ p.2 → ∃ c, s.cells[k]? = some c ∧ t.1 ∈ c.basis.js ∧ t = (t.1, dimHarm (s.cells.take k) t.1, dimHarm (s.cells.take k) t.1 + c.basis.dimH t.1) := by
    intro k p t hk ht
    have hlt : k < s.cells.length := by
      rw [← slicesLoop_length s.cells (fun _ => 0), ← hsl]
      exact (List.getElem?_eq_some_iff.1 hk).1
    have hc := List.getElem?_eq_getElem hlt
    rw [hsl, slicesLoop_get s.cells _ hn k _ hc] at hk
    obtain rfl := Option.some.inj hk
    obtain ⟨j, hj, rfl⟩ := List.mem_map.1 ht
    exact ⟨_, hc, hj, by simp⟩
  refine .inr ⟨s, hs, hpos, hrows, hcols, ?_, hdim, hnd, htriv, fun j b => ?_, ?_, fun e he => sample_steerable hT hin hout hgen hF hst hm hs he⟩
  · rw [hd1]
    simp only [genW]
    rfl
  · rw [hdH]
    constructor
    · intro hb
      obtain ⟨c, b', hloc⟩ := locate_some (cw j) s.cells b hb
      have key : ∀ (cs : List (Cell J J' A)) (b : ℕ), IBasis.locate (cw j) cs b = some (c, b') → ∃ k, cs[k]? = some c ∧ dimHarm (cs.take k) j + b' = b ∧ b' < cw j c := by
        intro cs
        induction cs with
        | nil => intro b h; simp [IBasis.locate] at h
        | cons c0 cs ih =>
          intro b h
          rw [IBasis.locate] at h
          split_ifs at h with hlt
          · obtain ⟨rfl, rfl⟩ := Prod.mk.inj (Option.some.inj h)
            exact ⟨0, rfl, by simp [dimHarm], hlt⟩
          · obtain ⟨k, h1, h2, h3⟩ := ih _ h
            refine ⟨k + 1, by simpa using h1, ?_, h3⟩
            rw [List.take_succ_cons, dimHarm, List.map_cons, List.sum_cons]
            have : (if j ∈ c0.basis.js then c0.basis.dimH j else 0) = cw j c0 := rfl
            rw [this]
            rw [dimHarm] at h2
            omega
      obtain ⟨k, hk, hsum, hlt⟩ := key s.cells b hloc
      have hj : j ∈ c.basis.js := by
        by_contra h
        rw [cw, if_neg h] at hlt
        omega
      rw [cw, if_pos hj] at hlt
      have hget := slicesLoop_get s.cells (fun _ => 0) hn k c hk
      rw [← hsl] at hget
      refine ⟨_, List.mem_of_getElem? hget, _, List.mem_map.2 ⟨j, hj, rfl⟩, rfl, ?_, ?_⟩
      · simp only; omega
      · simp only; omega
    · rintro ⟨p, hp, t, ht, rfl, h1, h2⟩
      obtain ⟨k, hk⟩ := List.mem_iff_getElem?.1 hp
      obtain ⟨c, hc, hj, e⟩ := hslice k p t hk ht
      rw [e] at h2
      have h3 := hsplit k c hc t.1
      rw [cw, if_pos hj] at h3
      have h4 := hmono (k + 1) s.cells.length (Nat.succ_le_of_lt (List.getElem?_eq_some_iff.1 hc).1) t.1
      rw [List.take_length] at h4
      simp only at h2
      omega
  · intro k k' p p' t t' b hk hk' ht ht' hj h1 h2 h3 h4
    obtain ⟨c, hc, hjc, e⟩ := hslice k p t hk ht
    obtain ⟨c', hc', hjc', e'⟩ := hslice k' p' t' hk' ht'
    have s1 := hsplit k c hc t.1
    have s2 := hsplit k' c' hc' t'.1
    rw [cw, if_pos hjc] at s1
    rw [cw, if_pos hjc'] at s2
    rw [e] at h1 h2
    rw [e'] at h3 h4
    simp only at h1 h2 h3 h4
    rw [← hj] at h3 h4 s2
    have hkk : k = k' := by
      rcases Nat.lt_trichotomy k k' with h | h | h
      · have := hmono (k + 1) k' h t.1; omega
      · exact h
      · have := hmono (k' + 1) k h t.1; omega
    subst hkk
    obtain rfl : c = c' := by rw [hc] at hc'; exact Option.some.inj hc'
    exact ⟨rfl, by rw [e, e', hj]⟩

/-- **C38** for `WignerEckartBasis`: the group `K` steers the filters. -/
theorem C38_wigner_eckart {act : G' → P → P} (K : KGroup G' J) (F : FBasis J P A) (rin rout : Rep G' J) (triv : J) (hT : K.T.Valid El op one) (hE : EndoValid K.T K.typ El)
    (hin : rin.WF K.T El) (hout : rout.WF K.T El)
    (hcg : ∀ m ∈ rin.irreps, ∀ n ∈ rout.irreps, ((K.tensor m n).map Prod.fst).Nodup ∧ ∀ p ∈ K.tensor m n, K.T.ok p.1 = true ∧
      (K.cg n m p.1).mult = p.2 ∧ ∀ g, El g → Intertwines (K.T.mat n g) (K.T.mat m g) (K.T.mat p.1 g) (K.cg n m p.1))
    (hF : (F.js.map Prod.fst).Nodup) (hFok : ∀ e ∈ F.js, K.T.ok e.1 = true) (hst : F.Steerable K.T.size K.T.mat El act) :
    (init K.T.size triv F (WE.init K F) rin rout = .error .emptyBasis ∧ ∀ m ∈ rin.irreps, ∀ n ∈ rout.irreps, WE.init K F m n = .error .emptyBasis) ∨
    ∃ s, init K.T.size triv F (WE.init K F) rin rout = .ok s ∧ s.rows = rout.size ∧ s.cols = rin.size ∧
      s.dim = (rin.irreps.map fun m => (rout.irreps.map fun n => ((K.tensor m n).map fun e => F.mult e.1 * e.2 * (K.typ e.1).sumsq).sum).sum).sum ∧
      ∀ e < s.dim, SteerableKernel El act rin.mat rout.mat fun x => sample K.T.size F s x e := by
  have hws : ∀ m ∈ rin.irreps, ∀ n ∈ rout.irreps, _ := fun m hm n hn => WE.init_spec K F m n hT hE (hin.ok m hm) (fun p hp => ((hcg m hm n hn).2 p hp).1) (hcg m hm n hn).1
    (fun p hp => ((hcg m hm n hn).2 p hp).2) hF
  have hgen : ∀ m ∈ rin.irreps, ∀ n ∈ rout.irreps, GenGood El K.T.size K.T.mat K.T F m n (WE.init K F m n) := by
    intro m hm n hn
    rcases hws m hm n hn with h | ⟨b, hb, -, hr, hc, -, hG⟩
    · exact .inl h.1
    · exact .inr ⟨b, hb, hr, hc, fun j hj => List.mem_map.2 ⟨_, FBasis.mem_of_mult (hG.mult j hj), rfl⟩, hG⟩
  rcases C38_steerable_kernel_basis (triv := triv) hT hin hout hgen hF hst (fun e he g hg => ⟨(hT e.1 (hFok e he)).rows g hg, (hT e.1 (hFok e he)).cols g hg⟩) with
    h | ⟨s, hs, -, hr, hc, hd, -, -, -, -, -, h⟩
  · exact .inl h
  · refine .inr ⟨s, hs, hr, hc, ?_, h⟩
    rw [hd]
    refine congrArg _ (List.map_congr_left fun m hm => congrArg _ (List.map_congr_left fun n hn => ?_))
    rcases hws m hm n hn with h | ⟨b, hb, hbd, -⟩
    · rw [h.1, h.2]
    · rw [hb]; exact hbd

/-- **C38** for SO(2). -/
theorem C38_so2 {act : ℝ → P → P} (F : FBasis ℕ P A) (rin rout : Rep ℝ ℕ) (hin : rin.WF SO2.table SO2.IsElement) (hout : rout.WF SO2.table SO2.IsElement)
    (hF : (F.js.map Prod.fst).Nodup) (hst : F.Steerable SO2.irrepSize SO2.irrepMat SO2.IsElement act) :
    init SO2.irrepSize 0 F (WE.init SO2.kgroup F) rin rout = .error .emptyBasis ∨
    ∃ s, init SO2.irrepSize 0 F (WE.init SO2.kgroup F) rin rout = .ok s ∧ s.rows = rout.size ∧ s.cols = rin.size ∧
      s.dim = (rin.irreps.map fun m => (rout.irreps.map fun n => ((SO2.tensorIrreps m n).map fun e => F.mult e.1 * e.2 * (SO2.irrepType e.1).sumsq).sum).sum).sum ∧
      ∀ e < s.dim, SteerableKernel SO2.IsElement act rin.mat rout.mat fun x => sample SO2.irrepSize F s x e := by
  classical
  rcases C38_wigner_eckart SO2.kgroup F rin rout 0 SO2.table_valid SO2.C18_so2 hin hout
    (fun m _ n _ => ⟨SO2.tensor_nodup m n, fun p hp => ⟨rfl, SO2.kgroup_cg m n p hp⟩⟩) hF (fun _ _ => rfl) hst with h | h
  · exact .inl h.1
  · exact .inr h

/-- **C38** for the cyclic groups. -/
theorem C38_cyclic (N : ℕ) (hN : 0 < N) {act : ℤ → P → P} (F : FBasis ℕ P A) (rin rout : Rep ℤ ℕ) (hin : rin.WF (Cyclic.table N) fun g => Cyclic.isElement N g = true)
    (hout : rout.WF (Cyclic.table N) fun g => Cyclic.isElement N g = true)
    (hF : (F.js.map Prod.fst).Nodup) (hFok : ∀ e ∈ F.js, e.1 ≤ N / 2) (hst : F.Steerable (Cyclic.irrepSize N) (Cyclic.irrepMat N) (fun g => Cyclic.isElement N g = true) act) :
    init (Cyclic.irrepSize N) 0 F (WE.init (Cyclic.kgroup N) F) rin rout = .error .emptyBasis ∨
    ∃ s, init (Cyclic.irrepSize N) 0 F (WE.init (Cyclic.kgroup N) F) rin rout = .ok s ∧ s.rows = rout.size ∧ s.cols = rin.size ∧
      s.dim = (rin.irreps.map fun m => (rout.irreps.map fun n => ((Cyclic.tensorIrreps N m n).map fun e => F.mult e.1 * e.2 * (Cyclic.irrepType N e.1).sumsq).sum).sum).sum ∧
      ∀ e < s.dim, SteerableKernel (fun g => Cyclic.isElement N g = true) act rin.mat rout.mat fun x => sample (Cyclic.irrepSize N) F s x e := by
  classical
  have hle : ∀ {r : Rep ℤ ℕ}, r.WF (Cyclic.table N) (fun g => Cyclic.isElement N g = true) → ∀ m ∈ r.irreps, m ≤ N / 2 := fun hr m hm => of_decide_eq_true (hr.ok m hm)
  rcases C38_wigner_eckart (Cyclic.kgroup N) F rin rout 0 (Cyclic.table_valid N hN) (Cyclic.C18_cyclic N hN).1 hin hout
    (fun m hm n hn => ⟨Cyclic.tensor_nodup N m n (hle hin m hm) (hle hout n hn), Cyclic.kgroup_cg N hN m n (hle hin m hm) (hle hout n hn)⟩) hF
    (fun e he => decide_eq_true (hFok e he)) hst with h | h
  · exact .inl h.1
  · exact .inr h

/-- **C38** for `RestrictedWignerEckartBasis`: filters steerable under a larger group with irreps `TG`. -/
theorem C38_restricted [DecidableEq J'] {G : Type} {TG : IrrepTable G J} {ElG : G → Prop} {act : G → P → P} (K : KGroup G' J') (F : FBasis J P A) (res : J → Rep G' J')
    (parent : G' → Except Err G) (actH : G' → P → P) (rin rout : Rep G' J') (triv : J) (hT : K.T.Valid El op one) (hE : EndoValid K.T K.typ El)
    (hin : rin.WF K.T El) (hout : rout.WF K.T El)
    (hcg : ∀ m ∈ rin.irreps, ∀ n ∈ rout.irreps, ∀ p ∈ K.tensor m n, K.T.ok p.1 = true ∧
      ∀ g, El g → Intertwines (K.T.mat n g) (K.T.mat m g) (K.T.mat p.1 g) (K.cg n m p.1))
    (hF : (F.js.map Prod.fst).Nodup) (hst : F.Steerable TG.size TG.mat ElG act)
    (hpar : ∀ h, El h → ∃ g, parent h = .ok g ∧ ElG g ∧ actH h = act g)
    (hres : ∀ e ∈ F.js, (res e.1).WF K.T El ∧ (res e.1).size = TG.size e.1 ∧ ∀ h g, El h → parent h = .ok g → (res e.1).mat h ≈ TG.mat e.1 g) :
    (init K.T.size triv F (RWE.init K F TG.size res) rin rout = .error .emptyBasis ∧
      ∀ m ∈ rin.irreps, ∀ n ∈ rout.irreps, RWE.init K F TG.size res m n = .error .emptyBasis) ∨
    ∃ s, init K.T.size triv F (RWE.init K F TG.size res) rin rout = .ok s ∧ s.rows = rout.size ∧ s.cols = rin.size ∧
      s.dim = (rin.irreps.map fun m => (rout.irreps.map fun n =>
        (F.js.map fun e => e.2 * ((K.tensor m n).map fun p => (res e.1).irreps.count p.1 * (K.cg n m p.1).mult * (K.typ p.1).sumsq).sum).sum).sum).sum ∧
      ∀ e < s.dim, SteerableKernel El actH rin.mat rout.mat fun x => sample TG.size F s x e := by
  have hws : ∀ m ∈ rin.irreps, ∀ n ∈ rout.irreps, _ := fun m hm n hn => RWE.init_spec K F TG.size res m n hT hE (hin.ok m hm) (fun p hp => (hcg m hm n hn p hp).1)
    (fun p hp => (hcg m hm n hn p hp).2) hF (fun e he => ⟨(hres e he).1, (hres e he).2.1⟩)
  have hgen : ∀ m ∈ rin.irreps, ∀ n ∈ rout.irreps, GenGood El TG.size (fun j h => (res j).mat h) K.T F m n (RWE.init K F TG.size res m n) := by
    intro m hm n hn
    rcases hws m hm n hn with h | ⟨b, hb, -, hr, hc, hsub, hG⟩
    · exact .inl h.1
    · exact .inr ⟨b, hb, hr, hc, hsub, hG⟩
  have hst' := RWE.Steerable.restrict (matH := fun j h => (res j).mat h) hst hpar fun e he h g hh hg =>
      ⟨(hres e he).2.2 h g hh hg, ((hres e he).1.rows hh).trans (hres e he).2.1, ((hres e he).1.cols hh).trans (hres e he).2.1⟩
  rcases C38_steerable_kernel_basis (triv := triv) hT hin hout hgen hF hst' (fun e he g hg => ⟨((hres e he).1.rows hg).trans (hres e he).2.1, ((hres e he).1.cols hg).trans (hres e he).2.1⟩) with
    h | ⟨s, hs, -, hr, hc, hd, -, -, -, -, -, h⟩
  · exact .inl h
  · refine .inr ⟨s, hs, hr, hc, ?_, h⟩
    rw [hd]
    refine congrArg _ (List.map_congr_left fun m hm => congrArg _ (List.map_congr_left fun n hn => ?_))
    rcases hws m hm n hn with h | ⟨b, hb, hbd, -⟩
    · rw [h.1, h.2]
    · rw [hb]; exact hbd

/-- A representation `2 (ψ₁ ⊕ ψ₀) ½` of SO(2). -/
noncomputable def demoRep : Rep ℝ ℕ :=
  let B : NpMat ℝ := ⟨3, 3, fun i j => if i + j = 2 then 2 else 0⟩
  let Bi : NpMat ℝ := ⟨3, 3, fun i j => if i + j = 2 then 1 / 2 else 0⟩
  ⟨"", [1, 0], B, Bi, fun g => mul (mul B (blockDiag ([1, 0].map fun i => SO2.irrepMat i g))) Bi, ∅⟩

theorem demoRep_wf : demoRep.WF SO2.table SO2.IsElement := by
  refine ⟨by decide, ⟨rfl, rfl, rfl, ⟨rfl, rfl, fun i j hi hj => ?_⟩, ⟨rfl, rfl, fun i j hi hj => ?_⟩⟩, fun _ _ => rfl, rfl, fun g _ => Eqv.refl _⟩
  · change i < 3 at hi
    change j < 3 at hj
    show ∑ k ∈ Finset.range 3, (if i + k = 2 then (2 : ℝ) else 0) * (if k + j = 2 then 1 / 2 else 0) = if i = j then 1 else 0
    interval_cases i <;> interval_cases j <;> simp [Finset.sum_range_succ]
  · change i < 3 at hi
    change j < 3 at hj
    show ∑ k ∈ Finset.range 3, (if i + k = 2 then (1 / 2 : ℝ) else 0) * (if k + j = 2 then 2 else 0) = if i = j then 1 else 0
    interval_cases i <;> interval_cases j <;> simp [Finset.sum_range_succ]

/-- Ten kernels for the filters `1, 1, cos θ, sin θ`: four from `ψ₁` to itself, two each between `ψ₁` and the trivial irrep, and two from
the trivial irrep to itself. -/
example : ∃ s, init SO2.irrepSize 0 WE.demoF (WE.init SO2.kgroup WE.demoF) demoRep demoRep = .ok s ∧ s.rows = 3 ∧ s.cols = 3 ∧ s.dim = 10 ∧
    ∀ e < 10, SteerableKernel SO2.IsElement (fun g x => g + x) demoRep.mat demoRep.mat fun x => sample SO2.irrepSize WE.demoF s x e := by
  classical
  rcases C38_wigner_eckart SO2.kgroup WE.demoF demoRep demoRep 0 SO2.table_valid SO2.C18_so2 demoRep_wf demoRep_wf
    (fun m _ n _ => ⟨SO2.tensor_nodup m n, fun p hp => ⟨rfl, SO2.kgroup_cg m n p hp⟩⟩) (by decide) (fun _ _ => rfl) WE.demo_steerable with h | ⟨s, hs, hr, hc, hd, h⟩
  · exfalso
    rcases WE.C35_so2 WE.demoF (fun g x => g + x) 1 1 (by decide) WE.demo_steerable with h' | ⟨b, hb, -⟩
    · exact absurd h'.2 (by decide)
    · rw [h.2 1 (by simp [demoRep]) 1 (by simp [demoRep])] at hb
      simp at hb
  · have : s.dim = 10 := hd.trans (by decide)
    exact ⟨s, hs, hr, hc, this, fun e he => h e (this ▸ he)⟩

end SKB

end Escnn
