import Verif.Lemmas.CompleteRWE

/-!
# The elements of the kernel bases are linearly independent
-/

namespace Escnn

open NpMat

/-- The weights of the elements, block by block. -/
theorem exists_decode {α : Type} (w : α → ℕ) {L : List α} (hL : L.Nodup) (f : ℕ → ℝ) : ∃ f' : α → ℕ → ℝ, ∀ e < (L.map w).sum, ∀ r o, IBasis.locate w L e = some (r, o) → f e = f' r o := by
  classical
  refine ⟨fun r o => f (chanOffset w L (L.idxOf r) + o), fun e he r o h => ?_⟩
  obtain ⟨k, r', o', hk, ho', rfl⟩ := exists_field he
  rw [locate_off w hk ho'] at h
  obtain ⟨rfl, rfl⟩ := Prod.mk.inj (Option.some.inj h)
  obtain ⟨hlt, hkk⟩ := List.getElem?_eq_some_iff.1 hk
  have : L.idxOf r' = k := by rw [← hkk]; exact hL.idxOf_getElem k hlt
  simp only [this]

variable {G J J' P A G' : Type} [DecidableEq J] [DecidableEq J']

/-- What the basis of one block has to offer to be independent: no combination of the elements of one harmonic vanishes for all values of the harmonic. -/
def GenIndep {G' : Type} (T : IrrepTable G' J') (i o : J') (r : Except Err (IBasis J J' A)) : Prop :=
  ∀ b, r = .ok b → ∀ j ∈ b.js, ∀ w : ℕ → ℝ, (∀ Y : ℕ → ℕ → ℝ, ∀ p < T.size o, ∀ q < T.size i, ∑ e ∈ Finset.range (b.dimH j), w e * b.block j Y e p q = 0) → ∀ e < b.dimH j, w e = 0

namespace SKB

variable {El : G' → Prop} {op : G' → G' → G'} {one : G'} {T : IrrepTable G' J'} {Fsize : J → ℕ} {mat : J → G' → NpMat ℝ} {F : FBasis J P A} {gen : J' → J' → Except Err (IBasis J J' A)}
  {rin rout : Rep G' J'} {triv : J}

/-- The kernel basis of two representations is independent if those of the irreps and the filters are. -/
theorem independent (hin : rin.WF T El) (hout : rout.WF T El)
    (hgen : ∀ i ∈ rin.irreps, ∀ o ∈ rout.irreps, GenGood El Fsize mat T F i o (gen i o)) (hindep : ∀ i ∈ rin.irreps, ∀ o ∈ rout.irreps, GenIndep T i o (gen i o))
    (hF : (F.js.map Prod.fst).Nodup) (hind : F.Independent Fsize) {s : SKB J J' A} (hs : init T.size triv F gen rin rout = .ok s) {w : ℕ → ℝ}
    (hw : ∀ x, ∀ K : ℕ → NpMat ℝ, (∀ e < s.dim, sample Fsize F s x e = .ok (K e)) → ∀ p < rout.size, ∀ q < rin.size, ∑ e ∈ Finset.range s.dim, w e * (K e).get p q = 0) :
    ∀ e < s.dim, w e = 0 := by
  rcases init_spec (triv := triv) hgen hF with ⟨hem, -⟩ | ⟨s', hs', -, hrows, hcols, hAi, hB, -, hdim, hsnd, hdH, hsl, hsjs, -, hcnd, -, hcell⟩
  · rw [hem] at hs; simp at hs
  obtain rfl : s' = s := Except.ok.inj (hs'.symm.trans hs)
  have hcd : s'.cells.Nodup := List.Nodup.of_map _ hcnd
  obtain ⟨w1, hw1⟩ := exists_decode s'.dimH hsnd w
  have hw2 := fun j => exists_decode (cw j) hcd (w1 j)
  choose w2 hw2 using hw2
  -- the elements in the bases of the irreps
  have hzero : ∀ x, ∀ P < rout.size, ∀ Q < rin.size, (s'.js.map fun j => (s'.cells.map fun d => ∑ b ∈ Finset.range (cw j d), w2 j d b *
      (placed d rout.size rin.size (d.basis.block j (fun t y => F.sample x (F.index Fsize j t y)) b)).get P Q).sum).sum = 0 := by
    intro x
    have hsp : ∀ e, ∃ M K : NpMat ℝ, e < s'.dim → M.rows = rout.size ∧ M.cols = rin.size ∧ sample Fsize F s' x e = .ok K ∧ K ≈ mul (mul rout.cob M) rin.cobInv ∧
        ∃ j b d b', IBasis.locate s'.dimH s'.js e = some (j, b) ∧ IBasis.locate (cw j) s'.cells b = some (d, b') ∧ b < s'.dimH j ∧
          M = placed d rout.size rin.size (d.basis.block j (fun t y => F.sample x (F.index Fsize j t y)) b') := by
      intro e
      by_cases he : e < s'.dim
      · obtain ⟨j, b, d, b', h1, h2, hd, hj, -, -, hx⟩ := sample_spec (Fsize := Fsize) hF hdim hdH hsl (fun c hc => by
          obtain ⟨i', o', -, -, -, -, -, -, -, -, -, -, hG⟩ := hcell c hc
          exact ⟨hG.nodup, hG.mult⟩) he
        obtain ⟨i', o', -, -, -, -, -, -, -, -, -, -, hG⟩ := hcell d hd
        obtain ⟨Y, hY, hsx⟩ := hx x
        rw [FBasis.asDict_get Fsize hF (FBasis.getElem_idxOf (hG.mult j hj) hF)] at hY
        obtain rfl := Except.ok.inj hY
        rw [hAi, hB, hrows, hcols] at hsx
        have hbl := (locate_mem s'.dimH s'.js e j b h1).2.1
        refine ⟨placed d rout.size rin.size (d.basis.block j (fun t y => F.sample x (F.index Fsize j t y)) b'), _, fun _ => ⟨rfl, rfl, hsx, ?_, j, b, d, b', h1, h2, hbl, rfl⟩⟩
        exact cobApply_eqv (Ainv := rin.cobInv) (B := rout.cob) (by rw [hout.cob_cols, hout.cob_rows]) (by rw [hin.inv_rows, hin.inv_cols]) (by rw [hout.cob_cols]; rfl) (by rw [hin.inv_rows]; rfl)
      · exact ⟨zeros 0 0, zeros 0 0, fun h => absurd h he⟩
    choose M K hMK using hsp
    have hK := hw x K fun e he => (hMK e he).2.2.1
    -- the combination before the change of basis
    set S : NpMat ℝ := ⟨rout.size, rin.size, fun P Q => ∑ e ∈ Finset.range s'.dim, w e * (M e).get P Q⟩ with hS
    have hS0 : mul (mul rout.cob S) rin.cobInv ≈ zeros rout.size rin.size := by
      refine ⟨hout.cob_rows, hin.inv_cols, fun p q hp hq => ?_⟩
      rw [mul_rows, mul_rows, hout.cob_rows] at hp
      rw [mul_cols, hin.inv_cols] at hq
      refine Eq.trans ?_ (hK p hp q hq)
      have h1 : ∀ e ∈ Finset.range s'.dim, w e * (K e).get p q = w e * ∑ Q ∈ Finset.range rin.size, (∑ P ∈ Finset.range rout.size, rout.cob.get p P * (M e).get P Q) * rin.cobInv.get Q q := by
        intro e he
        obtain ⟨m1, m2, -, m4, -⟩ := hMK e (Finset.mem_range.1 he)
        rw [m4.2.2 p q (by rw [m4.1, mul_rows, mul_rows, hout.cob_rows]; exact hp) (by rw [m4.2.1, mul_cols, hin.inv_cols]; exact hq)]
        simp only [mul]
        rw [m2, hout.cob_cols]
      rw [Finset.sum_congr rfl h1]
      simp only [mul, hS]
      rw [hout.cob_cols]
      simp only [Finset.mul_sum, Finset.sum_mul]
      rw [Finset.sum_comm (s := Finset.range s'.dim)]
      refine Finset.sum_congr rfl fun Q _ => ?_
      rw [Finset.sum_comm (s := Finset.range s'.dim)]
      exact Finset.sum_congr rfl fun P _ => Finset.sum_congr rfl fun e _ => by ring
    have hSz : S ≈ zeros rout.size rin.size := by
      have i1 : mul rin.cobInv rin.cob ≈ eye rin.size := hin.inv.2.2.2.2
      have i2 : mul rout.cobInv rout.cob ≈ eye rout.size := hout.inv.2.2.2.2
      have e1 : mul rout.cobInv (mul (mul (mul rout.cob S) rin.cobInv) rin.cob) ≈ S := by
        have a1 : mul (mul (mul rout.cob S) rin.cobInv) rin.cob ≈ mul rout.cob S :=
          (mul_assoc' _ _ _).trans ((mul_congr_right _ i1 (by rw [mul_cols, mul_rows, hin.inv_rows])).trans (mul_eye' _ rfl))
        refine (mul_congr_right _ a1 (by rw [mul_rows, mul_rows, mul_rows, hout.cob_rows, hout.inv_cols])).trans ?_
        exact (mul_assoc' _ _ _).symm.trans ((mul_congr_left _ i2 (by rw [mul_cols, hout.cob_cols])).trans (eye_mul' _ rfl))
      refine e1.symm.trans ⟨hout.inv_rows, hin.cob_cols, fun p q hp hq => ?_⟩
      simp only [mul]
      refine Finset.sum_eq_zero fun a ha => ?_
      rw [Finset.sum_eq_zero, mul_zero]
      intro b hb
      have hz := hS0.2.2 a b (by rw [mul_rows, mul_rows, hout.cob_rows, ← hout.inv_cols]; exact Finset.mem_range.1 ha) (Finset.mem_range.1 hb)
      simp only [mul] at hz
      rw [hz]
      exact zero_mul _
    intro P hP Q hQ
    refine Eq.trans ?_ (hSz.2.2 P Q hP hQ)
    change _ = ∑ e ∈ Finset.range s'.dim, w e * (M e).get P Q
    set V : Option (J × ℕ) → ℝ := fun r => match r with
      | some (j, b) => w1 j b * (match IBasis.locate (cw j) s'.cells b with
        | some (d, b') => (placed d rout.size rin.size (d.basis.block j (fun t y => F.sample x (F.index Fsize j t y)) b')).get P Q
        | none => 0)
      | none => 0 with hV
    have hterm : ∀ e ∈ Finset.range s'.dim, w e * (M e).get P Q = V (IBasis.locate s'.dimH s'.js e) := by
      intro e he
      rw [Finset.mem_range] at he
      obtain ⟨-, -, -, -, j, b, d, b', h1, h2, -, h4⟩ := hMK e he
      rw [hV, h1]
      simp only
      rw [h2, h4, hw1 e (hdim ▸ he) j b h1]
    rw [Finset.sum_congr rfl hterm, hdim, sum_locate]
    refine congrArg List.sum (List.map_congr_left fun j _ => ?_)
    have h2 : ∀ b ∈ Finset.range (s'.dimH j), V (some (j, b)) = (fun r : Option (Cell J J' A × ℕ) => match r with
        | some (d, b') => w2 j d b' * (placed d rout.size rin.size (d.basis.block j (fun t y => F.sample x (F.index Fsize j t y)) b')).get P Q
        | none => 0) (IBasis.locate (cw j) s'.cells b) := by
      intro b hb
      rw [Finset.mem_range, hdH] at hb
      obtain ⟨d, b', hloc⟩ := locate_some (cw j) s'.cells b hb
      simp only [hV, hloc]
      rw [hw2 j b hb d b' hloc]
    rw [Finset.sum_congr rfl h2, hdH]
    have := sum_locate (cw j) (fun r : Option (Cell J J' A × ℕ) => match r with
        | some (d, b') => w2 j d b' * (placed d rout.size rin.size (d.basis.block j (fun t y => F.sample x (F.index Fsize j t y)) b')).get P Q
        | none => 0) s'.cells
    exact this.symm
  -- every cell
  have hmain : ∀ j, ∀ d ∈ s'.cells, ∀ b < cw j d, w2 j d b = 0 := by
    intro j d hd b hb
    obtain ⟨i, o, e1, e2, e3, e4, e5, e6, e7, -, -, hsub, hG⟩ := hcell d hd
    have hjd : j ∈ d.basis.js := by
      by_contra h
      rw [cw, if_neg h] at hb
      omega
    have hcw : ∀ j ∈ d.basis.js, cw j d = d.basis.dimH j := fun j h => by rw [cw, if_pos h]
    -- the coefficients of the filters
    have hC : ∀ j b, ∃ C : ℕ → ℕ → ℕ → ℝ, ∃ t, b < cw j d → t < F.mult j ∧ ∀ Y p q, d.basis.block j Y b p q = ∑ y ∈ Finset.range (Fsize j), C p q y * Y t y := by
      intro j b
      by_cases h : b < cw j d
      · have hj : j ∈ d.basis.js := by
          by_contra h'
          rw [cw, if_neg h'] at h
          omega
        obtain ⟨C, t, ht, hY, -⟩ := hG.coeff j hj b (by rw [← hcw j hj]; exact h)
        exact ⟨C, t, fun _ => ⟨ht, hY⟩⟩
      · exact ⟨fun _ _ _ => 0, 0, fun h' => absurd h' h⟩
    choose C t hCt using hC
    set D : ℕ → ℕ → J → ℕ → ℕ → ℝ := fun p q j t' y => ∑ b ∈ Finset.range (cw j d), w2 j d b * if t j b = t' then C j b p q y else 0 with hD
    have hsum : ∀ j p q (Y : ℕ → ℕ → ℝ), ∑ b ∈ Finset.range (cw j d), w2 j d b * d.basis.block j Y b p q = ∑ t' ∈ Finset.range (F.mult j), ∑ y ∈ Finset.range (Fsize j), D p q j t' y * Y t' y := by
      intro j p q Y
      simp only [hD, Finset.sum_mul]
      have h1 : ∀ b ∈ Finset.range (cw j d), w2 j d b * d.basis.block j Y b p q = ∑ t' ∈ Finset.range (F.mult j), ∑ y ∈ Finset.range (Fsize j), (w2 j d b * if t j b = t' then C j b p q y else 0) * Y t' y := by
        intro b hb
        obtain ⟨ht, hblk⟩ := hCt j b (Finset.mem_range.1 hb)
        rw [Finset.sum_eq_single (t j b) (fun t' _ hne => Finset.sum_eq_zero fun y _ => by rw [if_neg (Ne.symm hne), mul_zero, zero_mul]) (fun h => absurd (Finset.mem_range.2 ht) h)]
        rw [hblk, Finset.mul_sum]
        exact Finset.sum_congr rfl fun y _ => by rw [if_pos rfl, mul_assoc]
      rw [Finset.sum_congr rfl h1, Finset.sum_comm]
      exact Finset.sum_congr rfl fun t' _ => Finset.sum_comm
    have hcellzero : ∀ x, ∀ p < T.size o, ∀ q < T.size i, ∑ j ∈ (F.js.map Prod.fst).toFinset, ∑ t' ∈ Finset.range (F.mult j), ∑ y ∈ Finset.range (Fsize j), D p q j t' y * F.sample x (F.index Fsize j t' y) = 0 := by
      intro x p hp q hq
      have h0 := hzero x (chanOffset T.size rout.irreps d.oo + p) (by rw [← hout.size]; exact chanOffset_lt e2 hp) (chanOffset T.size rin.irreps d.ii + q) (by rw [← hin.size]; exact chanOffset_lt e1 hq)
      refine Eq.trans ?_ h0
      have hinner : ∀ j, (s'.cells.map fun d' => ∑ b ∈ Finset.range (cw j d'), w2 j d' b *
          (placed d' rout.size rin.size (d'.basis.block j (fun t y => F.sample x (F.index Fsize j t y)) b)).get (chanOffset T.size rout.irreps d.oo + p) (chanOffset T.size rin.irreps d.ii + q)).sum =
          ∑ b ∈ Finset.range (cw j d), w2 j d b * d.basis.block j (fun t y => F.sample x (F.index Fsize j t y)) b p q := by
        intro j
        rw [sum_map_single (fun d : Cell J J' A => (d.ii, d.oo)) _ hcnd hd fun d' hd' hne => Finset.sum_eq_zero fun b _ => ?_]
        · refine Finset.sum_congr rfl fun b _ => ?_
          congr 1
          simp only [placed]
          rw [if_pos ⟨⟨by omega, by omega⟩, by omega, by omega⟩]
          congr 1 <;> omega
        · obtain ⟨i', o', f1, f2, -, f4, f5, f6, f7, -⟩ := hcell d' hd'
          simp only [placed]
          rw [if_neg, mul_zero]
          rintro ⟨⟨g1, g2⟩, g3, g4⟩
          refine hne (Prod.ext ?_ ?_)
          · exact (TensorRep.chanOffset_inj (sz := T.size) f1 e1 (o := chanOffset T.size rin.irreps d.ii + q - d'.iPos) (o' := q) (by omega) hq (by omega)).1
          · exact (TensorRep.chanOffset_inj (sz := T.size) f2 e2 (o := chanOffset T.size rout.irreps d.oo + p - d'.oPos) (o' := p) (by omega) hp (by omega)).1
      rw [List.map_congr_left fun j _ => hinner j, ← List.sum_toFinset _ hsnd]
      simp only [hsum]
      symm
      refine Finset.sum_subset (fun j hj => ?_) fun j _ hj => ?_
      · rw [List.mem_toFinset] at hj ⊢
        obtain ⟨d', hd', hjd'⟩ := (hsjs j).1 hj
        obtain ⟨_, _, -, -, -, -, -, -, -, -, -, hsub', -⟩ := hcell d' hd'
        exact hsub' j hjd'
      · rw [List.mem_toFinset] at hj
        rw [← hsum, cw, if_neg fun h => hj ((hsjs j).2 ⟨d, hd, h⟩), Finset.sum_range_zero]
    have hD0 : ∀ p < T.size o, ∀ q < T.size i, ∀ j t' y, t' < F.mult j → y < Fsize j → D p q j t' y = 0 := by
      intro p hp q hq j t' y ht' hy
      have := hind (F.decode Fsize (D p q)) (fun x => ?_) (F.index Fsize j t' y) (FBasis.index_lt hF ht' hy)
      · rw [FBasis.decode_index hF _ ht' hy] at this
        exact this
      · rw [FBasis.sum_total' hF]
        refine Eq.trans (Finset.sum_congr rfl fun j _ => Finset.sum_congr rfl fun t' ht' => Finset.sum_congr rfl fun y hy => ?_) (hcellzero x p hp q hq)
        rw [← FBasis.index, FBasis.decode_index hF _ (Finset.mem_range.1 ht') (Finset.mem_range.1 hy)]
    refine hindep i (List.mem_of_getElem? e1) o (List.mem_of_getElem? e2) d.basis e3 j hjd (w2 j d) (fun Y p hp q hq => ?_) b (by rw [← hcw j hjd]; exact hb)
    rw [← hcw j hjd, hsum]
    exact Finset.sum_eq_zero fun t' ht' => Finset.sum_eq_zero fun y hy => by rw [hD0 p hp q hq j t' y (Finset.mem_range.1 ht') (Finset.mem_range.1 hy), zero_mul]
  intro e he
  obtain ⟨j, b, hloc, -, hb, -⟩ := IBasis.locate_spec s'.dimH s'.js 0 e (hdim ▸ he)
  have hb' : b < (s'.cells.map (cw j)).sum := by rw [hdH] at hb; exact hb
  obtain ⟨d, b', hloc'⟩ := locate_some (cw j) s'.cells b hb'
  obtain ⟨hd, hb'', -⟩ := locate_mem (cw j) s'.cells b d b' hloc'
  rw [hw1 e (hdim ▸ he) j b hloc, hw2 j b hb' d b' hloc']
  exact hmain j d hd b' hb''

end SKB

end Escnn
