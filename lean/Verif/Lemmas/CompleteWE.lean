import Verif.Lemmas.Complete
import Verif.Props.C37_Attributes
import Verif.Props.C38_SteerableKernelBasis

/-!
# The bases of the blocks are complete
-/

namespace Escnn

open NpMat

variable {G J J' P A : Type} [DecidableEq J] [DecidableEq J']

/-- What the basis of one block has to offer to be complete: whenever the coefficient `a j t p q y` of the function `y` of the copy `t` of the harmonic `j` is an equivariant tensor for all `j`, `t`, the
kernel with these coefficients is a combination of the elements; if there is no basis, the kernel vanishes. -/
def GenComplete {G' : Type} (El : G' → Prop) (Fsize : J → ℕ) (mat : J → G' → NpMat ℝ) (T : IrrepTable G' J') (F : FBasis J P A) (i o : J') (r : Except Err (IBasis J J' A)) : Prop :=
  ∀ a : J → ℕ → ℕ → ℕ → ℕ → ℝ, (∀ j t, t < F.mult j → ∀ g, El g → CoeffSteer (T.mat o g) (T.mat i g) (mat j g) (a j t)) →
    (r = .error .emptyBasis → ∀ j t, t < F.mult j → ∀ p < T.size o, ∀ q < T.size i, ∀ y < Fsize j, a j t p q y = 0) ∧
    ∀ b, r = .ok b → ∃ w : J → ℕ → ℝ, ∀ j (Y : ℕ → ℕ → ℝ), ∀ p < T.size o, ∀ q < T.size i,
      ∑ t ∈ Finset.range (F.mult j), ∑ y ∈ Finset.range (Fsize j), a j t p q y * Y t y = ∑ e ∈ Finset.range (b.dimH j), w j e * b.block j Y e p q

namespace WE

/-- The bases of Wigner and Eckart are complete. -/
theorem init_complete {El : G → Prop} {op : G → G → G} {one : G} (K : KGroup G J) (F : FBasis J P A) {m n : J} (hT : K.T.Valid El op one) (hS : CGComplete.Schur K.T K.typ El)
    (hm : K.T.ok m = true) (hn : K.T.ok n = true) (hcg : CGLaw El K.T.ok K.T.size K.T.mat K.tensor K.cg n m) (hcomm : K.tensor m n = K.tensor n m) (hFok : ∀ e ∈ F.js, K.T.ok e.1 = true) :
    GenComplete El K.T.size K.T.mat K.T F m n (init K F m n) := by
  intro a ha
  have hok : ∀ j, 0 < F.mult j → K.T.ok j = true := fun j hj => hFok _ (FBasis.mem_of_mult hj)
  have key : ∀ j t, ∃ w : ℕ → ℕ → ℝ, t < F.mult j → ∀ p < K.T.size n, ∀ q < K.T.size m, ∀ y < K.T.size j,
      a j t p q y = ∑ s ∈ Finset.range ((FType.lookupLast (K.tensor m n) j).getD 0), ∑ k ∈ Finset.range (K.typ j).sumsq,
        w s k * coeff (K.T.size j) (K.cg n m j) ((K.endo j).getD k (zeros 0 0)) s p q y := by
    intro j t
    by_cases ht : t < F.mult j
    · obtain ⟨h1, h2⟩ := CGComplete.tensor_complete hT hS hn hm (hok j (by omega)) hcg (ha j t ht)
      by_cases hj : j ∈ (K.tensor n m).map Prod.fst
      · obtain ⟨M, hM, hmem⟩ := lookupLast_mem hj
        obtain ⟨w, hw⟩ := h2 M hmem
        refine ⟨w, fun _ p hp q hq y hy => ?_⟩
        rw [hcomm, hM, Option.getD_some]
        exact hw p hp q hq y hy
      · refine ⟨fun _ _ => 0, fun _ p hp q hq y hy => ?_⟩
        rw [hcomm, lookupLast_none hj, Option.getD_none, Finset.sum_range_zero]
        exact h1 hj p hp q hq y hy
    · exact ⟨fun _ _ => 0, fun h => absurd h ht⟩
  choose w hw using key
  have hnd : ((K.tensor m n).map Prod.fst).Nodup := hcomm ▸ hcg.nodup
  set js := (K.tensor m n).filter fun e => 0 < F.mult e.1 with hjs
  set dims := js.map fun e => (e.1, F.mult e.1 * e.2 * (K.typ e.1).sumsq) with hdims
  have hjsnd : (js.map Prod.fst).Nodup := hnd.sublist (List.filter_sublist.map _)
  have hd1 : dims.map Prod.fst = js.map Prod.fst := by rw [hdims, List.map_map]; rfl
  have hdimH : ∀ j, 0 < F.mult j → (FType.lookupLast dims j).getD 0 = F.mult j * (FType.lookupLast (K.tensor m n) j).getD 0 * (K.typ j).sumsq := by
    intro j hj
    by_cases hmem : j ∈ (K.tensor m n).map Prod.fst
    · obtain ⟨M, hM, hmem'⟩ := lookupLast_mem hmem
      have h1 : (j, M) ∈ js := List.mem_filter.2 ⟨hmem', by simpa using hj⟩
      have h2 : FType.lookupLast dims j = some (F.mult j * M * (K.typ j).sumsq) := (lookupLast_of_nodup (by rw [hd1]; exact hjsnd)).2 (List.mem_map.2 ⟨_, h1, rfl⟩)
      rw [h2, hM]; rfl
    · have h2 : j ∉ dims.map Prod.fst := fun h => hmem (by rw [hd1] at h; obtain ⟨e, he, rfl⟩ := List.mem_map.1 h; exact List.mem_map.2 ⟨e, (List.mem_filter.1 he).1, rfl⟩)
      rw [lookupLast_none h2, lookupLast_none hmem]; simp
  constructor
  · intro hem j t ht p hp q hq y hy
    rw [hw j t ht p hp q hq y hy]
    have h0 : (dims.map Prod.snd).sum = 0 := by
      by_contra h0
      rw [init, if_neg h0] at hem
      simp only at hem
      split_ifs at hem
      exact absurd (Except.error.inj hem) (by simp)
    have hz : (FType.lookupLast dims j).getD 0 = 0 := by
      by_cases hmem : j ∈ dims.map Prod.fst
      · obtain ⟨v, hv, hmem'⟩ := lookupLast_mem hmem
        rw [hv]
        exact List.sum_eq_zero_iff.1 h0 _ (List.mem_map.2 ⟨_, hmem', rfl⟩)
      · rw [lookupLast_none hmem]; rfl
    rw [hdimH j (by omega)] at hz
    rcases Nat.mul_eq_zero.1 hz with hz | hz
    · rcases Nat.mul_eq_zero.1 hz with hz | hz
      · omega
      · rw [hz, Finset.sum_range_zero]
    · rw [hz]; exact Finset.sum_eq_zero fun _ _ => Finset.sum_range_zero _
  · intro b hb
    obtain ⟨hmul, hbeq⟩ := init_inv hb
    refine ⟨fun j e => w j (e % F.mult j) (e / F.mult j % (K.cg n m j).mult) (e / F.mult j / (K.cg n m j).mult), fun j Y p hp q hq => ?_⟩
    have hbd : b.dimH j = (FType.lookupLast dims j).getD 0 := by rw [hbeq]
    have hbb : b.block j = block K n m j (K.cg n m j).mult (F.mult j) := by rw [hbeq]
    rw [hbd, hbb]
    rcases Nat.eq_zero_or_pos (F.mult j) with h0 | hpos
    · have : j ∉ dims.map Prod.fst := by
        rw [hd1]
        intro h
        obtain ⟨e, he, rfl⟩ := List.mem_map.1 h
        have := (List.mem_filter.1 he).2
        simp [h0] at this
      rw [lookupLast_none this, h0]; rfl
    · have hM : (FType.lookupLast (K.tensor m n) j).getD 0 ≠ 0 → (K.cg n m j).mult = (FType.lookupLast (K.tensor m n) j).getD 0 := by
        intro hne
        by_cases hmem : j ∈ (K.tensor n m).map Prod.fst
        · obtain ⟨M, hM, hmem'⟩ := lookupLast_mem hmem
          rw [hcomm, hM]
          exact hcg.mult _ hmem'
        · rw [hcomm, lookupLast_none hmem] at hne; exact absurd rfl hne
      have hl : ∑ t ∈ Finset.range (F.mult j), ∑ y ∈ Finset.range (K.T.size j), a j t p q y * Y t y =
          ∑ t ∈ Finset.range (F.mult j), ∑ y ∈ Finset.range (K.T.size j), (∑ s ∈ Finset.range ((FType.lookupLast (K.tensor m n) j).getD 0), ∑ k ∈ Finset.range (K.typ j).sumsq,
            w j t s k * coeff (K.T.size j) (K.cg n m j) ((K.endo j).getD k (zeros 0 0)) s p q y) * Y t y :=
        Finset.sum_congr rfl fun t ht => Finset.sum_congr rfl fun y hy => by rw [hw j t (Finset.mem_range.1 ht) p hp q hq y (Finset.mem_range.1 hy)]
      rw [hl, hdimH j hpos]
      by_cases hz : (FType.lookupLast (K.tensor m n) j).getD 0 = 0
      · simp [hz]
      · rw [← hM hz]
        have e1 : F.mult j * (K.cg n m j).mult * (K.typ j).sumsq = (K.typ j).sumsq * (K.cg n m j).mult * F.mult j := by ring
        rw [e1]
        unfold block
        have e2 := sum_range_mul' ((K.typ j).sumsq * (K.cg n m j).mult) (F.mult j) (fun ks t => w j t (ks % (K.cg n m j).mult) (ks / (K.cg n m j).mult) *
          ∑ o ∈ Finset.range (K.T.size j), coeff (K.T.size j) (K.cg n m j) ((K.endo j).getD (ks / (K.cg n m j).mult) (zeros 0 0)) (ks % (K.cg n m j).mult) p q o * Y t o)
        rw [e2]
        have e3 := sum_range_mul' (K.typ j).sumsq (K.cg n m j).mult (fun k s => ∑ t ∈ Finset.range (F.mult j), w j t s k *
          ∑ o ∈ Finset.range (K.T.size j), coeff (K.T.size j) (K.cg n m j) ((K.endo j).getD k (zeros 0 0)) s p q o * Y t o)
        rw [e3]
        simp only [Finset.sum_mul, Finset.mul_sum]
        -- bring the sums in the same order
        rw [Finset.sum_comm (s := Finset.range (K.typ j).sumsq)]
        have e4 : ∀ s k, ∑ t ∈ Finset.range (F.mult j), ∑ o ∈ Finset.range (K.T.size j), w j t s k * (coeff (K.T.size j) (K.cg n m j) ((K.endo j).getD k (zeros 0 0)) s p q o * Y t o) =
            ∑ t ∈ Finset.range (F.mult j), ∑ o ∈ Finset.range (K.T.size j), w j t s k * coeff (K.T.size j) (K.cg n m j) ((K.endo j).getD k (zeros 0 0)) s p q o * Y t o := fun s k =>
          Finset.sum_congr rfl fun _ _ => Finset.sum_congr rfl fun _ _ => (mul_assoc _ _ _).symm
        simp only [e4]
        calc _ = ∑ t ∈ Finset.range (F.mult j), ∑ s ∈ Finset.range (K.cg n m j).mult, ∑ k ∈ Finset.range (K.typ j).sumsq, ∑ y ∈ Finset.range (K.T.size j),
              w j t s k * coeff (K.T.size j) (K.cg n m j) ((K.endo j).getD k (zeros 0 0)) s p q y * Y t y := by
              refine Finset.sum_congr rfl fun t _ => ?_
              rw [Finset.sum_comm]
              refine Finset.sum_congr rfl fun s _ => ?_
              rw [Finset.sum_comm]
          _ = _ := by
              rw [Finset.sum_comm]
              refine Finset.sum_congr rfl fun s _ => ?_
              rw [Finset.sum_comm]

end WE

end Escnn
