import Verif.Model.Linear
import Verif.Spec.Equivariant
import Verif.Lemmas.KernelIface
import Verif.Props.C41_Bias

/-!
# C42: linear layers are equivariant
-/

namespace Escnn

open NpMat

namespace Linear

variable {G J S A B C : Type} [DecidableEq J] {El : G → Prop} {op : G → G → G} {one : G}

/-- The representation of the output type fixes the bias. -/
theorem bias_fixed {T : IrrepTable G J} {triv : J} (hT : T.Valid El op one) (ht : T.IsTrivial El triv) {t : FType S (Rep G J)} (hwf : ∀ r ∈ t.reprs, r.WF T El) {E : NpMat ℝ}
    (hE : Bias.expansion T.size triv t.reprs = some E) (w : ℕ → ℝ) {g : G} (hg : El g) {i : ℕ} (hi : i < t.size Rep.size) :
    ∑ j ∈ Finset.range (t.size Rep.size), (t.fiberRep g).get i j * Bias.expand E w j = Bias.expand E w i := by
  rw [FType.size_eq] at hi ⊢
  obtain ⟨k, r, a, hk, ha, rfl⟩ := exists_field hi
  rw [FType.fiberRep, blockDiag_row (ρ := fun r : Rep G J => r.mat g) (fun r hr => ⟨(hwf r hr).rows hg, (hwf r hr).cols hg⟩) hk ha]
  exact (Bias.C41_invariant hT ht t.reprs hwf E hE).2.2 w k r hk g hg a ha

theorem affine_ok {P : Type} {M : NpMat ℝ} {b : Option (ℕ → ℝ)} {x : FTensor B P} (h : M.cols = x.chans) :
    affine M b x = .ok ⟨M.rows, fun i r p => (chanMul M x).get i r p + biasAt b r⟩ := by
  rw [affine, if_pos h]; rfl

/-- An affine map whose matrix intertwines and whose bias is fixed. -/
theorem affine_equivariant {P : Type} {M ρi ρo : NpMat ℝ} {b : Option (ℕ → ℝ)} (hr : M.rows = ρo.rows) (hc : M.cols = ρi.rows) (hi : ρi.rows = ρi.cols) (ho : ρo.rows = ρo.cols)
    (h : mul M ρi ≈ mul ρo M) (hb : ∀ i < ρo.rows, ∑ j ∈ Finset.range ρo.cols, ρo.get i j * biasAt b j = biasAt b i) (x : FTensor B P) (hx : x.chans = ρi.cols) :
    ∃ y gx gy gy', affine M b x = .ok y ∧ matChannels ρi x = .ok gx ∧ affine M b gx = .ok gy ∧ matChannels ρo y = .ok gy' ∧ y.chans = ρo.rows ∧ gy.chans = ρo.rows ∧ gy ≈ gy' := by
  refine ⟨_, _, _, _, affine_ok ?_, matChannels_ok hx.symm, affine_ok hc, matChannels_ok ?_, hr, hr, ?_⟩
  · rw [hc, hi, hx]
  · exact ho.symm.trans hr.symm
  · refine ⟨hr, fun i r p hrr => ?_⟩
    have hrr : r < M.rows := hrr
    have e1 : (chanMul M (chanMul ρi x)).get i r p = (chanMul (mul M ρi) x).get i r p := ((chanMul_mul M ρi x).2 i r p hrr).symm
    have e2 : (chanMul (mul M ρi) x).get i r p = (chanMul (mul ρo M) x).get i r p := (chanMul_congr h (FTensor.Eqv.refl x) hx.symm).2 i r p hrr
    have e3 : (chanMul (mul ρo M) x).get i r p = (chanMul ρo (chanMul M x)).get i r p := (chanMul_mul ρo M x).2 i r p (show r < ρo.rows from hr ▸ hrr)
    show (chanMul M (chanMul ρi x)).get i r p + biasAt b r = ∑ j ∈ Finset.range ρo.cols, ρo.get r j * ((chanMul M x).get i j p + biasAt b j)
    simp only [mul_add, Finset.sum_add_distrib]
    rw [hb r (hr ▸ hrr), e1, e2, e3]
    rfl

/-- **C42** (partial) For all field types (whose representations are told apart by their escaped names), weights, bias weights, inputs and group elements, the output for the transformed
input is the transformed output; in evaluation mode the layer computes the same as in training mode.  The layers with one representation at
the input, one at the output and no weight are not included: their forward pass fails (`C42_violated_empty`). -/
theorem C42_equivariant_partial (K : KGroup G J) (triv : J) (hT : K.T.Valid El op one) (hone : El one) (hE : EndoValid K.T K.typ El) (ht : K.T.IsTrivial El triv)
    (inT outT : FType S (Rep G J)) (hsp : inT.gspace = outT.gspace) (hin : ∀ r ∈ inT.reprs, r.WF K.T El) (hout : ∀ r ∈ outT.reprs, r.WF K.T El)
    (hcg : ∀ m n, K.T.ok m = true → K.T.ok n = true → ((K.tensor m n).map Prod.fst).Nodup ∧ ∀ p ∈ K.tensor m n, K.T.ok p.1 = true ∧
      (K.cg n m p.1).mult = p.2 ∧ ∀ g, El g → Intertwines (K.T.mat n g) (K.T.mat m g) (K.T.mat p.1 g) (K.cg n m p.1))
    {uin uout : List (Rep G J)} (hui : ∀ r, r ∈ uin ↔ r ∈ inT.reprs) (hun : uin.Nodup) (huo : ∀ r, r ∈ uout ↔ r ∈ outT.reprs) (hon : uout.Nodup)
    (hni : ∀ r ∈ inT.reprs, ∀ r' ∈ inT.reprs, escName r.name = escName r'.name → r = r') (hno : ∀ r ∈ outT.reprs, ∀ r' ∈ outT.reprs, escName r.name = escName r'.name → r = r')
    (bias : Bool) (w0 : ℕ → ℝ) :
    ∃ l, init K.T.size triv (pointGen K triv) uin uout inT outT bias w0 = .ok l ∧ l.weights = w0 ∧ l.training = true ∧
      ((uin.length * uout.length = 1 → 0 < l.blocks.dim) → ∀ w bw, ∃ l', train { l with weights := w, bias := bw } false = .ok l' ∧
        (∀ x : GTensor B Unit S (Rep G J) C, x.type = inT → forward l' x = forward { l with weights := w, bias := bw } x) ∧
        FibreEquivariant (B := B) (C := C) El inT outT (forward { l with weights := w, bias := bw })) := by
  have hser : ∀ i ∈ inT.reprs, ∀ o ∈ outT.reprs, SKB.Serves El (fun (_ : G) (x : Unit) => x) K.T.size (pointBasis (P := Unit) triv) i o
      (SKB.init K.T.size triv (pointBasis (P := Unit) triv) (WE.init K (pointBasis (P := Unit) triv)) i o) := fun i hi o ho =>
    SKB.serves_we K _ i o triv hT hE (hin i hi) (hout o ho) (fun m hm n hn => hcg m n ((hin i hi).ok m hm) ((hout o ho).ok n hn)) (by simp [pointBasis])
      (fun e he => by rw [show e = (triv, 1) by simpa [pointBasis] using he]; exact ht.ok) (pointBasis_steerable triv _ _ _ _ ht.size ht.mat) (C37_point triv)
  obtain ⟨-, m, hm, hw⟩ := Blocks.steerable_filter (pts := [()]) hone inT outT (by simp) hui hun huo hon hni hno hin hout hser none
  refine ⟨⟨inT, outT, m, if bias then Bias.expansion K.T.size triv outT.reprs else none, w0, fun _ => 0, true, some (zeros (outT.size Rep.size) (inT.size Rep.size)),
    some ((if bias then Bias.expansion K.T.size triv outT.reprs else none).map fun _ _ => 0)⟩, ?_, rfl, rfl, fun hd w bw => ?_⟩
  · rw [init, if_neg (by simp [hsp])]
    simp only [bind, Except.bind]
    rw [show Blocks.init Rep.name Rep.size (Blocks.blockFor (pointGen K triv) none 1) uin uout inT.reprs outT.reprs 1 = .ok m from hm]
  · obtain ⟨f, hf, hfr, hfc, hst⟩ := hw hd w
    set be := if bias then Bias.expansion K.T.size triv outT.reprs else none with hbe
    have hexp : ∀ mt eb tr, expandParameters (⟨inT, outT, m, be, w, bw, tr, mt, eb⟩ : Linear S (Rep G J) (SAttr J J (Option ℕ))) = .ok (⟨f.rows, f.cols, fun r c => f.get r c 0⟩, be.map fun E => Bias.expand E bw) := by
      intro mt eb tr
      simp only [expandParameters, bind, Except.bind, hf]
    refine ⟨⟨inT, outT, m, be, w, bw, false, some ⟨f.rows, f.cols, fun r c => f.get r c 0⟩, some (be.map fun E => Bias.expand E bw)⟩, ?_, ?_⟩
    · rw [train, if_neg (by simp)]
      simp only [bind, Except.bind, hexp]
    · have hfw : ∀ z : GTensor B Unit S (Rep G J) C, z.type = inT → ∀ mt eb, forward (⟨inT, outT, m, be, w, bw, true, mt, eb⟩ : Linear S (Rep G J) (SAttr J J (Option ℕ))) z =
          (affine ⟨f.rows, f.cols, fun r c => f.get r c 0⟩ (be.map fun E => Bias.expand E bw) z.tensor >>= fun y => GTensor.mk' Rep.size y outT z.coords) := by
        intro z hz mt eb
        rw [forward, if_neg (by simp [hz]), current, if_neg (by simp)]
        simp only [bind, Except.bind, hexp]
      refine ⟨fun x hx => ?_, fun x hx hxc g hg => ?_⟩
      · rw [hfw x hx, forward, if_neg (by simp [hx]), current, if_pos (by simp)]
        rfl
      · obtain ⟨hri, hci⟩ := fiberRep_shape hin hT hg
        obtain ⟨hro, hco⟩ := fiberRep_shape hout hT hg
        obtain ⟨y, gx, gy, gy', h1, h2, h3, h4, h5, h6, h7⟩ := affine_equivariant (M := ⟨f.rows, f.cols, fun r c => f.get r c 0⟩) (b := be.map fun E => Bias.expand E bw)
          (hfr.trans hro.symm) (hfc.trans hri.symm) (hri.trans hci.symm) (hro.trans hco.symm) (hst g hg 0 0 () rfl rfl) (fun i hi => by
            cases hB : be with
            | none => simp [biasAt]
            | some E =>
              have hE' : Bias.expansion K.T.size triv outT.reprs = some E := by
                rw [hbe] at hB
                split_ifs at hB
                exact hB
              rw [hco]
              exact bias_fixed hT ht hout hE' bw hg (hro ▸ hi)) x.tensor (hxc.trans hci.symm)
        have hgx : gx.chans = inT.size Rep.size := by
          obtain ⟨-, rfl⟩ := matChannels_iff.1 h2
          exact hri
        refine ⟨⟨y, outT, x.coords⟩, ⟨gx, inT, x.coords⟩, ⟨gy, outT, x.coords⟩, ⟨gy', outT, x.coords⟩, ?_, rfl, h5.trans hro, ?_, ?_, ?_, rfl, rfl, h7⟩
        · rw [hfw x hx, h1]
          simp only [bind, Except.bind]
          rw [GTensor.mk', if_pos (h5.trans hro)]
        · simp only [GTensor.transformFibers, FType.transformFibers, bind, Except.bind, hx, h2]
          rw [GTensor.mk', if_pos hgx]
        · rw [hfw _ rfl]
          simp only [bind, Except.bind, h3]
          rw [GTensor.mk', if_pos (h6.trans hro)]
        · simp only [GTensor.transformFibers, FType.transformFibers, bind, Except.bind, h4]
          rw [GTensor.mk', if_pos (by rw [← h7.1, h6, hro])]

/-- **C42 is violated** by a layer with one representation at the input, one at the output and no equivariant map between them: it is constructed, and its forward pass raises
`IndexError` for every input, where the zero map (plus the bias) is expected. -/
theorem C42_violated_empty (size : J → ℕ) (triv : J) (gen : Rep G J → Rep G J → Except Err (KBasis A)) (inT outT : FType S (Rep G J)) (hsp : inT.gspace = outT.gspace) {uin uout : List (Rep G J)}
    (h : Blocks.Input Rep.name Rep.size gen uin uout inT.reprs outT.reprs) (hone : uin.length = 1 ∧ uout.length = 1)
    (hempty : ∀ i ∈ inT.reprs, ∀ o ∈ outT.reprs, gen i o = .error .emptyBasis) (bias : Bool) (w0 : ℕ → ℝ) :
    ∃ l, init size triv gen uin uout inT outT bias w0 = .ok l ∧ ∀ x : GTensor B Unit S (Rep G J) C, x.type = inT → forward l x = .error .index := by
  obtain ⟨m, hm, -, hf⟩ := Blocks.C34_violated_empty h none 1 hone fun i hi o ho => by simp only [Blocks.blockFor, bind, Except.bind, hempty i hi o ho]
  refine ⟨⟨inT, outT, m, if bias then Bias.expansion size triv outT.reprs else none, w0, fun _ => 0, true, some (zeros (outT.size Rep.size) (inT.size Rep.size)),
    some ((if bias then Bias.expansion size triv outT.reprs else none).map fun _ _ => 0)⟩, ?_, fun x hx => ?_⟩
  · rw [init, if_neg (by simp [hsp])]
    simp only [bind, Except.bind, hm]
  rw [forward, if_neg (by simp [hx]), current, if_neg (by simp)]
  simp only [bind, Except.bind, expandParameters, hf]

end Linear

variable {S B C : Type}

/-- **C42** (partial, as above) for SO(2). -/
theorem C42_so2_partial (inT outT : FType S (Rep ℝ ℕ)) (hsp : inT.gspace = outT.gspace) (hin : ∀ r ∈ inT.reprs, r.WF SO2.table SO2.IsElement) (hout : ∀ r ∈ outT.reprs, r.WF SO2.table SO2.IsElement)
    {uin uout : List (Rep ℝ ℕ)} (hui : ∀ r, r ∈ uin ↔ r ∈ inT.reprs) (hun : uin.Nodup) (huo : ∀ r, r ∈ uout ↔ r ∈ outT.reprs) (hon : uout.Nodup)
    (hni : ∀ r ∈ inT.reprs, ∀ r' ∈ inT.reprs, escName r.name = escName r'.name → r = r') (hno : ∀ r ∈ outT.reprs, ∀ r' ∈ outT.reprs, escName r.name = escName r'.name → r = r')
    (bias : Bool) (w0 : ℕ → ℝ) :
    ∃ l, Linear.init SO2.irrepSize 0 (pointGen SO2.kgroup 0) uin uout inT outT bias w0 = .ok l ∧
      ((uin.length * uout.length = 1 → 0 < l.blocks.dim) → ∀ w bw, FibreEquivariant (B := B) (C := C) SO2.IsElement inT outT (Linear.forward { l with weights := w, bias := bw })) := by
  obtain ⟨l, h1, -, -, h2⟩ := Linear.C42_equivariant_partial (B := B) (C := C) SO2.kgroup 0 SO2.table_valid ⟨le_rfl, Real.two_pi_pos⟩ SO2.C18_so2 SO2.trivial inT outT hsp hin hout
    (fun m n _ _ => ⟨SO2.tensor_nodup m n, fun p hp => ⟨rfl, SO2.kgroup_cg m n p hp⟩⟩) hui hun huo hon hni hno bias w0
  exact ⟨l, h1, fun hd w bw => (h2 hd w bw).choose_spec.2.2⟩

/-- **C42** (partial, as above) for the cyclic groups. -/
theorem C42_cyclic_partial (N : ℕ) (hN : 0 < N) (inT outT : FType S (Rep ℤ ℕ)) (hsp : inT.gspace = outT.gspace) (hin : ∀ r ∈ inT.reprs, r.WF (Cyclic.table N) fun g => Cyclic.isElement N g = true)
    (hout : ∀ r ∈ outT.reprs, r.WF (Cyclic.table N) fun g => Cyclic.isElement N g = true)
    {uin uout : List (Rep ℤ ℕ)} (hui : ∀ r, r ∈ uin ↔ r ∈ inT.reprs) (hun : uin.Nodup) (huo : ∀ r, r ∈ uout ↔ r ∈ outT.reprs) (hon : uout.Nodup)
    (hni : ∀ r ∈ inT.reprs, ∀ r' ∈ inT.reprs, escName r.name = escName r'.name → r = r') (hno : ∀ r ∈ outT.reprs, ∀ r' ∈ outT.reprs, escName r.name = escName r'.name → r = r')
    (bias : Bool) (w0 : ℕ → ℝ) :
    ∃ l, Linear.init (Cyclic.irrepSize N) 0 (pointGen (Cyclic.kgroup N) 0) uin uout inT outT bias w0 = .ok l ∧
      ((uin.length * uout.length = 1 → 0 < l.blocks.dim) →
        ∀ w bw, FibreEquivariant (B := B) (C := C) (fun g => Cyclic.isElement N g = true) inT outT (Linear.forward { l with weights := w, bias := bw })) := by
  obtain ⟨l, h1, -, -, h2⟩ := Linear.C42_equivariant_partial (B := B) (C := C) (Cyclic.kgroup N) 0 (Cyclic.table_valid N hN) (Cyclic.isElement_zero hN) (Cyclic.C18_cyclic N hN).1 (Cyclic.trivial N) inT outT hsp hin hout
    (fun m n hm hn => ⟨Cyclic.tensor_nodup N m n (of_decide_eq_true hm) (of_decide_eq_true hn), Cyclic.kgroup_cg N hN m n (of_decide_eq_true hm) (of_decide_eq_true hn)⟩) hui hun huo hon hni hno bias w0
  exact ⟨l, h1, fun hd w bw => (h2 hd w bw).choose_spec.2.2⟩

/-- The two fields of `C_3` of the example of C41, with names: types with several representations satisfy the hypotheses. -/
noncomputable def linearDemo : FType Unit (Rep ℤ ℕ) := ⟨(), [irrepRep (Cyclic.table 3) "irrep_0" ∅ 0, irrepRep (Cyclic.table 3) "irrep_1" ∅ 1]⟩

example (w0 : ℕ → ℝ) : ∃ l, Linear.init (Cyclic.irrepSize 3) 0 (pointGen (Cyclic.kgroup 3) 0) linearDemo.reprs linearDemo.reprs linearDemo linearDemo true w0 = .ok l ∧
    ∀ w bw, FibreEquivariant (B := Unit) (C := Unit) (fun g => Cyclic.isElement 3 g = true) linearDemo linearDemo (Linear.forward { l with weights := w, bias := bw }) := by
  have hwf : ∀ r ∈ linearDemo.reprs, r.WF (Cyclic.table 3) fun g => Cyclic.isElement 3 g = true := by
    intro r hr
    simp only [linearDemo, List.mem_cons, List.not_mem_nil, or_false] at hr
    rcases hr with rfl | rfl
    · exact irrepRep_wf (Cyclic.table_valid 3 (by norm_num)) rfl (by decide) _ _
    · exact irrepRep_wf (Cyclic.table_valid 3 (by norm_num)) rfl (by decide) _ _
  have hn : ∀ r ∈ linearDemo.reprs, ∀ r' ∈ linearDemo.reprs, escName r.name = escName r'.name → r = r' := by
    intro r hr r' hr' h
    simp only [linearDemo, List.mem_cons, List.not_mem_nil, or_false] at hr hr'
    rcases hr with rfl | rfl <;> rcases hr' with rfl | rfl
    · rfl
    · exact absurd h (by decide)
    · exact absurd h (by decide)
    · rfl
  have hnd : linearDemo.reprs.Nodup := by
    refine List.Nodup.of_map Rep.name ?_
    decide
  obtain ⟨l, h1, h2⟩ := C42_cyclic_partial (B := Unit) (C := Unit) 3 (by norm_num) linearDemo linearDemo rfl hwf hwf (fun _ => Iff.rfl) hnd (fun _ => Iff.rfl) hnd hn hn true w0
  exact ⟨l, h1, h2 (by simp [linearDemo])⟩

end Escnn
