import Verif.Lemmas.IndependentBlocks
import Verif.Props.C69_Completeness

/-!
# C70: the elements of the kernel bases are linearly independent
-/

namespace Escnn

open NpMat Real

variable {H J J' P A : Type} [DecidableEq J] [DecidableEq J']

/-- No combination of the `n` kernels which `sample` computes vanishes at all points, except that with the weights zero. -/
def KernelsIndependent (sample : P → ℕ → Except Err (NpMat ℝ)) (n rows cols : ℕ) : Prop :=
  ∀ w : ℕ → ℝ, (∀ x, ∀ K : ℕ → NpMat ℝ, (∀ e < n, sample x e = .ok (K e)) → ∀ p < rows, ∀ q < cols, ∑ e ∈ Finset.range n, w e * (K e).get p q = 0) → ∀ e < n, w e = 0

/-- With independent kernels, the weights of a combination are determined by the kernel. -/
theorem KernelsIndependent.unique {sample : P → ℕ → Except Err (NpMat ℝ)} {n rows cols : ℕ} (h : KernelsIndependent sample n rows cols) {w w' : ℕ → ℝ}
    (hw : ∀ x, ∀ K : ℕ → NpMat ℝ, (∀ e < n, sample x e = .ok (K e)) → ∀ p < rows, ∀ q < cols, ∑ e ∈ Finset.range n, w e * (K e).get p q = ∑ e ∈ Finset.range n, w' e * (K e).get p q) : ∀ e < n, w e = w' e := by
  intro e he
  have := h (fun e => w e - w' e) (fun x K hK p hp q hq => by simp only [sub_mul, Finset.sum_sub_distrib]; rw [hw x K hK p hp q hq, sub_self]) e he
  linarith

/-- **C70**: the kernels of `SteerableKernelBasis` with the Wigner-Eckart solver are linearly independent if the filters are. -/
theorem SKB.C70_wigner_eckart {El : H → Prop} {op : H → H → H} {one : H} (K : KGroup H J) (F : FBasis J P A) (rin rout : Rep H J) (triv : J) (hT : K.T.Valid El op one) (hE : EndoValid K.T K.typ El)
    (hpos : ∀ j, K.T.ok j = true → 0 < K.T.size j) (hin : rin.WF K.T El) (hout : rout.WF K.T El)
    (hcg : ∀ m ∈ rin.irreps, ∀ n ∈ rout.irreps, CGLaw El K.T.ok K.T.size K.T.mat K.tensor K.cg n m ∧ K.tensor m n = K.tensor n m)
    (hF : (F.js.map Prod.fst).Nodup) (hind : F.Independent K.T.size) {s : SKB J J A} (hs : init K.T.size triv F (WE.init K F) rin rout = .ok s) :
    KernelsIndependent (sample K.T.size F s) s.dim rout.size rin.size := by
  refine fun w hw => independent (mat := K.T.mat) hin hout (fun m hm n hn => ?_) (fun m hm n hn => WE.init_indep K F (hcg m hm n hn).1 (hcg m hm n hn).2 (fun j hj => ⟨(hE j hj).1, hpos j hj⟩) hF) hF hind hs hw
  obtain ⟨hl, hc⟩ := hcg m hm n hn
  rcases WE.init_spec K F m n hT hE (hin.ok m hm) (fun p hp => hl.ok p (hc ▸ hp)) (hc ▸ hl.nodup) (fun p hp => ⟨hl.mult p (hc ▸ hp), hl.intertwines p (hc ▸ hp)⟩) hF with h | ⟨b, hb, -, hr, hc', -, hG⟩
  · exact .inl h.1
  · exact .inr ⟨b, hb, hr, hc', fun j hj => List.mem_map.2 ⟨_, FBasis.mem_of_mult (hG.mult j hj), rfl⟩, hG⟩

/-- **C70** for SO(2). -/
theorem SKB.C70_so2 (F : FBasis ℕ P A) (rin rout : Rep ℝ ℕ) (hin : rin.WF SO2.table SO2.IsElement) (hout : rout.WF SO2.table SO2.IsElement)
    (hF : (F.js.map Prod.fst).Nodup) (hind : F.Independent SO2.irrepSize) {s : SKB ℕ ℕ A} (hs : init SO2.irrepSize 0 F (WE.init SO2.kgroup F) rin rout = .ok s) :
    KernelsIndependent (sample SO2.irrepSize F s) s.dim rout.size rin.size :=
  C70_wigner_eckart SO2.kgroup F rin rout 0 SO2.table_valid SO2.C18_so2 (fun j _ => by show 0 < SO2.irrepSize j; unfold SO2.irrepSize; split <;> omega) hin hout
    (fun m _ n _ => ⟨TensorRep.so2_law n m, SO2.tensor_comm m n⟩) hF hind hs

/-- **C70** for the cyclic groups. -/
theorem SKB.C70_cyclic (N : ℕ) (hN : 0 < N) (F : FBasis ℕ P A) (rin rout : Rep ℤ ℕ) (hin : rin.WF (Cyclic.table N) fun g => Cyclic.isElement N g = true)
    (hout : rout.WF (Cyclic.table N) fun g => Cyclic.isElement N g = true) (hF : (F.js.map Prod.fst).Nodup) (hind : F.Independent (Cyclic.irrepSize N))
    {s : SKB ℕ ℕ A} (hs : init (Cyclic.irrepSize N) 0 F (WE.init (Cyclic.kgroup N) F) rin rout = .ok s) : KernelsIndependent (sample (Cyclic.irrepSize N) F s) s.dim rout.size rin.size := by
  have hle : ∀ {r : Rep ℤ ℕ}, r.WF (Cyclic.table N) (fun g => Cyclic.isElement N g = true) → ∀ m ∈ r.irreps, m ≤ N / 2 := fun hr m hm => of_decide_eq_true (hr.ok m hm)
  exact C70_wigner_eckart (Cyclic.kgroup N) F rin rout 0 (Cyclic.table_valid N hN) (Cyclic.C18_cyclic N hN).1 (fun j _ => by show 0 < Cyclic.irrepSize N j; unfold Cyclic.irrepSize; split_ifs <;> omega) hin hout
    (fun m hm n hn => ⟨TensorRep.cyclic_law N hN (hle hout n hn) (hle hin m hm), Cyclic.tensor_comm N m n⟩) hF hind hs

/-- **C70** for linear maps (`kernels_on_point`): the matrices of the basis are independent. -/
theorem SKB.C70_point {El : H → Prop} {op : H → H → H} {one : H} (K : KGroup H J) (rin rout : Rep H J) (triv : J) (hT : K.T.Valid El op one) (hE : EndoValid K.T K.typ El)
    (hpos : ∀ j, K.T.ok j = true → 0 < K.T.size j) (hin : rin.WF K.T El) (hout : rout.WF K.T El)
    (hcg : ∀ m ∈ rin.irreps, ∀ n ∈ rout.irreps, CGLaw El K.T.ok K.T.size K.T.mat K.tensor K.cg n m ∧ K.tensor m n = K.tensor n m) (hsize : K.T.size triv = 1)
    {s : SKB J J (Option ℕ)} (hs : init K.T.size triv (pointBasis triv : FBasis J Unit (Option ℕ)) (WE.init K (pointBasis triv : FBasis J Unit (Option ℕ))) rin rout = .ok s) :
    KernelsIndependent (sample K.T.size (pointBasis triv : FBasis J Unit (Option ℕ)) s) s.dim rout.size rin.size :=
  C70_wigner_eckart K _ rin rout triv hT hE hpos hin hout hcg (by simp [pointBasis]) (pointBasis_independent triv hsize) hs

/-- **C70** for a subgroup of O(2) on the plane. -/
theorem C70_subgroup {El : H → Prop} {op : H → H → H} {one : H} (K : KGroup H J') (res : ℕ × ℕ → Rep H J') (rin rout : Rep H J') (radii sigma : List ℝ) (L : ℕ) (axis : ℝ)
    (filter : Option (ℕ × ℕ → ℕ → Bool)) (junk : ℕ → ℝ) (hT : K.T.Valid El op one) (hE : EndoValid K.T K.typ El) (hpos : ∀ j, K.T.ok j = true → 0 < K.T.size j) (hin : rin.WF K.T El) (hout : rout.WF K.T El)
    (hcg : ∀ m ∈ rin.irreps, ∀ n ∈ rout.irreps, CGLaw El K.T.ok K.T.size K.T.mat K.tensor K.cg n m ∧ K.tensor m n = K.tensor n m)
    (hres : ∀ j, O2.table.ok j = true → 0 < O2.table.size j → (res j).WF K.T El ∧ (res j).size = O2.table.size j)
    (hnd : (radii.zip sigma).Nodup) {s : SKB (ℕ × ℕ) J' (Option StAttr)} {F : FBasis (ℕ × ℕ) (ℝ × ℝ) (Option StAttr)} (hs : kernelsO2Subgroup K res rin rout radii sigma L axis filter junk = .ok (s, F)) :
    KernelsIndependent (SKB.sample O2.table.size F s) s.dim rout.size rin.size := by
  unfold kernelsO2Subgroup at hs
  split_ifs at hs with h1 h2
  obtain ⟨hlen, hr, hsg⟩ := h1
  cases hb : Shells.init ShellKind.circ O2.table.size L radii.length filter with
  | error e => rw [hb] at hs; cases hs
  | ok b =>
    rw [hb] at hs
    simp only [bind, Except.bind] at hs
    cases hi : SKB.init K.T.size (0, 0) (circularBasis junk b radii sigma axis) (RWE.init K (circularBasis junk b radii sigma axis) O2.table.size res) rin rout with
    | error e => rw [hi] at hs; cases hs
    | ok s0 =>
      rw [hi] at hs
      have h' := Except.ok.inj hs
      rw [Prod.mk.injEq] at h'
      obtain ⟨rfl, rfl⟩ := h'
      have hjs := (Shells.init_spec ShellKind.circ_ok hb).2.2.2.1
      have hF : ((circularBasis junk b radii sigma axis).js.map Prod.fst).Nodup := by
        show (b.js.map Prod.fst).Nodup
        rw [hjs, List.map_map]
        refine List.Nodup.map_on (fun x _ y _ e => ?_) List.nodup_range
        have := congrArg Prod.snd (show ShellKind.circ.id x = ShellKind.circ.id y from e)
        exact this
      have hres' : ∀ e ∈ (circularBasis junk b radii sigma axis).js, (res e.1).WF K.T El ∧ (res e.1).size = O2.table.size e.1 := by
        intro e he
        have he' : e ∈ b.js := he
        rw [hjs] at he'
        obtain ⟨j, -, rfl⟩ := List.mem_map.1 he'
        exact hres _ (circ_id_ok j).1 (circ_id_ok j).2
      refine fun w hw => SKB.independent (El := El) (mat := fun j h => (res j).mat h) hin hout (fun m hm n hn => ?_)
        (fun m hm n hn => RWE.init_indep K _ O2.table.size res (hcg m hm n hn).1 (hcg m hm n hn).2 (fun j hj => ⟨(hE j hj).1, hpos j hj⟩) hF hres') hF (circular_independent junk radii sigma axis hb hlen hsg hnd) hi hw
      obtain ⟨hl, hc⟩ := hcg m hm n hn
      rcases RWE.init_spec K (circularBasis junk b radii sigma axis) O2.table.size res m n hT hE (hin.ok m hm) (fun p hp => hl.ok p (hc ▸ hp)) (fun p hp => hl.intertwines p (hc ▸ hp)) hF hres' with h | ⟨b', hb', -, hr', hc', hsub, hG⟩
      · exact .inl h.1
      · exact .inr ⟨b', hb', hr', hc', hsub, hG⟩

/-- **C70** for `kernels_SO2_act_R2`: with Gaussians of distinct radius or width, its kernels are linearly independent. -/
theorem C70_plane_so2 (rin rout : Rep ℝ ℕ) (radii sigma : List ℝ) (L : ℕ) (filter : Option (ℕ × ℕ → ℕ → Bool)) (junk : ℕ → ℝ)
    (hin : rin.WF SO2.table SO2.IsElement) (hout : rout.WF SO2.table SO2.IsElement) (hnd : (radii.zip sigma).Nodup)
    {s : SKB (ℕ × ℕ) ℕ (Option StAttr)} {F : FBasis (ℕ × ℕ) (ℝ × ℝ) (Option StAttr)} (hs : kernelsSO2 rin rout radii sigma L filter junk = .ok (s, F)) :
    KernelsIndependent (SKB.sample O2.table.size F s) s.dim rout.size rin.size :=
  C70_subgroup SO2.kgroup (restrictedIrrep SO2.table "O(2)" 0 fun i => .ok (O2.restrictSO2 i.1 i.2)) rin rout radii sigma L (π / 2) filter junk SO2.table_valid SO2.C18_so2
    (fun j _ => by show 0 < SO2.irrepSize j; unfold SO2.irrepSize; split <;> omega) hin hout (fun m _ n _ => ⟨TensorRep.so2_law n m, SO2.tensor_comm m n⟩)
    (fun j h1 h2 => let h := restrictedIrrep_ok (fun r hwf hn => C13_o2_so2 [] "O(2)" r hwf hn) j h1 h2; ⟨h.1, h.2.1⟩) hnd hs

/-- **C70** for `kernels_CN_act_R2`. -/
theorem C70_plane_cyclic (N : ℕ) (hN : 0 < N) (rin rout : Rep ℤ ℕ) (radii sigma : List ℝ) (L : ℕ) (filter : Option (ℕ × ℕ → ℕ → Bool)) (junk : ℕ → ℝ)
    (hin : rin.WF (Cyclic.table N) fun g => Cyclic.isElement N g = true) (hout : rout.WF (Cyclic.table N) fun g => Cyclic.isElement N g = true) (hnd : (radii.zip sigma).Nodup)
    {s : SKB (ℕ × ℕ) ℕ (Option StAttr)} {F : FBasis (ℕ × ℕ) (ℝ × ℝ) (Option StAttr)} (hs : kernelsCN N rin rout radii sigma L filter junk = .ok (s, F)) :
    KernelsIndependent (SKB.sample O2.table.size F s) s.dim rout.size rin.size := by
  have hle : ∀ {r : Rep ℤ ℕ}, r.WF (Cyclic.table N) (fun g => Cyclic.isElement N g = true) → ∀ m ∈ r.irreps, m ≤ N / 2 := fun hr m hm => of_decide_eq_true (hr.ok m hm)
  exact C70_subgroup (Cyclic.kgroup N) (restrictedIrrep (Cyclic.table N) "O(2)" 0 fun i => .ok (O2.restrictRot i.1 i.2 N)) rin rout radii sigma L (π / 2) filter junk (Cyclic.table_valid N hN) (Cyclic.C18_cyclic N hN).1
    (fun j _ => by show 0 < Cyclic.irrepSize N j; unfold Cyclic.irrepSize; split_ifs <;> omega) hin hout (fun m hm n hn => ⟨TensorRep.cyclic_law N hN (hle hout n hn) (hle hin m hm), Cyclic.tensor_comm N m n⟩)
    (fun j h1 h2 => let h := restrictedIrrep_ok (fun r hwf hn => C13_o2_rot N hN [] "O(2)" r hwf hn) j h1 h2; ⟨h.1, h.2.1⟩) hnd hs

/-! ### Examples -/

/-- The basis of the linear maps between two irreps of frequency 1 of SO(2) has two independent elements. -/
example : ∃ s, SKB.init SO2.table.size 0 (pointBasis 0 : FBasis ℕ Unit (Option ℕ)) (WE.init SO2.kgroup (pointBasis 0 : FBasis ℕ Unit (Option ℕ))) (irrepRep SO2.table "" ∅ 1) (irrepRep SO2.table "" ∅ 1) = .ok s ∧
    KernelsIndependent (SKB.sample SO2.table.size (pointBasis 0 : FBasis ℕ Unit (Option ℕ)) s) s.dim 2 2 ∧ s.dim = 2 := by
  have hwf := irrepRep_wf SO2.table_valid (j := 1) rfl (by decide) "" ∅
  have hone : ∀ g, SO2.IsElement g → (SO2.table.mat 0 g).get 0 0 = 1 := fun g _ => by simp [SO2.table, SO2.irrepMat, eye]
  have hst : (pointBasis 0 : FBasis ℕ Unit (Option ℕ)).Steerable SO2.irrepSize SO2.irrepMat SO2.IsElement fun _ => id :=
    pointBasis_steerable 0 SO2.table.size SO2.table.mat SO2.IsElement (fun _ => id) (by decide) hone
  have hI : ∀ g, SO2.IsElement g → mul (eye 2) ((irrepRep SO2.table "" ∅ 1).mat g) ≈ mul ((irrepRep SO2.table "" ∅ 1).mat g) (eye 2) := fun g hg =>
    (eye_mul' _ (hwf.rows hg)).trans (mul_eye' _ (hwf.cols hg)).symm
  obtain ⟨h1, -⟩ := SKB.C69_point SO2.kgroup (irrepRep SO2.table "" ∅ 1) (irrepRep SO2.table "" ∅ 1) 0 SO2.table_valid SO2.C18_so2 SO2.schur hwf hwf
    (fun m _ n _ => ⟨TensorRep.so2_law n m, SO2.tensor_comm m n⟩) rfl (by decide) hone (M := eye 2) rfl rfl hI
  rcases SKB.C38_so2 (pointBasis 0 : FBasis ℕ Unit (Option ℕ)) _ _ hwf hwf (by simp [pointBasis]) hst with h | ⟨s, hs, -, -, hdim, -⟩
  · have := (h1 h).2.2 0 0 (by decide) (by decide)
    simp [zeros, eye] at this
  · exact ⟨s, hs, SKB.C70_so2 _ _ _ hwf hwf (by simp [pointBasis]) (pointBasis_independent 0 (by decide)) hs, hdim.trans (by decide)⟩

/-- The kernels of `kernels_SO2_act_R2` from scalars to vectors are independent, and span the radial field; so its weights are unique. -/
example (junk : ℕ → ℝ) : ∃ s F, kernelsSO2 (irrepRep SO2.table "" ∅ 0) (irrepRep SO2.table "" ∅ 1) [1] [1] 1 none junk = .ok (s, F) ∧
    KernelsIndependent (SKB.sample O2.table.size F s) s.dim 2 1 ∧ Spanned (SKB.sample O2.table.size F s) s.dim 2 1 radialField := by
  obtain ⟨s, F, hs, h⟩ := C69_radialField junk
  exact ⟨s, F, hs, C70_plane_so2 _ _ [1] [1] 1 none junk (irrepRep_wf SO2.table_valid (j := 0) rfl (by decide) "" ∅) (irrepRep_wf SO2.table_valid (j := 1) rfl (by decide) "" ∅) (by simp) hs, h⟩

end Escnn
