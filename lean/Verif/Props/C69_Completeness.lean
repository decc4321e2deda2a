import Verif.Lemmas.CompleteRWE
import Verif.Lemmas.SchurInst
import Verif.Lemmas.Independent
import Verif.Props.C65_KernelsR2
import Verif.Props.C37_Sparse

/-!
# C69: the kernel bases are complete
-/

namespace Escnn

open NpMat Real

variable {H J J' P A : Type} [DecidableEq J] [DecidableEq J']

/-- Every entry of the kernel is a combination of the functions `f x 0, …, f x (n-1)`. -/
def EntriesIn (f : P → ℕ → ℝ) (n rows cols : ℕ) (κ : P → NpMat ℝ) : Prop :=
  (∀ x, (κ x).rows = rows ∧ (κ x).cols = cols) ∧ ∀ p < rows, ∀ q < cols, ∃ c : ℕ → ℝ, ∀ x, (κ x).get p q = ∑ i ∈ Finset.range n, c i * f x i

/-- The kernel is a combination of the `n` kernels which `sample` computes, with the same coefficients at all points. -/
def Spanned (sample : P → ℕ → Except Err (NpMat ℝ)) (n rows cols : ℕ) (κ : P → NpMat ℝ) : Prop :=
  ∃ w : ℕ → ℝ, ∀ x, ∃ K : ℕ → NpMat ℝ, (∀ e < n, sample x e = .ok (K e)) ∧ ∀ p < rows, ∀ q < cols, (κ x).get p q = ∑ e ∈ Finset.range n, w e * (K e).get p q

/-- **C69** for any complete basis of the blocks. -/
theorem SKB.C69_of_gen {El : H → Prop} {op : H → H → H} {one : H} {T : IrrepTable H J'} {F : FBasis J P A} {gen : J' → J' → Except Err (IBasis J J' A)} {rin rout : Rep H J'} {Fsize : J → ℕ} {mat : J → H → NpMat ℝ}
    {act : H → P → P} (triv : J) (hT : T.Valid El op one) (hin : rin.WF T El) (hout : rout.WF T El)
    (hgen : ∀ i ∈ rin.irreps, ∀ o ∈ rout.irreps, GenGood El Fsize mat T F i o (gen i o)) (hcomp : ∀ i ∈ rin.irreps, ∀ o ∈ rout.irreps, GenComplete El Fsize mat T F i o (gen i o))
    (hF : (F.js.map Prod.fst).Nodup) (hst : F.Steerable Fsize mat El act) (hm : ∀ e ∈ F.js, ∀ g, El g → (mat e.1 g).rows = Fsize e.1 ∧ (mat e.1 g).cols = Fsize e.1)
    (hind : F.Independent Fsize) {κ : P → NpMat ℝ} (hκ : SteerableKernel El act rin.mat rout.mat fun x => .ok (κ x)) (hspan : EntriesIn F.sample (F.total Fsize) rout.size rin.size κ) :
    (init T.size triv F gen rin rout = .error .emptyBasis → ∀ x, κ x ≈ zeros rout.size rin.size) ∧
    ∀ s, init T.size triv F gen rin rout = .ok s → Spanned (sample Fsize F s) s.dim rout.size rin.size κ := by
  obtain ⟨hshape, hent⟩ := hspan
  have hc : ∀ p q, ∃ c : ℕ → ℝ, p < rout.size → q < rin.size → ∀ x, (κ x).get p q = ∑ i ∈ Finset.range (F.total Fsize), c i * F.sample x i := by
    intro p q
    by_cases h : p < rout.size ∧ q < rin.size
    · obtain ⟨c, hc⟩ := hent p h.1 q h.2
      exact ⟨c, fun _ _ => hc⟩
    · exact ⟨fun _ => 0, fun h1 h2 => absurd ⟨h1, h2⟩ h⟩
  choose c' hc' using hc
  set c : ℕ → ℕ → ℕ → ℝ := fun i p q => c' p q i with hcdef
  have heq : ∀ x, κ x ≈ spanKernel Fsize F rout.size rin.size c x := fun x =>
    ⟨(hshape x).1, (hshape x).2, fun p q hp hq => hc' p q (by rw [← (hshape x).1]; exact hp) (by rw [← (hshape x).2]; exact hq) x⟩
  have hκ' : SteerableKernel El act rin.mat rout.mat fun x => .ok (spanKernel Fsize F rout.size rin.size c x) := by
    intro x
    obtain ⟨k, hk, h⟩ := hκ x
    obtain rfl := Except.ok.inj hk
    refine ⟨_, rfl, fun g hg => ?_⟩
    obtain ⟨h1, h2, k', hk', h3⟩ := h g hg
    obtain rfl := Except.ok.inj hk'
    refine ⟨(heq x).1.symm.trans h1, (heq x).2.1.symm.trans h2, _, rfl, ?_⟩
    refine (mul_congr_left _ (heq (act g x)).symm ?_).trans (h3.trans (mul_congr_right _ (heq x) ?_))
    · show rin.size = _
      rw [hin.rows hg]
    · rw [(hshape x).1, hout.cols hg]
  have hco := fun j t (ht : t < F.mult j) g (hg : El g) => coeff_of_steerable hF hst hind hm (fun g hg => ⟨hin.rows hg, hin.cols hg⟩) (fun g hg => ⟨hout.rows hg, hout.cols hg⟩) hκ' ht hg
  obtain ⟨h1, h2⟩ := complete (triv := triv) hT hin hout hgen hcomp hF hco
  refine ⟨fun he x => (heq x).trans (h1 he x), fun s hs => ?_⟩
  obtain ⟨w, hw⟩ := h2 s hs
  refine ⟨w, fun x => ?_⟩
  obtain ⟨K, hK, hsum⟩ := hw x
  exact ⟨K, hK, fun p hp q hq => by
    rw [← hsum p hp q hq]
    exact (heq x).2.2 p q (by rw [(hshape x).1]; exact hp) (by rw [(hshape x).2]; exact hq)⟩

/-- **C69**: every steerable kernel whose entries are combinations of the filters is a combination of the kernels of `SteerableKernelBasis` with the Wigner-Eckart solver; without basis, the only such kernel is zero. -/
theorem SKB.C69_wigner_eckart {El : H → Prop} {op : H → H → H} {one : H} {act : H → P → P} (K : KGroup H J) (F : FBasis J P A) (rin rout : Rep H J) (triv : J) (hT : K.T.Valid El op one) (hE : EndoValid K.T K.typ El)
    (hS : CGComplete.Schur K.T K.typ El) (hin : rin.WF K.T El) (hout : rout.WF K.T El)
    (hcg : ∀ m ∈ rin.irreps, ∀ n ∈ rout.irreps, CGLaw El K.T.ok K.T.size K.T.mat K.tensor K.cg n m ∧ K.tensor m n = K.tensor n m)
    (hF : (F.js.map Prod.fst).Nodup) (hFok : ∀ e ∈ F.js, K.T.ok e.1 = true) (hst : F.Steerable K.T.size K.T.mat El act) (hind : F.Independent K.T.size)
    {κ : P → NpMat ℝ} (hκ : SteerableKernel El act rin.mat rout.mat fun x => .ok (κ x)) (hspan : EntriesIn F.sample (F.total K.T.size) rout.size rin.size κ) :
    (init K.T.size triv F (WE.init K F) rin rout = .error .emptyBasis → ∀ x, κ x ≈ zeros rout.size rin.size) ∧
    ∀ s, init K.T.size triv F (WE.init K F) rin rout = .ok s → Spanned (sample K.T.size F s) s.dim rout.size rin.size κ := by
  refine C69_of_gen triv hT hin hout (fun m hm n hn => ?_) (fun m hm n hn => WE.init_complete K F hT hS (hin.ok m hm) (hout.ok n hn) (hcg m hm n hn).1 (hcg m hm n hn).2 hFok) hF hst
    (fun e he g hg => ⟨(hT _ (hFok e he)).rows g hg, (hT _ (hFok e he)).cols g hg⟩) hind hκ hspan
  obtain ⟨hl, hc⟩ := hcg m hm n hn
  rcases WE.init_spec K F m n hT hE (hin.ok m hm) (fun p hp => hl.ok p (hc ▸ hp)) (hc ▸ hl.nodup) (fun p hp => ⟨hl.mult p (hc ▸ hp), hl.intertwines p (hc ▸ hp)⟩) hF with h | ⟨b, hb, -, hr, hc', -, hG⟩
  · exact .inl h.1
  · exact .inr ⟨b, hb, hr, hc', fun j hj => List.mem_map.2 ⟨_, FBasis.mem_of_mult (hG.mult j hj), rfl⟩, hG⟩

/-- **C69** for SO(2). -/
theorem SKB.C69_so2 {act : ℝ → P → P} (F : FBasis ℕ P A) (rin rout : Rep ℝ ℕ) (hin : rin.WF SO2.table SO2.IsElement) (hout : rout.WF SO2.table SO2.IsElement)
    (hF : (F.js.map Prod.fst).Nodup) (hst : F.Steerable SO2.irrepSize SO2.irrepMat SO2.IsElement act) (hind : F.Independent SO2.irrepSize)
    {κ : P → NpMat ℝ} (hκ : SteerableKernel SO2.IsElement act rin.mat rout.mat fun x => .ok (κ x)) (hspan : EntriesIn F.sample (F.total SO2.irrepSize) rout.size rin.size κ) :
    (init SO2.irrepSize 0 F (WE.init SO2.kgroup F) rin rout = .error .emptyBasis → ∀ x, κ x ≈ zeros rout.size rin.size) ∧
    ∀ s, init SO2.irrepSize 0 F (WE.init SO2.kgroup F) rin rout = .ok s → Spanned (sample SO2.irrepSize F s) s.dim rout.size rin.size κ :=
  C69_wigner_eckart SO2.kgroup F rin rout 0 SO2.table_valid SO2.C18_so2 SO2.schur hin hout (fun m _ n _ => ⟨TensorRep.so2_law n m, SO2.tensor_comm m n⟩) hF (fun _ _ => rfl) hst hind hκ hspan

/-- **C69** for the cyclic groups. -/
theorem SKB.C69_cyclic (N : ℕ) (hN : 0 < N) {act : ℤ → P → P} (F : FBasis ℕ P A) (rin rout : Rep ℤ ℕ) (hin : rin.WF (Cyclic.table N) fun g => Cyclic.isElement N g = true)
    (hout : rout.WF (Cyclic.table N) fun g => Cyclic.isElement N g = true) (hF : (F.js.map Prod.fst).Nodup) (hFok : ∀ e ∈ F.js, e.1 ≤ N / 2)
    (hst : F.Steerable (Cyclic.irrepSize N) (Cyclic.irrepMat N) (fun g => Cyclic.isElement N g = true) act) (hind : F.Independent (Cyclic.irrepSize N))
    {κ : P → NpMat ℝ} (hκ : SteerableKernel (fun g => Cyclic.isElement N g = true) act rin.mat rout.mat fun x => .ok (κ x)) (hspan : EntriesIn F.sample (F.total (Cyclic.irrepSize N)) rout.size rin.size κ) :
    (init (Cyclic.irrepSize N) 0 F (WE.init (Cyclic.kgroup N) F) rin rout = .error .emptyBasis → ∀ x, κ x ≈ zeros rout.size rin.size) ∧
    ∀ s, init (Cyclic.irrepSize N) 0 F (WE.init (Cyclic.kgroup N) F) rin rout = .ok s → Spanned (sample (Cyclic.irrepSize N) F s) s.dim rout.size rin.size κ := by
  have hle : ∀ {r : Rep ℤ ℕ}, r.WF (Cyclic.table N) (fun g => Cyclic.isElement N g = true) → ∀ m ∈ r.irreps, m ≤ N / 2 := fun hr m hm => of_decide_eq_true (hr.ok m hm)
  exact C69_wigner_eckart (Cyclic.kgroup N) F rin rout 0 (Cyclic.table_valid N hN) (Cyclic.C18_cyclic N hN).1 (Cyclic.schur N hN) hin hout
    (fun m hm n hn => ⟨TensorRep.cyclic_law N hN (hle hout n hn) (hle hin m hm), Cyclic.tensor_comm N m n⟩) hF (fun e he => decide_eq_true (hFok e he)) hst hind hκ hspan

/-! ### Kernels at a point: linear maps -/

theorem pointBasis_independent {P : Type} [Nonempty P] (triv : J) {size : J → ℕ} (hs : size triv = 1) : (pointBasis triv : FBasis J P (Option ℕ)).Independent size := by
  have ht : (pointBasis triv : FBasis J P (Option ℕ)).total size = 1 := by simp [FBasis.total, pointBasis, hs]
  intro c h i hi
  have h1 := h (Classical.arbitrary P)
  rw [ht] at h1 hi
  rw [Finset.sum_range_one] at h1
  have : i = 0 := by omega
  rw [this]
  simpa [pointBasis] using h1

/-- **C69** for linear maps: every matrix which commutes with the two representations is a combination of the elements of the basis that `Linear` uses (`kernels_on_point`). -/
theorem SKB.C69_point {El : H → Prop} {op : H → H → H} {one : H} (K : KGroup H J) (rin rout : Rep H J) (triv : J) (hT : K.T.Valid El op one) (hE : EndoValid K.T K.typ El)
    (hS : CGComplete.Schur K.T K.typ El) (hin : rin.WF K.T El) (hout : rout.WF K.T El)
    (hcg : ∀ m ∈ rin.irreps, ∀ n ∈ rout.irreps, CGLaw El K.T.ok K.T.size K.T.mat K.tensor K.cg n m ∧ K.tensor m n = K.tensor n m)
    (htriv : K.T.ok triv = true) (hsize : K.T.size triv = 1) (hone : ∀ g, El g → (K.T.mat triv g).get 0 0 = 1)
    {M : NpMat ℝ} (hMr : M.rows = rout.size) (hMc : M.cols = rin.size) (hM : ∀ g, El g → mul M (rin.mat g) ≈ mul (rout.mat g) M) :
    (init K.T.size triv (pointBasis triv : FBasis J Unit (Option ℕ)) (WE.init K (pointBasis triv : FBasis J Unit (Option ℕ))) rin rout = .error .emptyBasis → M ≈ zeros rout.size rin.size) ∧
    ∀ s, init K.T.size triv (pointBasis triv : FBasis J Unit (Option ℕ)) (WE.init K (pointBasis triv : FBasis J Unit (Option ℕ))) rin rout = .ok s →
      Spanned (sample K.T.size (pointBasis triv) s) s.dim rout.size rin.size fun _ : Unit => M := by
  have ht : (pointBasis triv : FBasis J Unit (Option ℕ)).total K.T.size = 1 := by simp [FBasis.total, pointBasis, hsize]
  obtain ⟨h1, h2⟩ := C69_wigner_eckart (act := fun _ => id) K (pointBasis triv : FBasis J Unit (Option ℕ)) rin rout triv hT hE hS hin hout hcg (by simp [pointBasis]) (by simp [pointBasis, htriv])
    (pointBasis_steerable triv K.T.size K.T.mat El _ hsize hone) (pointBasis_independent triv hsize) (κ := fun _ => M)
    (fun x => ⟨M, rfl, fun g hg => ⟨hMr.trans (hout.rows hg).symm, hMc.trans (hin.rows hg).symm, M, rfl, hM g hg⟩⟩)
    ⟨fun _ => ⟨hMr, hMc⟩, fun p _ q _ => ⟨fun _ => M.get p q, fun x => by rw [ht, Finset.sum_range_one]; simp [pointBasis]⟩⟩
  exact ⟨fun he => h1 he (), h2⟩

/-! ### Kernels on the plane -/

/-- **C69** for a subgroup of O(2) on the plane: the kernels of `kernels_O2_subgroup_act_R2` span all the steerable kernels with Gaussian profiles and circular harmonics. -/
theorem C69_subgroup {El : H → Prop} {op : H → H → H} {one : H} (K : KGroup H J') (res : ℕ × ℕ → Rep H J') (parent : H → Except Err O2.Elem) (actH : H → ℝ × ℝ → ℝ × ℝ) (rin rout : Rep H J') (radii sigma : List ℝ) (L : ℕ) (axis : ℝ)
    (filter : Option (ℕ × ℕ → ℕ → Bool)) (junk : ℕ → ℝ) (hT : K.T.Valid El op one) (hE : EndoValid K.T K.typ El) (hS : CGComplete.Schur K.T K.typ El) (hin : rin.WF K.T El) (hout : rout.WF K.T El)
    (hcg : ∀ m ∈ rin.irreps, ∀ n ∈ rout.irreps, CGLaw El K.T.ok K.T.size K.T.mat K.tensor K.cg n m ∧ K.tensor m n = K.tensor n m)
    (hpar : ∀ h, El h → ∃ g, parent h = .ok g ∧ O2.IsElement g ∧ ∀ R, circularAction [] "StandardAction" axis = .ok R → actH h = fun p => moveBy (R.mat g) p)
    (hres : ∀ j, O2.table.ok j = true → 0 < O2.table.size j → (res j).WF K.T El ∧ (res j).size = O2.table.size j ∧ ∀ h g, El h → parent h = .ok g → (res j).mat h ≈ O2.table.mat j g)
    (hlen : radii.length = sigma.length) (hr : ∀ r ∈ radii, 0 ≤ r) (hs : ∀ s ∈ sigma, 0 < s) (hne : radii ≠ []) (hnd : (radii.zip sigma).Nodup)
    {b : Shells} (hb : Shells.init ShellKind.circ O2.table.size L radii.length filter = .ok b) {κ : ℝ × ℝ → NpMat ℝ} (hκ : SteerableKernel El actH rin.mat rout.mat fun x => .ok (κ x))
    (hspan : EntriesIn (circularSample junk b radii sigma axis) (b.dim O2.table.size) rout.size rin.size κ) :
    (kernelsO2Subgroup K res rin rout radii sigma L axis filter junk = .error .emptyBasis → ∀ x, κ x ≈ zeros rout.size rin.size) ∧
    ∀ s F, kernelsO2Subgroup K res rin rout radii sigma L axis filter junk = .ok (s, F) → Spanned (SKB.sample O2.table.size F s) s.dim rout.size rin.size κ := by
  obtain ⟨R, hR, hst⟩ := C39_steerable [] "StandardAction" (by simp) axis junk radii sigma L radii.length filter b hb
  have hjs := (Shells.init_spec ShellKind.circ_ok hb).2.2.2.1
  have hF : ((circularBasis junk b radii sigma axis).js.map Prod.fst).Nodup := by
    show (b.js.map Prod.fst).Nodup
    rw [hjs, List.map_map]
    refine List.Nodup.map_on (fun x _ y _ e => ?_) List.nodup_range
    have := congrArg Prod.snd (show ShellKind.circ.id x = ShellKind.circ.id y from e)
    exact this
  have hres' : ∀ e ∈ (circularBasis junk b radii sigma axis).js, (res e.1).WF K.T El ∧ (res e.1).size = O2.table.size e.1 ∧
      ∀ h g, El h → parent h = .ok g → (res e.1).mat h ≈ O2.table.mat e.1 g := by
    intro e he
    have he' : e ∈ b.js := he
    rw [hjs] at he'
    obtain ⟨j, -, rfl⟩ := List.mem_map.1 he'
    exact hres _ (circ_id_ok j).1 (circ_id_ok j).2
  have hst' := RWE.Steerable.restrict (matH := fun j h => (res j).mat h) (actH := actH) hst (fun h hh => by
      obtain ⟨g, h1, h2, h3⟩ := hpar h hh
      exact ⟨g, h1, h2, h3 R hR⟩) fun e he h g hh hg =>
    ⟨(hres' e he).2.2 h g hh hg, ((hres' e he).1.rows hh).trans (hres' e he).2.1, ((hres' e he).1.cols hh).trans (hres' e he).2.1⟩
  have hgen : ∀ m ∈ rin.irreps, ∀ n ∈ rout.irreps, SKB.GenGood El O2.table.size (fun j h => (res j).mat h) K.T (circularBasis junk b radii sigma axis) m n
      (RWE.init K (circularBasis junk b radii sigma axis) O2.table.size res m n) := by
    intro m hm n hn
    obtain ⟨hl, hc⟩ := hcg m hm n hn
    rcases RWE.init_spec K (circularBasis junk b radii sigma axis) O2.table.size res m n hT hE (hin.ok m hm) (fun p hp => hl.ok p (hc ▸ hp)) (fun p hp => hl.intertwines p (hc ▸ hp)) hF
      (fun e he => ⟨(hres' e he).1, (hres' e he).2.1⟩) with h | ⟨b', hb', -, hr', hc', hsub, hG⟩
    · exact .inl h.1
    · exact .inr ⟨b', hb', hr', hc', hsub, hG⟩
  obtain ⟨h1, h2⟩ := SKB.C69_of_gen (0, 0) hT hin hout hgen (fun m hm n hn => RWE.init_complete K (circularBasis junk b radii sigma axis) O2.table.size res hT hS (fun j hj => (hE j hj).1) (hin.ok m hm) (hout.ok n hn)
      (hcg m hm n hn).1 (hcg m hm n hn).2 fun e he => ⟨(hres' e he).1, (hres' e he).2.1⟩) hF hst'
    (fun e he g hg => ⟨((hres' e he).1.rows hg).trans (hres' e he).2.1, ((hres' e he).1.cols hg).trans (hres' e he).2.1⟩) (circular_independent junk radii sigma axis hb hlen hs hnd) hκ hspan
  unfold kernelsO2Subgroup
  rw [if_neg (not_not.2 ⟨hlen, hr, hs⟩), if_neg hne, hb]
  simp only [bind, Except.bind]
  cases hi : SKB.init K.T.size (0, 0) (circularBasis junk b radii sigma axis) (RWE.init K (circularBasis junk b radii sigma axis) O2.table.size res) rin rout with
  | error e =>
    refine ⟨fun he => h1 (hi.trans (congrArg Except.error (Except.error.inj he))), fun s F h => by simp at h⟩
  | ok s0 =>
    refine ⟨fun he => by simp at he, fun s F h => ?_⟩
    have h' := Except.ok.inj h
    rw [Prod.mk.injEq] at h'
    obtain ⟨rfl, rfl⟩ := h'
    exact h2 _ hi

/-- **C69** for `kernels_SO2_act_R2`: with Gaussians of distinct radius or width, its kernels span all the kernels of the given profiles and frequencies which are steerable under the rotations of the plane. -/
theorem C69_plane_so2 (rin rout : Rep ℝ ℕ) (radii sigma : List ℝ) (L : ℕ) (filter : Option (ℕ × ℕ → ℕ → Bool)) (junk : ℕ → ℝ)
    (hin : rin.WF SO2.table SO2.IsElement) (hout : rout.WF SO2.table SO2.IsElement) (hlen : radii.length = sigma.length) (hr : ∀ r ∈ radii, 0 ≤ r) (hs : ∀ s ∈ sigma, 0 < s) (hne : radii ≠ [])
    (hnd : (radii.zip sigma).Nodup) {b : Shells} (hb : Shells.init ShellKind.circ O2.table.size L radii.length filter = .ok b)
    {κ : ℝ × ℝ → NpMat ℝ} (hκ : SteerableKernel SO2.IsElement rotate rin.mat rout.mat fun x => .ok (κ x))
    (hspan : EntriesIn (circularSample junk b radii sigma (π / 2)) (b.dim O2.table.size) rout.size rin.size κ) :
    (kernelsSO2 rin rout radii sigma L filter junk = .error .emptyBasis → ∀ x, κ x ≈ zeros rout.size rin.size) ∧
    ∀ s F, kernelsSO2 rin rout radii sigma L filter junk = .ok (s, F) → Spanned (SKB.sample O2.table.size F s) s.dim rout.size rin.size κ := by
  have hel : ∀ h, SO2.IsElement h → O2.so2ToO2 h = .ok (0, h) ∧ O2.IsElement (0, h) := fun h hh => by
    have hm : mod2pi h = h := mod2pi_eq_self hh.1 hh.2
    exact ⟨by simp [O2.so2ToO2, O2.element, O2.reduce, hm], .inl rfl, hh.1, hh.2⟩
  exact C69_subgroup SO2.kgroup (restrictedIrrep SO2.table "O(2)" 0 fun i => .ok (O2.restrictSO2 i.1 i.2)) O2.so2ToO2 rotate rin rout radii sigma L (π / 2) filter junk SO2.table_valid SO2.C18_so2 SO2.schur
    hin hout (fun m _ n _ => ⟨TensorRep.so2_law n m, SO2.tensor_comm m n⟩) (fun h hh => ⟨_, (hel h hh).1, (hel h hh).2, fun R hR => (moveBy_rotation _ R hR h (hel h hh).2).symm⟩)
    (restrictedIrrep_ok fun r hwf hn => C13_o2_so2 [] "O(2)" r hwf hn) hlen hr hs hne hnd hb hκ hspan

/-- **C69** for `kernels_CN_act_R2`. -/
theorem C69_plane_cyclic (N : ℕ) (hN : 0 < N) (rin rout : Rep ℤ ℕ) (radii sigma : List ℝ) (L : ℕ) (filter : Option (ℕ × ℕ → ℕ → Bool)) (junk : ℕ → ℝ)
    (hin : rin.WF (Cyclic.table N) fun g => Cyclic.isElement N g = true) (hout : rout.WF (Cyclic.table N) fun g => Cyclic.isElement N g = true)
    (hlen : radii.length = sigma.length) (hr : ∀ r ∈ radii, 0 ≤ r) (hs : ∀ s ∈ sigma, 0 < s) (hne : radii ≠ [])
    (hnd : (radii.zip sigma).Nodup) {b : Shells} (hb : Shells.init ShellKind.circ O2.table.size L radii.length filter = .ok b)
    {κ : ℝ × ℝ → NpMat ℝ} (hκ : SteerableKernel (fun g => Cyclic.isElement N g = true) (fun h => rotate (2 * π * h / N)) rin.mat rout.mat fun x => .ok (κ x))
    (hspan : EntriesIn (circularSample junk b radii sigma (π / 2)) (b.dim O2.table.size) rout.size rin.size κ) :
    (kernelsCN N rin rout radii sigma L filter junk = .error .emptyBasis → ∀ x, κ x ≈ zeros rout.size rin.size) ∧
    ∀ s F, kernelsCN N rin rout radii sigma L filter junk = .ok (s, F) → Spanned (SKB.sample O2.table.size F s) s.dim rout.size rin.size κ := by
  have hle : ∀ {r : Rep ℤ ℕ}, r.WF (Cyclic.table N) (fun g => Cyclic.isElement N g = true) → ∀ m ∈ r.irreps, m ≤ N / 2 := fun hr m hm => of_decide_eq_true (hr.ok m hm)
  have hrad : ∀ h, Cyclic.isElement N h = true → 0 ≤ Cyclic.radians N h ∧ Cyclic.radians N h < 2 * π := fun h hh => by
    have h0 : (0 : ℝ) ≤ h ∧ (h : ℝ) < N := by
      simp only [Cyclic.isElement, Bool.and_eq_true, decide_eq_true_eq] at hh
      exact ⟨by exact_mod_cast hh.1, by exact_mod_cast hh.2⟩
    have hpi := Real.pi_pos
    have hN' : (0 : ℝ) < N := by exact_mod_cast hN
    unfold Cyclic.radians
    refine ⟨div_nonneg (mul_nonneg h0.1 (by positivity)) hN'.le, ?_⟩
    rw [div_lt_iff₀ hN']
    nlinarith [h0.2]
  have hel : ∀ h, Cyclic.isElement N h = true → O2.so2ToO2 (Cyclic.radians N h) = .ok (0, Cyclic.radians N h) ∧ O2.IsElement (0, Cyclic.radians N h) := fun h hh => by
    have hm : mod2pi (Cyclic.radians N h) = Cyclic.radians N h := mod2pi_eq_self (hrad h hh).1 (hrad h hh).2
    exact ⟨by simp [O2.so2ToO2, O2.element, O2.reduce, hm], .inl rfl, (hrad h hh).1, (hrad h hh).2⟩
  refine C69_subgroup (Cyclic.kgroup N) (restrictedIrrep (Cyclic.table N) "O(2)" 0 fun i => .ok (O2.restrictRot i.1 i.2 N)) (fun h => O2.so2ToO2 (Cyclic.radians N h)) (fun h => rotate (2 * π * h / N)) rin rout radii sigma L
    (π / 2) filter junk (Cyclic.table_valid N hN) (Cyclic.C18_cyclic N hN).1 (Cyclic.schur N hN) hin hout (fun m hm n hn => ⟨TensorRep.cyclic_law N hN (hle hout n hn) (hle hin m hm), Cyclic.tensor_comm N m n⟩)
    (fun h hh => ⟨_, (hel h hh).1, (hel h hh).2, fun R hR => ?_⟩) (restrictedIrrep_ok fun r hwf hn => C13_o2_rot N hN [] "O(2)" r hwf hn) hlen hr hs hne hnd hb hκ hspan
  rw [moveBy_rotation _ R hR _ (hel h hh).2, Cyclic.radians]
  congr 1
  ring

/-! ### Examples -/

/-- The rotation by a right angle commutes with the irrep of frequency 1 of SO(2), and so is a combination of the basis of `Linear`, which exists. -/
example : ∃ s, SKB.init SO2.table.size 0 (pointBasis 0 : FBasis ℕ Unit (Option ℕ)) (WE.init SO2.kgroup (pointBasis 0 : FBasis ℕ Unit (Option ℕ))) (irrepRep SO2.table "" ∅ 1) (irrepRep SO2.table "" ∅ 1) = .ok s ∧
    Spanned (SKB.sample SO2.table.size (pointBasis 0) s) s.dim 2 2 fun _ : Unit => (⟨2, 2, fun i j => if i = j then 0 else if i = 0 then -1 else 1⟩ : NpMat ℝ) := by
  have hwf := irrepRep_wf SO2.table_valid (j := 1) rfl (by decide) "" ∅
  have hone : ∀ g, SO2.IsElement g → (SO2.table.mat 0 g).get 0 0 = 1 := fun g _ => by simp [SO2.table, SO2.irrepMat, eye]
  have hst : (pointBasis 0 : FBasis ℕ Unit (Option ℕ)).Steerable SO2.irrepSize SO2.irrepMat SO2.IsElement fun _ => id :=
    pointBasis_steerable 0 SO2.table.size SO2.table.mat SO2.IsElement (fun _ => id) (by decide) hone
  obtain ⟨h1, h2⟩ := SKB.C69_point SO2.kgroup (irrepRep SO2.table "" ∅ 1) (irrepRep SO2.table "" ∅ 1) 0 SO2.table_valid SO2.C18_so2 SO2.schur hwf hwf
    (fun m _ n _ => ⟨TensorRep.so2_law n m, SO2.tensor_comm m n⟩) rfl (by decide) hone (M := ⟨2, 2, fun i j => if i = j then 0 else if i = 0 then -1 else 1⟩) rfl rfl (fun g _ => by
      refine ⟨rfl, rfl, fun i j hi hj => ?_⟩
      change i < 2 at hi
      change j < 2 at hj
      show ∑ k ∈ Finset.range 2, (if i = k then (0 : ℝ) else if i = 0 then -1 else 1) * (SO2.irrepMat 1 g).get k j = ∑ k ∈ Finset.range 2, (SO2.irrepMat 1 g).get i k * (if k = j then (0 : ℝ) else if k = 0 then -1 else 1)
      interval_cases i <;> interval_cases j <;> simp [Finset.sum_range_succ, SO2.irrepMat, psi, of2])
  rcases SKB.C38_so2 (pointBasis 0 : FBasis ℕ Unit (Option ℕ)) _ _ hwf hwf (by simp [pointBasis]) hst with h | ⟨s, hs, -⟩
  · have := (h1 h).2.2 0 1 (by decide) (by decide)
    simp [zeros] at this
  · exact ⟨s, hs, h2 s hs⟩

/-- The vector field `exp(-(|x|-1)²/2) x/|x|`, as a kernel from scalars to vectors. -/
noncomputable def radialField (x : ℝ × ℝ) : NpMat ℝ := ⟨2, 1, fun p _ => if 1e-9 < norm2 x then gaussian [1] [1] (norm2 x) 0 * (if p = 0 then x.1 / norm2 x else x.2 / norm2 x) else 0⟩

theorem norm2_rotate (θ : ℝ) (x : ℝ × ℝ) : norm2 (rotate θ x) = norm2 x := by
  have := sin_sq_add_cos_sq θ
  simp only [norm2, rotate]
  congr 1
  linear_combination (x.1 ^ 2 + x.2 ^ 2) * this

/-- The radial field is found by `kernels_SO2_act_R2`, whose basis exists. -/
theorem C69_radialField (junk : ℕ → ℝ) : ∃ s F, kernelsSO2 (irrepRep SO2.table "" ∅ 0) (irrepRep SO2.table "" ∅ 1) [1] [1] 1 none junk = .ok (s, F) ∧
    Spanned (SKB.sample O2.table.size F s) s.dim 2 1 radialField := by
  have hwf0 := irrepRep_wf SO2.table_valid (j := 0) rfl (by decide) "" ∅
  have hwf1 := irrepRep_wf SO2.table_valid (j := 1) rfl (by decide) "" ∅
  have hb : Shells.init ShellKind.circ O2.table.size 1 ([1] : List ℝ).length none = .ok ⟨ShellKind.circ, 1, 1, none, none, none, [((0, 0), 1), ((1, 1), 1)], 0⟩ := rfl
  obtain ⟨h1, h2⟩ := C69_plane_so2 (irrepRep SO2.table "" ∅ 0) (irrepRep SO2.table "" ∅ 1) [1] [1] 1 none junk hwf0 hwf1 rfl (by simp) (by simp) (by simp) (by simp) hb (κ := radialField)
    (fun x => ⟨_, rfl, fun g _ => ⟨rfl, rfl, _, rfl, rfl, rfl, fun i j hi hj => by
      change i < 2 at hi
      change j < 1 at hj
      show ∑ k ∈ Finset.range 1, (radialField (rotate g x)).get i k * (SO2.irrepMat 0 g).get k j = ∑ k ∈ Finset.range 2, (SO2.irrepMat 1 g).get i k * (radialField x).get k j
      simp only [radialField, norm2_rotate]
      by_cases hx : 1e-9 < norm2 x
      · simp only [if_pos hx]
        interval_cases i <;> interval_cases j <;> simp [Finset.sum_range_succ, SO2.irrepMat, psi, of2, eye, rotate] <;> ring
      · simp [if_neg hx]⟩⟩)
    ⟨fun _ => ⟨rfl, rfl⟩, fun p hp q hq => ⟨fun i => if p = 0 then (if i = 2 then -1 else 0) else (if i = 1 then 1 else 0), fun x => by
      have hs : ∀ e it, (Shells.items ShellKind.circ (Shells.kept ShellKind.circ 1 none) (List.range (1 + 1)))[e]? = some it → circularSample junk ⟨ShellKind.circ, 1, 1, none, none, none, [((0, 0), 1), ((1, 1), 1)], 0⟩ [1] [1] (π / 2) x e =
          gaussian [1] [1] (norm2 x) it.2.1 * circularAt (π / 2) x (ShellKind.circ.first it.1 + it.2.2) := fun e it he => Shells.sample_spec ShellKind.circ_ok hb junk _ _ e it he
      obtain ⟨φ, hφ⟩ := norm2_polar x
      have hat : ∀ j c, c < ShellKind.circ.dim j → circularAt (π / 2) x (ShellKind.circ.first j + c) = if j = 0 then 1 else if 1e-9 < norm2 x then (if c = 0 then cos (j * (φ - π / 2)) else sin (j * (φ - π / 2))) else 0 := fun j c hc =>
        (congrArg (fun y => circularAt (π / 2) y (ShellKind.circ.first j + c)) hφ).trans (circularAt_polar (π / 2) (norm2 x) φ (norm2_nonneg x) j c hc)
      have s1 := hs 1 (1, 0, 0) rfl
      have s2 := hs 2 (1, 0, 1) rfl
      rw [hat 1 0 (by decide)] at s1
      rw [hat 1 1 (by decide)] at s2
      have hd : Shells.dim O2.table.size ⟨ShellKind.circ, 1, 1, none, none, none, [((0, 0), 1), ((1, 1), 1)], 0⟩ = 3 := rfl
      have hp' : p < 2 := hp
      rw [hd]
      simp only [Finset.sum_range_succ, Finset.sum_range_zero, s1, s2, radialField]
      by_cases hx : 1e-9 < norm2 x
      · have hx0 : norm2 x ≠ 0 := by
          intro e
          rw [e] at hx
          norm_num at hx
        have e1 : x.1 / norm2 x = cos φ := by
          have := congrArg Prod.fst hφ
          simp only at this
          field_simp
          linarith
        have e2 : x.2 / norm2 x = sin φ := by
          have := congrArg Prod.snd hφ
          simp only at this
          field_simp
          linarith
        rw [e1, e2]
        interval_cases p <;> simp [hx, cos_sub, sin_sub]
      · interval_cases p <;> simp [hx]⟩⟩
  rcases C65_so2 (irrepRep SO2.table "" ∅ 0) (irrepRep SO2.table "" ∅ 1) [1] [1] 1 none junk hwf0 hwf1 rfl (by simp) (by simp) with h | ⟨s, F, hs, -⟩
  · have := (h1 h (1, 0)).2.2 0 0 (by show 0 < 2; norm_num) (by show 0 < 1; norm_num)
    simp [zeros, radialField, norm2, gaussian] at this
    norm_num at this
  · exact ⟨s, F, hs, h2 s F hs⟩

end Escnn
