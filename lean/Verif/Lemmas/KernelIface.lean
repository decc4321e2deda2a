import Verif.Model.KernelIface
import Verif.Props.C34_Filter
import Verif.Props.C37_Steerable
import Verif.Props.C37_Sparse
import Verif.Props.C25_TransformFibers

/-!
# Kernel bases as inputs of the basis expansion
-/

namespace Escnn

open NpMat

variable {G J J' P A : Type} [DecidableEq J] {El : G → Prop} {op : G → G → G} {one : G}

/-- What a generator of kernel bases returns for two representations: no basis, or a steerable one with an attribute for each element. -/
def SKB.Serves (El : G → Prop) (act : G → P → P) (Fsize : J → ℕ) (F : FBasis J P A) (rin rout : Rep G J') (r : Except Err (SKB J J' A)) : Prop :=
  r = .error .emptyBasis ∨ ∃ s L, r = .ok s ∧ s.rows = rout.size ∧ s.cols = rin.size ∧ s.iter = .ok L ∧ L.length = s.dim ∧
    ∀ e < s.dim, SteerableKernel El act rin.mat rout.mat fun x => SKB.sample Fsize F s x e

/-- The sampled basis. -/
theorem SKB.kbasis_spec {T : IrrepTable G J'} {act : G → P → P} {Fsize : J → ℕ} {F : FBasis J P A} {rin rout : Rep G J'} {s : SKB J J' A} {L : List (SAttr J J' A)} (hin : rin.WF T El)
    (hout : rout.WF T El) (hone : El one)
    (hr : s.rows = rout.size) (hc : s.cols = rin.size) (hL : s.iter = .ok L) (hlen : L.length = s.dim)
    (hst : ∀ e < s.dim, SteerableKernel El act rin.mat rout.mat fun x => SKB.sample Fsize F s x e) (pts : List P) :
    ∃ k, s.kbasis Fsize F pts = .ok k ∧ k.outSize = rout.size ∧ k.inSize = rin.size ∧ k.attrs = L.map (SAttr.toAttr rout.size) ∧ k.sampled.length = k.attrs.length ∧
      ∀ K ∈ k.sampled, ∀ g, El g → ∀ (p q : ℕ) x, pts[p]? = some x → pts[q]? = some (act g x) →
        mul ((Kern.mk rout.size rin.size K).at q) (rin.mat g) ≈ mul (rout.mat g) ((Kern.mk rout.size rin.size K).at p) := by
  have hex : ∀ e x, ∃ k, e < s.dim → SKB.sample Fsize F s x e = .ok k := fun e x => by
    by_cases he : e < s.dim
    · obtain ⟨k, hk, -⟩ := hst e he x
      exact ⟨k, fun _ => hk⟩
    · exact ⟨zeros 0 0, fun h => absurd h he⟩
  choose κ hκ using hex
  have hm : mapE (fun e => mapE (fun x => SKB.sample Fsize F s x e) pts) (List.range s.dim) = .ok ((List.range s.dim).map fun e => pts.map (κ e)) :=
    mapE_map fun e he => mapE_map fun x _ => hκ e x (List.mem_range.1 he)
  refine ⟨⟨s.rows, s.cols, L.map (SAttr.toAttr s.rows), ((List.range s.dim).map fun e => pts.map (κ e)).map fun M a c p => (M[p]?.getD (zeros 0 0)).get a c⟩, by simp only [SKB.kbasis, bind, Except.bind, hL, hm], hr, hc, by rw [hr], by simp [hlen], fun K hK g hg p q x hp hq => ?_⟩
  obtain ⟨M, hM, rfl⟩ := List.mem_map.1 hK
  obtain ⟨e, he, rfl⟩ := List.mem_map.1 hM
  have he := List.mem_range.1 he
  obtain ⟨k, hk, hk'⟩ := hst e he x
  obtain rfl := Except.ok.inj ((hκ e x he).symm.trans hk)
  obtain ⟨h1, h2, k', hk2, h3⟩ := hk' g hg
  obtain rfl := Except.ok.inj ((hκ e (act g x) he).symm.trans hk2)
  have hsz : ∀ y, (κ e y).rows = rout.size ∧ (κ e y).cols = rin.size := fun y => by
    obtain ⟨k, hk, hk'⟩ := hst e he y
    obtain rfl := Except.ok.inj ((hκ e y he).symm.trans hk)
    obtain ⟨h1, h2, -⟩ := hk' one hone
    exact ⟨h1.trans (hout.rows hone), h2.trans (hin.rows hone)⟩
  have e1 : ((Kern.mk rout.size rin.size fun a c p => ((pts.map (κ e))[p]?.getD (zeros 0 0)).get a c).at q) ≈ κ e (act g x) :=
    ⟨(hsz _).1.symm, (hsz _).2.symm, fun i j _ _ => by simp [Kern.at, hq]⟩
  have e2 : ((Kern.mk rout.size rin.size fun a c p => ((pts.map (κ e))[p]?.getD (zeros 0 0)).get a c).at p) ≈ κ e x :=
    ⟨(hsz _).1.symm, (hsz _).2.symm, fun i j _ _ => by simp [Kern.at, hp]⟩
  refine (mul_congr_left _ e1 ?_).trans (h3.trans (mul_congr_right _ e2 ?_).symm)
  · exact (hin.rows hg).symm
  · exact hout.cols hg

/-- The filters of a steerable layer. -/
theorem Blocks.steerable_filter {S : Type} {T : IrrepTable G J'} {act : G → P → P} {Fsize : J → ℕ} {F : FBasis J P A} {mk : Rep G J' → Rep G J' → Except Err (SKB J J' A)} {pts : List P} (hone : El one)
    (inT outT : FType S (Rep G J')) {uin uout : List (Rep G J')} (hpts : 0 < pts.length)
    (hui : ∀ r, r ∈ uin ↔ r ∈ inT.reprs) (hun : uin.Nodup) (huo : ∀ r, r ∈ uout ↔ r ∈ outT.reprs) (hon : uout.Nodup)
    (hni : ∀ r ∈ inT.reprs, ∀ r' ∈ inT.reprs, escName r.name = escName r'.name → r = r') (hno : ∀ r ∈ outT.reprs, ∀ r' ∈ outT.reprs, escName r.name = escName r'.name → r = r')
    (hin : ∀ r ∈ inT.reprs, r.WF T El) (hout : ∀ r ∈ outT.reprs, r.WF T El)
    (hser : ∀ i ∈ inT.reprs, ∀ o ∈ outT.reprs, SKB.Serves El act Fsize F i o (mk i o)) (filt : Option (Attr (SAttr J J' A) → Bool)) :
    Input Rep.name Rep.size (kernGen Fsize F pts mk) uin uout inT.reprs outT.reprs ∧
    ∃ m, init Rep.name Rep.size (blockFor (kernGen Fsize F pts mk) filt pts.length) uin uout inT.reprs outT.reprs pts.length = .ok m ∧
      ((uin.length * uout.length = 1 → 0 < m.dim) → ∀ w : ℕ → ℝ, ∃ f, Blocks.forward m m.dim w = .ok f ∧ f.rows = outT.size Rep.size ∧ f.cols = inT.size Rep.size ∧
        ∀ g, El g → ∀ (p q : ℕ) x, pts[p]? = some x → pts[q]? = some (act g x) → mul (f.at q) (inT.fiberRep g) ≈ mul (outT.fiberRep g) (f.at p)) := by
  have hbasis : ∀ i ∈ inT.reprs, ∀ o ∈ outT.reprs, kernGen Fsize F pts mk i o = .error .emptyBasis ∨ ∃ k, kernGen Fsize F pts mk i o = .ok k ∧ k.outSize = o.size ∧ k.inSize = i.size ∧
      k.sampled.length = k.attrs.length ∧ ∀ K ∈ k.sampled, ∀ g, El g → ∀ (p q : ℕ) x, pts[p]? = some x → pts[q]? = some (act g x) →
        mul ((Kern.mk o.size i.size K).at q) (i.mat g) ≈ mul (o.mat g) ((Kern.mk o.size i.size K).at p) := by
    intro i hi o ho
    rcases hser i hi o ho with h | ⟨s, L, hs, h1, h2, h3, h4, h5⟩
    · exact .inl (by simp only [kernGen, bind, Except.bind, h])
    · obtain ⟨k, hk, a1, a2, -, a4, a5⟩ := SKB.kbasis_spec (hin i hi) (hout o ho) hone h1 h2 h3 h4 h5 pts
      exact .inr ⟨k, by simp only [kernGen, bind, Except.bind, hs, hk], a1, a2, a4, a5⟩
  have hI : Input Rep.name Rep.size (kernGen Fsize F pts mk) uin uout inT.reprs outT.reprs :=
    ⟨hui, hun, huo, hon, hni, hno, fun r hr => (hin r hr).pos, fun r hr => (hout r hr).pos, fun i hi o ho => (hbasis i hi o ho).imp_right fun ⟨k, a, b, c, d, _⟩ => ⟨k, a, b, c, d⟩⟩
  refine ⟨hI, ?_⟩
  obtain ⟨m, T', hm, f⟩ := init_spec (hI.args filt pts.length) pts.length
  refine ⟨m, hm, fun hd w => ?_⟩
  have hone' : uin.length * uout.length = 1 → ∃ i ∈ inT.reprs, ∃ o ∈ outT.reprs, ∃ b, blockFor (kernGen Fsize F pts mk) filt pts.length i o = .ok b := by
    intro h1
    have h2 := hd h1
    rw [f.dim] at h2
    have h3 : m.pairs ≠ [] := by
      intro h
      rw [h] at h2
      simp at h2
    obtain ⟨p, hp⟩ := List.exists_mem_of_ne_nil _ h3
    obtain ⟨b, i, hi, o, ho, -, hg⟩ := (f.mem p).1 hp
    exact ⟨i, hi, o, ho, b, hg⟩
  obtain ⟨m', hm', hf⟩ := C34_filter_partial hI filt hpts (fun _ => 0) hone'
  obtain rfl := Except.ok.inj (hm.symm.trans hm')
  obtain ⟨m'', hm'', he⟩ := C34_equivariant_partial (G := {g // El g}) hI filt hpts hone' (fun g r => r.mat g.1) (fun g r hr => ⟨(hin r hr).rows g.2, (hin r hr).cols g.2⟩)
    (fun g r hr => ⟨(hout r hr).rows g.2, (hout r hr).cols g.2⟩) (fun g p q => ∃ x, pts[p]? = some x ∧ pts[q]? = some (act g.1 x)) (fun i hi o ho k hk K hK g p _ q _ hmv => by
      obtain ⟨x, h1, h2⟩ := hmv
      rcases hbasis i hi o ho with h | ⟨k', hk', -, -, -, h5⟩
      · rw [h] at hk; cases hk
      · obtain rfl := Except.ok.inj (hk.symm.trans hk')
        exact h5 K hK g.1 g.2 p q x h1 h2)
  obtain rfl := Except.ok.inj (hm.symm.trans hm'')
  obtain ⟨f1, g1, g2, g3, -⟩ := hf w
  obtain ⟨f2, g4, g5⟩ := he w
  obtain rfl := Except.ok.inj (g1.symm.trans g4)
  refine ⟨f1, g1, by rw [g2, FType.size_eq], by rw [g3, FType.size_eq], fun g hg p q x hp hq => ?_⟩
  exact g5 ⟨g, hg⟩ p (List.getElem?_eq_some_iff.1 hp).1 q (List.getElem?_eq_some_iff.1 hq).1 ⟨x, hp, hq⟩

/-- The Wigner-Eckart kernels serve. -/
theorem SKB.serves_we {act : G → P → P} (K : KGroup G J) (F : FBasis J P A) (rin rout : Rep G J) (triv : J) (hT : K.T.Valid El op one) (hE : EndoValid K.T K.typ El)
    (hin : rin.WF K.T El) (hout : rout.WF K.T El)
    (hcg : ∀ m ∈ rin.irreps, ∀ n ∈ rout.irreps, ((K.tensor m n).map Prod.fst).Nodup ∧ ∀ p ∈ K.tensor m n, K.T.ok p.1 = true ∧
      (K.cg n m p.1).mult = p.2 ∧ ∀ g, El g → Intertwines (K.T.mat n g) (K.T.mat m g) (K.T.mat p.1 g) (K.cg n m p.1))
    (hF : (F.js.map Prod.fst).Nodup) (hFok : ∀ e ∈ F.js, K.T.ok e.1 = true) (hst : F.Steerable K.T.size K.T.mat El act) (hA : F.AttrsAgree) :
    SKB.Serves El act K.T.size F rin rout (SKB.init K.T.size triv F (WE.init K F) rin rout) := by
  rcases SKB.C38_wigner_eckart K F rin rout triv hT hE hin hout hcg hF hFok hst with h | ⟨s, hs, h1, h2, -, h4⟩
  · exact .inl h.1
  · have hgen : ∀ m ∈ rin.irreps, ∀ n ∈ rout.irreps, SKB.GenGood El K.T.size K.T.mat K.T F m n (WE.init K F m n) := by
      intro m hm n hn
      rcases WE.init_spec K F m n hT hE (hin.ok m hm) (fun p hp => ((hcg m hm n hn).2 p hp).1) (hcg m hm n hn).1 (fun p hp => ((hcg m hm n hn).2 p hp).2) hF with h | ⟨b, hb, -, hr, hc, -, hG⟩
      · exact .inl h.1
      · exact .inr ⟨b, hb, hr, hc, fun j hj => List.mem_map.2 ⟨_, FBasis.mem_of_mult (hG.mult j hj), rfl⟩, hG⟩
    obtain ⟨L, g1, g2, -⟩ := SKB.C37_steerable (triv := triv) hT hin hout hgen hF (fun m hm n hn b hb => by
      obtain ⟨⟨a1, a2, -⟩, -⟩ := WE.attr_full K F m n (hcg m hm n hn).1 (fun p hp => (hE p.1 ((hcg m hm n hn).2 p hp).1).1) hF hA b hb
      exact ⟨a1, a2⟩) hs
    exact .inr ⟨s, L, hs, h1, h2, g1, g2, h4⟩

end Escnn
