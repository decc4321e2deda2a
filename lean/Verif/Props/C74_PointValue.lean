import Verif.Props.C74_PointConv

/-!
# C74 The values of the convolutions on point clouds
-/

namespace Escnn

open NpMat FType

variable {n : ℕ} {G J J' S P A : Type} [DecidableEq J] [DecidableEq J'] {El : G → Prop}

/-- A sum over the channels, field by field. -/
theorem sum_fields {R : Type} (sz : R → ℕ) (L : List R) (f : ℕ → ℝ) : ∑ c ∈ Finset.range (L.map sz).sum, f c = ∑ i : Fin L.length, ∑ c ∈ Finset.range (sz L[i]), f (chanOffset sz L i + c) := by
  have key : ∀ k (hk : k ≤ L.length), ∑ c ∈ Finset.range (chanOffset sz L k), f c = ∑ i : Fin k, ∑ c ∈ Finset.range (sz (L[(i : ℕ)]'(by omega))), f (chanOffset sz L i + c) := by
    intro k
    induction k with
    | zero => intro _; simp [chanOffset]
    | succ k ih =>
      intro hk
      have e : chanOffset sz L (k + 1) = chanOffset sz L k + sz (L[k]'(by omega)) := by
        simp only [chanOffset]
        rw [List.take_succ_eq_append_getElem (by omega), List.map_append, List.sum_append]
        simp
      rw [e, Finset.sum_range_add, ih (by omega), Fin.sum_univ_castSucc]
      rfl
  rw [← chanOffset_length]
  exact key _ le_rfl

namespace PointConv

open Sampler

/-- The samples of `sampleGen` at the point `p` of a list only depend on this point. -/
theorem sampleGen_single {Fsize : J → ℕ} {F : FBasis J P A} {mk : Rep G J' → Rep G J' → Except Err (SKB J J' A)} {dec : (Fin n → ℝ) → P} {filt : Option (Attr (SAttr J J' A) → Bool)} {i o : Rep G J'} {b : PBlock (Fin n → ℝ) (SAttr J J' A)}
    (h : Sampler.blockFor Rep.name (sampleGen Fsize F dec mk) filt i o = .ok b) {pts : List (Fin n → ℝ)} {p : ℕ} {v : Fin n → ℝ} (hv : pts[p]? = some v) (a c k : ℕ) : b.sample pts p a c k = b.sample [v] 0 a c k := by
  unfold Sampler.blockFor at h
  obtain ⟨kb, h1, h⟩ := bind_ok h
  obtain ⟨b', h2, h⟩ := bind_ok h
  split_ifs at h
  obtain rfl := Except.ok.inj h
  obtain ⟨e1, -⟩ := ofFilter_mask h2
  unfold sampleGen at h1
  obtain ⟨s, -, h1⟩ := bind_ok h1
  unfold SKB.pbasis at h1
  obtain ⟨L, -, h1⟩ := bind_ok h1
  obtain rfl := Except.ok.inj h1
  unfold PBlock.sample
  rw [e1]
  simp [hv]

/-- The mean, with the number of the edges which end in the point. -/
theorem mean_eq (edges : List (ℕ × ℕ)) (msg : ℕ → ℕ → ℝ) (p c : ℕ) :
    mean edges msg p c = (∑ e ∈ Finset.range edges.length with edges[e]?.map Prod.snd = some p, msg e c) / (edges.map Prod.snd).count p := by
  unfold mean
  have h1 : (Finset.range edges.length).filter (fun e => (edges[e]?.getD (0, 0)).2 = p) = (Finset.range edges.length).filter fun e => edges[e]?.map Prod.snd = some p := by
    refine Finset.filter_congr fun e he => ?_
    rw [List.getElem?_eq_getElem (Finset.mem_range.1 he)]
    simp
  have h2 : (edges.filter fun e => decide (e.2 = p)).length = (edges.map Prod.snd).count p := by
    rw [← List.countP_eq_length_filter, List.count, List.countP_map]
    congr 1
  rw [h1, h2]
  by_cases h : (edges.map Prod.snd).count p = 0
  · rw [Finset.sum_eq_zero, zero_div, zero_div]
    intro e he
    exfalso
    obtain ⟨he1, he2⟩ := Finset.mem_filter.1 he
    rw [List.count_eq_zero] at h
    refine h (List.mem_of_getElem? (i := e) ?_)
    rw [List.getElem?_map]; exact he2
  · congr 1
    rw [max_eq_right]
    exact_mod_cast Nat.one_le_iff_ne_zero.2 h

open Classical in
/-- **C74** The features which a layer with one group returns: at the point `p`, the mean over the edges from a point `q` to `p` of the kernel at the displacement of the edge (`pos q - pos p` if it is not passed) applied to the features of `q`, plus the bias; for a point at which
no edge ends, the bias.  The kernel of a pair of fields is the combination of the samples which `SingleBlockBasisSampler` returns, with the weights `w (slot o i k)`. -/
theorem C74_value {T : IrrepTable G J'} {triv : J'} {act : G → P → P} {Fsize : J → ℕ} (F : FBasis J P A)
    (mk : Rep G J' → Rep G J' → Except Err (SKB J J' A)) (toPt : (Fin n → ℝ) → P)
    (inT outT : FType S (Rep G J')) (hin : ∀ r ∈ inT.reprs, r.WF T El) (hout : ∀ r ∈ outT.reprs, r.WF T El)
    (gdim : S → ℕ) (filt : Option (Attr (SAttr J J' A) → Bool))
    {uin uout : List (Rep G J')} (hui : ∀ r, r ∈ uin ↔ r ∈ inT.reprs) (hun : uin.Nodup) (huo : ∀ r, r ∈ uout ↔ r ∈ outT.reprs) (hon : uout.Nodup)
    (hni : ∀ r ∈ inT.reprs, ∀ r' ∈ inT.reprs, r.name = r'.name → r = r') (hno : ∀ r ∈ outT.reprs, ∀ r' ∈ outT.reprs, r.name = r'.name → r = r')
    (hdi : ∀ r ∈ inT.reprs, '.' ∉ r.name.toList) (hdo : ∀ r ∈ outT.reprs, '.' ∉ r.name.toList)
    (hser : ∀ i ∈ inT.reprs, ∀ o ∈ outT.reprs, SKB.Serves El act Fsize F i o (mk i o)) (bias : Bool) (w0 : ℕ → ℝ) {l : PointConv n S (Rep G J') (SAttr J J' A)}
    (hl : init T.size triv gdim (sampleGen Fsize F toPt mk) filt uin uout inT outT 1 bias w0 = .ok l) :
    ∃ slot : ℕ → ℕ → ℕ → ℕ, ∀ w bw mode edges delta (δ : ℕ → Fin n → ℝ) (x : GPoints n S (Rep G J')), edges ≠ [] → x.type = inT → x.chans = inT.size Rep.size → (∀ e ∈ edges, e.1 < x.size ∧ e.2 < x.size) →
      ((delta = none ∧ ∀ e q p, edges[e]? = some (q, p) → ∀ i, δ e i = x.coords q i - x.coords p i) ∨ delta = some ((List.range edges.length).map δ)) →
      ∃ y, forward gdim (({ l with weights := w, bias := bw } : PointConv n S (Rep G J') (SAttr J J' A)).train mode) edges delta x = .ok y ∧
        y.size = x.size ∧ y.coords = x.coords ∧ y.type = outT ∧ y.chans = outT.size Rep.size ∧
        ∀ p o ro a, outT.reprs[o]? = some ro → a < ro.size → y.feats p (chanOffset Rep.size outT.reprs o + a) =
          (∑ e ∈ Finset.range edges.length with edges[e]?.map Prod.snd = some p, ∑ i : Fin inT.reprs.length, ∑ c ∈ Finset.range inT.reprs[i].size,
            (match Sampler.blockFor Rep.name (sampleGen Fsize F toPt mk) filt inT.reprs[i] ro with
              | .ok b => ∑ k ∈ Finset.range b.dim, w (slot o i k) * b.sample [δ e] 0 a c k
              | .error _ => 0) * x.feats (edges[e]?.getD (0, 0)).1 (chanOffset Rep.size inT.reprs i + c)) / (edges.map Prod.snd).count p +
          Linear.biasAt ((if bias then Bias.expansion T.size triv outT.reprs else none).map fun E => Bias.expand E bw) (chanOffset Rep.size outT.reprs o + a) := by
  have hbasis : ∀ i ∈ inT.reprs, ∀ o ∈ outT.reprs, sampleGen Fsize F toPt mk i o = .error .emptyBasis ∨ ∃ k, sampleGen Fsize F toPt mk i o = .ok k ∧ k.outSize = o.size ∧ k.inSize = i.size := by
    intro i hi o ho
    rcases hser i hi o ho with h | ⟨s, L, hs, h1, h2, h3, h4, h5⟩
    · exact .inl (by simp only [sampleGen, bind, Except.bind, h])
    · obtain ⟨k, hk, a1, a2, a3⟩ := SKB.pbasis_spec (dec := toPt) (hin i hi) (hout o ho) h1 h2 h3 h4 h5
      exact .inr ⟨k, by simp only [sampleGen, bind, Except.bind, hs, hk], a1, a2⟩
  have hI : Input Rep.name Rep.size (sampleGen Fsize F toPt mk) uin uout inT.reprs outT.reprs :=
    ⟨hui, hun, huo, hon, fun r hr r' hr' h => by rw [hni r hr r' hr' h], fun r hr r' hr' h => by rw [hno r hr r' hr' h], fun r hr => (hin r hr).pos, fun r hr => (hout r hr).pos, hdi, hdo, hbasis⟩
  obtain ⟨m, hm, f⟩ := hI.init_spec filt
  have hinit : init T.size triv gdim (sampleGen Fsize F toPt mk) filt uin uout inT outT 1 bias w0 = if inT.gspace ≠ outT.gspace ∨ gdim inT.gspace ≠ n then .error .assertion else
      if m.dim = 0 then .error .value else .ok ⟨inT, outT, 1, m, if bias then Bias.expansion T.size triv outT.reprs else none, w0, fun _ => 0, true, some ((if bias then Bias.expansion T.size triv outT.reprs else none).map fun _ _ => 0)⟩ := by
    rw [init]
    by_cases h : inT.gspace ≠ outT.gspace ∨ gdim inT.gspace ≠ n
    · rw [if_pos h, if_pos h]
    · rw [if_neg h, if_neg h]
      simp only [bind, Except.bind, RdConv.groupType]
      rw [if_neg (by omega)]
      simp only
      rw [show (Sampler.init Rep.name Rep.size (Sampler.blockFor Rep.name (sampleGen Fsize F toPt mk) filt) uin uout inT.reprs outT.reprs) = .ok m from hm]
  rw [hinit] at hl
  by_cases hg0 : inT.gspace ≠ outT.gspace ∨ gdim inT.gspace ≠ n
  · rw [if_pos hg0] at hl; cases hl
  by_cases hdim : m.dim = 0
  · rw [if_neg hg0, if_pos hdim] at hl; cases hl
  rw [if_neg hg0, if_neg hdim] at hl
  obtain rfl := Except.ok.inj hl
  obtain ⟨hsp, hgd⟩ := not_or.1 hg0
  rw [not_not] at hsp hgd
  set be := if bias then Bias.expansion T.size triv outT.reprs else none with hbe
  rcases f.fields hI filt hni hno Nat.one_pos with ⟨e, he⟩ | ⟨grp, slot, hgrp, hok⟩
  · exfalso
    rcases f.both (fun _ => 0) [fun _ => 0] (by simp) ⟨1, 1, m.inSize, fun _ _ _ => 0⟩ rfl rfl rfl with ⟨hu, hp⟩ | ⟨K, y, e1, e2, e3, e4, e5, e6, e7, e8⟩
    · exact hdim (f.dim.2 hp)
    · have := he (fun _ => 0) [fun _ => 0] ⟨1, m.inSize, fun _ _ => 0⟩ (by simp) rfl (by simp)
      rw [messages, if_neg (by simp [Nat.mod_one]), if_pos rfl, computeThenExpand, if_neg (by simp), if_neg (by simp)] at this
      rw [e5] at this
      cases this
  refine ⟨slot, fun w bw mode edges delta δ x hne hx hxc hxe hδ => ?_⟩
  have hdl : (deltas x.coords edges delta).length = edges.length ∧ ∀ e < edges.length, (deltas x.coords edges delta)[e]? = some (δ e) := by
    rcases hδ with ⟨rfl, h⟩ | rfl
    · refine ⟨by simp [deltas], fun e he => ?_⟩
      simp only [deltas]
      rw [List.getElem?_map, List.getElem?_eq_getElem he, Option.map_some]
      congr 1
      funext i
      exact (h e _ _ (List.getElem?_eq_getElem he) i).symm
    · exact ⟨by simp [deltas], fun e he => by simp [deltas, he]⟩
  have hpre : forward gdim ((⟨inT, outT, 1, m, be, w, bw, true, some (be.map fun _ _ => 0)⟩ : PointConv n S (Rep G J') (SAttr J J' A)).train mode) edges delta x =
      (m.messages m.dim w ⟨edges.length, x.chans, fun e c => edges[e]?.elim 0 fun d => x.feats d.1 c⟩ (deltas x.coords edges delta) true 1 >>= fun y =>
        GPoints.mk' Rep.size gdim x.size x.coords y.cols (fun p c => mean edges y.get p c + Linear.biasAt (be.map fun E => Bias.expand E bw) c) outT) := by
    have hc : ∀ l : PointConv n S (Rep G J') (SAttr J J' A), l.inType = inT → l.outType = outT → l.groups = 1 → l.sampler = m → l.weights = w → l.current = .ok (be.map fun E => Bias.expand E bw) → forward gdim l edges delta x =
        (m.messages m.dim w ⟨edges.length, x.chans, fun e c => edges[e]?.elim 0 fun d => x.feats d.1 c⟩ (deltas x.coords edges delta) true 1 >>= fun y =>
          GPoints.mk' Rep.size gdim x.size x.coords y.cols (fun p c => mean edges y.get p c + Linear.biasAt (be.map fun E => Bias.expand E bw) c) outT) := by
      intro l l1 l2 l3 l4 l5 l6
      rw [forward, if_neg (by rw [hx, l1]; simp), if_neg (not_not.2 hxe), message, l3, l4, l5, l6, l2]
      rfl
    cases mode <;> exact hc _ (by simp [train]) (by simp [train]) (by simp [train]) (by simp [train]) (by simp [train]) (by simp [train, current, expandBias])
  obtain ⟨K, hK1, hK2⟩ := hok w (deltas x.coords edges delta)
  obtain ⟨y, y1, y2, y3, y4⟩ := hK1 ⟨edges.length, x.chans, fun e c => edges[e]?.elim 0 fun d => x.feats d.1 c⟩ (by rw [hdl.1]; exact List.length_pos_iff.2 hne) hdl.1.symm (by simp only; rw [hxc, f.inSize, FType.size_eq, Nat.mul_one])
  have hos : y.cols = outT.size Rep.size := by rw [y3, f.outSize, FType.size_eq]
  refine ⟨⟨x.size, x.coords, y.cols, fun p c => mean edges y.get p c + Linear.biasAt (be.map fun E => Bias.expand E bw) c, outT⟩, ?_, rfl, rfl, rfl, hos, fun p o ro a ho ha => ?_⟩
  · refine hpre.trans ?_
    rw [y1]
    exact if_pos ⟨by rw [← hsp, hgd], hos⟩
  · simp only
    rw [mean_eq]
    congr 2
    refine Finset.sum_congr rfl fun e he => ?_
    obtain ⟨he1, he2⟩ := Finset.mem_filter.1 he
    rw [y4 e o ro a ho ha, f.inSize, sum_fields Rep.size]
    have hg0 : grp o = 0 := by have := hgrp o; omega
    refine Finset.sum_congr rfl fun i _ => Finset.sum_congr rfl fun c hc => ?_
    have hee : edges[e]? = some (edges[e]'(Finset.mem_range.1 he1)) := List.getElem?_eq_getElem (Finset.mem_range.1 he1)
    simp only [hg0, Nat.zero_mul, Nat.zero_add, hee, Option.elim_some, Option.getD_some]
    congr 1
    have hi : inT.reprs[(i : ℕ)]? = some inT.reprs[i] := List.getElem?_eq_getElem i.2
    obtain ⟨k1, k2⟩ := hK2 e o ro i inT.reprs[i] a c ho hi ha (Finset.mem_range.1 hc)
    rcases hI.blockFor_cases filt (List.mem_of_getElem? hi) (List.mem_of_getElem? ho) with hb | ⟨b, hb, -⟩
    · rw [k1 hb, hb]
    · rw [k2 b hb, hb]
      simp only
      refine Finset.sum_congr rfl fun k _ => ?_
      rw [sampleGen_single hb (hdl.2 e (Finset.mem_range.1 he1))]

/-- A sum over the positions of a list. -/
theorem sum_positions {α : Type} (L : List α) (d : α) (h : α → ℝ) : ∑ e ∈ Finset.range L.length, h (L[e]?.getD d) = (L.map h).sum := by
  rw [← Fin.sum_univ_eq_sum_range (fun e => h (L[e]?.getD d)), ← List.sum_ofFn]
  congr 1
  refine List.ext_getElem (by simp) fun i h1 h2 => ?_
  simp only [List.getElem_ofFn, List.getElem_map]
  rw [List.getElem?_eq_getElem (by simpa using h1), Option.getD_some]

/-- **C74** The order in which the edges are listed does not matter. -/
theorem C74_edge_order {T : IrrepTable G J'} {triv : J'} {act : G → P → P} {Fsize : J → ℕ} (F : FBasis J P A)
    (mk : Rep G J' → Rep G J' → Except Err (SKB J J' A)) (toPt : (Fin n → ℝ) → P)
    (inT outT : FType S (Rep G J')) (hin : ∀ r ∈ inT.reprs, r.WF T El) (hout : ∀ r ∈ outT.reprs, r.WF T El)
    (gdim : S → ℕ) (filt : Option (Attr (SAttr J J' A) → Bool))
    {uin uout : List (Rep G J')} (hui : ∀ r, r ∈ uin ↔ r ∈ inT.reprs) (hun : uin.Nodup) (huo : ∀ r, r ∈ uout ↔ r ∈ outT.reprs) (hon : uout.Nodup)
    (hni : ∀ r ∈ inT.reprs, ∀ r' ∈ inT.reprs, r.name = r'.name → r = r') (hno : ∀ r ∈ outT.reprs, ∀ r' ∈ outT.reprs, r.name = r'.name → r = r')
    (hdi : ∀ r ∈ inT.reprs, '.' ∉ r.name.toList) (hdo : ∀ r ∈ outT.reprs, '.' ∉ r.name.toList)
    (hser : ∀ i ∈ inT.reprs, ∀ o ∈ outT.reprs, SKB.Serves El act Fsize F i o (mk i o)) (bias : Bool) (w0 : ℕ → ℝ) {l : PointConv n S (Rep G J') (SAttr J J' A)}
    (hl : init T.size triv gdim (sampleGen Fsize F toPt mk) filt uin uout inT outT 1 bias w0 = .ok l) (w bw : ℕ → ℝ) (mode : Bool) {edges edges' : List (ℕ × ℕ)} (hperm : edges.Perm edges') (hne : edges ≠ [])
    (x : GPoints n S (Rep G J')) (hx : x.type = inT) (hxc : x.chans = inT.size Rep.size) (hxe : ∀ e ∈ edges, e.1 < x.size ∧ e.2 < x.size) :
    ∃ y y', forward gdim (({ l with weights := w, bias := bw } : PointConv n S (Rep G J') (SAttr J J' A)).train mode) edges none x = .ok y ∧
      forward gdim (({ l with weights := w, bias := bw } : PointConv n S (Rep G J') (SAttr J J' A)).train mode) edges' none x = .ok y' ∧ y ≈ y' := by
  classical
  obtain ⟨slot, hv⟩ := C74_value F mk toPt inT outT hin hout gdim filt hui hun huo hon hni hno hdi hdo hser bias w0 hl
  obtain ⟨h, hh⟩ : ∃ h : ℕ → Rep G J' → ℕ → (Fin n → ℝ) → ℕ → ℝ, ∀ o ro a v q, h o ro a v q = ∑ i : Fin inT.reprs.length, ∑ c ∈ Finset.range inT.reprs[i].size,
      (match Sampler.blockFor Rep.name (sampleGen Fsize F toPt mk) filt inT.reprs[i] ro with
        | .ok b => ∑ k ∈ Finset.range b.dim, w (slot o i k) * b.sample [v] 0 a c k
        | .error _ => 0) * x.feats q (chanOffset Rep.size inT.reprs i + c) := ⟨_, fun _ _ _ _ _ => rfl⟩
  have hv' : ∀ L : List (ℕ × ℕ), L ≠ [] → (∀ e ∈ L, e.1 < x.size ∧ e.2 < x.size) → ∃ y, forward gdim (({ l with weights := w, bias := bw } : PointConv n S (Rep G J') (SAttr J J' A)).train mode) L none x = .ok y ∧
        y.size = x.size ∧ y.coords = x.coords ∧ y.type = outT ∧ y.chans = outT.size Rep.size ∧
        ∀ p o ro a, outT.reprs[o]? = some ro → a < ro.size → y.feats p (chanOffset Rep.size outT.reprs o + a) =
          (L.map fun e => if e.2 = p then h o ro a (fun i => x.coords e.1 i - x.coords e.2 i) e.1 else 0).sum / (L.map Prod.snd).count p +
          Linear.biasAt ((if bias then Bias.expansion T.size triv outT.reprs else none).map fun E => Bias.expand E bw) (chanOffset Rep.size outT.reprs o + a) := by
    intro L hL hLe
    obtain ⟨y, h0, h1, h2, h3, h4, h5⟩ := hv w bw mode L none (fun (e : ℕ) (i : Fin n) => x.coords (L[e]?.getD (0, 0)).1 i - x.coords (L[e]?.getD (0, 0)).2 i) x hL hx hxc hLe
      (.inl ⟨rfl, fun e q p h i => by simp [h]⟩)
    refine ⟨y, h0, h1, h2, h3, h4, fun p o ro a ho ha => ?_⟩
    rw [h5 p o ro a ho ha]
    simp only [← hh]
    congr 2
    rw [← sum_positions L (0, 0), Finset.sum_filter]
    refine Finset.sum_congr rfl fun e he => ?_
    rw [List.getElem?_eq_getElem (Finset.mem_range.1 he)]
    simp
  obtain ⟨y, h0, h1, h2, h3, h4, h5⟩ := hv' edges hne hxe
  obtain ⟨y', h0', h1', h2', h3', h4', h5'⟩ := hv' edges' (fun h => hne (by rw [h] at hperm; exact hperm.eq_nil)) fun e he => hxe e (hperm.mem_iff.2 he)
  refine ⟨y, y', h0, h0', h1.trans h1'.symm, h4.trans h4'.symm, h3.trans h3'.symm, fun p _ => ⟨by rw [h2, h2'], fun c hc => ?_⟩⟩
  rw [h4, FType.size_eq] at hc
  obtain ⟨o, ro, a, ho, ha, rfl⟩ := exists_field hc
  rw [h5 p o ro a ho ha, h5' p o ro a ho ha, (hperm.map Prod.snd).count_eq, (hperm.map _).sum_eq]

/-- **C74** The numbering of the points does not matter: if the points are renumbered, the rows of the output are. -/
theorem C74_relabel (gdim : S → ℕ) (l : PointConv n S (Rep G J') A) (edges : List (ℕ × ℕ)) (σ : Equiv.Perm ℕ) (x : GPoints n S (Rep G J')) (hσ : ∀ p, σ p < x.size ↔ p < x.size) :
    forward gdim l (edges.map fun e => (σ e.1, σ e.2)) none { x with coords := fun p => x.coords (σ.symm p), feats := fun p => x.feats (σ.symm p) } =
      (forward gdim l edges none x).map fun y => { y with coords := fun p => y.coords (σ.symm p), feats := fun p => y.feats (σ.symm p) } := by
  unfold forward
  simp only
  by_cases h1 : x.type ≠ l.inType
  · rw [if_pos h1, if_pos h1]; rfl
  rw [if_neg h1, if_neg h1]
  have he : (∀ e ∈ edges.map fun e => (σ e.1, σ e.2), e.1 < x.size ∧ e.2 < x.size) ↔ ∀ e ∈ edges, e.1 < x.size ∧ e.2 < x.size := by
    rw [List.forall_mem_map]
    simp only [hσ]
  by_cases h2 : ¬ ∀ e ∈ edges, e.1 < x.size ∧ e.2 < x.size
  · rw [if_pos h2, if_pos (by rw [he]; exact h2)]; rfl
  rw [if_neg h2, if_neg (by rw [he]; exact h2)]
  have hd : deltas (fun p => x.coords (σ.symm p)) (edges.map fun e => (σ e.1, σ e.2)) none = deltas x.coords edges none := by
    simp [deltas, Function.comp_def]
  rw [hd]
  have hmsg : l.message x.chans (fun p => x.feats (σ.symm p)) (edges.map fun e => (σ e.1, σ e.2)) (deltas x.coords edges none) = l.message x.chans x.feats edges (deltas x.coords edges none) := by
    simp [message, Function.comp_def, Option.elim_map]
  rw [hmsg]
  cases l.message x.chans x.feats edges (deltas x.coords edges none) with
  | error e => rfl
  | ok y =>
    cases l.current with
    | error e => rfl
    | ok b =>
      have hm : ∀ p c, mean (edges.map fun e => (σ e.1, σ e.2)) y.get p c = mean edges y.get (σ.symm p) c := by
        intro p c
        rw [mean_eq, mean_eq, List.map_map, List.length_map]
        congr 1
        · refine Finset.sum_congr (Finset.filter_congr fun e he => ?_) fun _ _ => rfl
          rw [List.getElem?_map, List.getElem?_eq_getElem (Finset.mem_range.1 he)]
          simp [Equiv.eq_symm_apply]
        · rw [show (Prod.snd ∘ fun e : ℕ × ℕ => (σ e.1, σ e.2)) = σ ∘ Prod.snd from rfl, ← List.map_map]
          have := List.count_map_of_injective (edges.map Prod.snd) σ σ.injective (σ.symm p)
          rw [σ.apply_symm_apply] at this
          rw [this]
      simp only [bind, Except.bind, GPoints.mk', hm]
      split_ifs <;> rfl

/-- Two of three points exchanged. -/
example (gdim : S → ℕ) (l : PointConv n S (Rep G J') A) (x : GPoints n S (Rep G J')) (hx : x.size = 3) :
    forward gdim l [(1, 0), (0, 2)] none { x with coords := fun p => x.coords (Equiv.swap 0 1 p), feats := fun p => x.feats (Equiv.swap 0 1 p) } =
      (forward gdim l [(0, 1), (1, 2)] none x).map fun y => { y with coords := fun p => y.coords (Equiv.swap 0 1 p), feats := fun p => y.feats (Equiv.swap 0 1 p) } := by
  have h2 : Equiv.swap 0 1 2 = 2 := by decide
  have := C74_relabel gdim l [(0, 1), (1, 2)] (Equiv.swap 0 1) x fun p => by rw [hx, Equiv.swap_apply_def]; split_ifs <;> omega
  simpa [h2] using this

/-- Scalar features for all the rotations of the plane: every layer satisfies the hypotheses (the layer exists, see `C74_so2`), so the order of its edges does not matter. -/
example (w0 w bw : ℕ → ℝ) (mode : Bool) (pos : ℕ → Fin 2 → ℝ) (f : ℕ → ℕ → ℝ) {l : PointConv 2 Unit (Rep ℝ ℕ) (SAttr (ℕ × ℕ) ℕ (Option StAttr))}
    (hl : init SO2.irrepSize 0 (fun _ => 2) (planeSampleGen fun i o => kernelsSO2 i o [1] [1] 0 none fun _ => 0) none [irrepRep SO2.table "irrep_0" ∅ 0] [irrepRep SO2.table "irrep_0" ∅ 0]
      (⟨(), [irrepRep SO2.table "irrep_0" ∅ 0]⟩ : FType Unit (Rep ℝ ℕ)) ⟨(), [irrepRep SO2.table "irrep_0" ∅ 0]⟩ 1 true w0 = .ok l) :
    ∃ y y', forward (fun _ => 2) (({ l with weights := w, bias := bw } : PointConv 2 Unit (Rep ℝ ℕ) (SAttr (ℕ × ℕ) ℕ (Option StAttr))).train mode) [(0, 1), (1, 0), (2, 1)] none ⟨3, pos, 1, f, ⟨(), [irrepRep SO2.table "irrep_0" ∅ 0]⟩⟩ = .ok y ∧
      forward (fun _ => 2) (({ l with weights := w, bias := bw } : PointConv 2 Unit (Rep ℝ ℕ) (SAttr (ℕ × ℕ) ℕ (Option StAttr))).train mode) [(2, 1), (0, 1), (1, 0)] none ⟨3, pos, 1, f, ⟨(), [irrepRep SO2.table "irrep_0" ∅ 0]⟩⟩ = .ok y' ∧ y ≈ y' := by
  have hwf := irrepRep_wf SO2.table_valid (j := 0) rfl (by decide) "irrep_0" ∅
  have hwf' : ∀ r ∈ (⟨(), [irrepRep SO2.table "irrep_0" ∅ 0]⟩ : FType Unit (Rep ℝ ℕ)).reprs, r.WF SO2.table SO2.IsElement := by
    intro r hr
    obtain rfl := List.mem_singleton.1 hr
    exact hwf
  obtain ⟨hb, F, mk, hk, hser⟩ := SO2.planeGen_serves [1] [1] 0 (fun _ => 0) rfl (by simp) (by simp)
  rw [planeSampleGen_eq hk] at hl
  refine C74_edge_order (T := SO2.table) F mk _ _ _ hwf' hwf' (fun _ => 2) none (fun _ => Iff.rfl) (List.nodup_singleton _) (fun _ => Iff.rfl) (List.nodup_singleton _)
    (fun r hr r' hr' _ => (List.mem_singleton.1 hr).trans (List.mem_singleton.1 hr').symm) (fun r hr r' hr' _ => (List.mem_singleton.1 hr).trans (List.mem_singleton.1 hr').symm)
    (fun r hr => by obtain rfl := List.mem_singleton.1 hr; decide) (fun r hr => by obtain rfl := List.mem_singleton.1 hr; decide)
    (fun i hi o ho => hser i o (hwf' i hi) (hwf' o ho)) true w0 hl w bw mode (by decide) (by simp) _ rfl ?_ (by simp)
  simp [FType.size_eq, irrepRep, Rep.size, eye, SO2.table, SO2.irrepSize]

end PointConv

end Escnn
