import Verif.Lemmas.PointFields
import Verif.Spec.PointCommutes
import Verif.Props.C73_TransposedConv

/-!
# C74 Convolutions on point clouds
-/

namespace Escnn

open NpMat FType

variable {n : ℕ} {G J J' S P A : Type} [DecidableEq J] [DecidableEq J'] {El : G → Prop} {op : G → G → G} {one : G}

/-- The sampled basis. -/
theorem SKB.pbasis_spec {X : Type} {T : IrrepTable G J'} {act : G → P → P} {Fsize : J → ℕ} {F : FBasis J P A} {dec : X → P} {rin rout : Rep G J'} {s : SKB J J' A} {L : List (SAttr J J' A)} (hin : rin.WF T El) (hout : rout.WF T El)
    (hr : s.rows = rout.size) (hc : s.cols = rin.size) (hL : s.iter = .ok L) (hlen : L.length = s.dim)
    (hst : ∀ e < s.dim, SteerableKernel El act rin.mat rout.mat fun x => SKB.sample Fsize F s x e) :
    ∃ k, s.pbasis Fsize F dec = .ok k ∧ k.outSize = rout.size ∧ k.inSize = rin.size ∧
      ∀ e < k.attrs.length, ∀ g, El g → ∀ (pts pts' : List X) (p : ℕ) x x', pts[p]? = some x → pts'[p]? = some x' → dec x' = act g (dec x) → ∀ a < rout.size, ∀ c < rin.size,
        ∑ j ∈ Finset.range rin.size, k.sample pts' p a j e * (rin.mat g).get j c = ∑ j ∈ Finset.range rout.size, (rout.mat g).get a j * k.sample pts p j c e := by
  have hp0 : s.pbasis Fsize F dec = .ok ⟨s.rows, s.cols, L.map (SAttr.toAttr s.rows), fun pts p o i e =>
      match pts[p]? with
      | none => 0
      | some x => match SKB.sample Fsize F s (dec x) e with
        | .ok M => M.get o i
        | .error _ => 0⟩ := by
    rw [SKB.pbasis]
    simp only [bind, Except.bind, hL]
    rfl
  refine ⟨_, hp0, hr, hc, fun e he g hg pts pts' p x x' hp hp' hx a ha c hcc => ?_⟩
  rw [List.length_map, hlen] at he
  obtain ⟨k, hk, hk'⟩ := hst e he (dec x)
  obtain ⟨h1, h2, k', hk2, h3⟩ := hk' g hg
  rw [← hx] at hk2
  simp only [hp, hp', hk, hk2]
  obtain ⟨k3, hk3, hk3'⟩ := hst e he (dec x')
  rw [hk2] at hk3
  obtain rfl := Except.ok.inj hk3
  obtain ⟨h4, h5, -⟩ := hk3' g hg
  have := h3.2.2 a c (by change a < k'.rows; rw [h4, hout.rows hg]; exact ha) (by change c < (rin.mat g).cols; rw [hin.cols hg]; exact hcc)
  change ∑ j ∈ Finset.range k'.cols, k'.get a j * (rin.mat g).get j c = ∑ j ∈ Finset.range (rout.mat g).cols, (rout.mat g).get a j * k.get j c at this
  rw [h5, hin.rows hg, hout.cols hg] at this
  exact this

namespace GPoints

/-- Transforming a point cloud. -/
theorem transform_ok {T : IrrepTable G J'} (hT : T.Valid El op one) {gdim : S → ℕ} {base : G → NpMat ℝ} {x : GPoints n S (Rep G J')} (hwf : ∀ r ∈ x.type.reprs, r.WF T El) (hx : x.chans = x.type.size Rep.size)
    (hgd : gdim x.type.gspace = n) {g : G} (hg : El g) (hb : (base g).rows = n ∧ (base g).cols = n) :
    transform gdim base x g = .ok ⟨x.size, fun p (o : Fin n) => ∑ i : Fin n, (base g).get o i * x.coords p i, x.type.size Rep.size,
      fun p c => ∑ c' ∈ Finset.range (x.type.size Rep.size), (x.type.fiberRep g).get c c' * x.feats p c', x.type⟩ := by
  obtain ⟨hr, hc⟩ := fiberRep_shape hwf hT hg
  unfold transform FType.transformFibers
  rw [matChannels_ok (x := (⟨x.chans, fun p c _ => x.feats p c⟩ : FTensor ℕ Unit)) (by rw [hx]; exact hc)]
  simp only [bind, Except.bind]
  rw [if_neg (by rw [hgd]; simp), if_neg (by simp [hb.2]), if_neg (by simp [hb.1]), mk', if_pos ⟨hgd.symm, hr⟩]
  simp only [chanMul, hr, hc]

end GPoints

namespace PointConv

open Sampler

/-- The elements which are kept. -/
theorem ofFilter_mask {X A : Type} {k : PBasis X A} {f : Option (Attr A → Bool)} {b : PBlock X A} (h : PBlock.ofFilter k f = .ok b) : b.basis = k ∧ ∀ i < b.dim, b.kept[i]?.getD 0 < k.attrs.length := by
  have key : ∀ mask, PBlock.init k mask = .ok b → b.basis = k ∧ ∀ i < b.dim, b.kept[i]?.getD 0 < k.attrs.length := by
    intro mask h
    unfold PBlock.init at h
    split_ifs at h with h1 h2
    obtain rfl := Except.ok.inj h
    refine ⟨rfl, fun i hi => ?_⟩
    have hl : (PBlock.kept ⟨k, mask⟩).length = (PBlock.dim ⟨k, mask⟩) := by
      simp only [PBlock.kept, PBlock.dim, List.length_map]
      rw [← List.countP_eq_length_filter, List.count, show (fun x : Bool => x == true) = id from by funext x; cases x <;> rfl]
      conv_rhs => rw [← List.zipIdx_map_fst 0 mask]
      rw [List.countP_map]
      rfl
    have hi' : i < (PBlock.kept ⟨k, mask⟩).length := by rw [hl]; exact hi
    rw [List.getElem?_eq_getElem hi', Option.getD_some]
    have hm := List.getElem_mem hi'
    obtain ⟨e, he, hee⟩ := List.mem_map.1 hm
    have := List.snd_lt_of_mem_zipIdx (List.mem_filter.1 he).1
    have h1' : mask.length = k.attrs.length := not_not.1 h1
    have h3 : e.2 < mask.length := by simpa using this
    calc (PBlock.kept ⟨k, mask⟩)[i] = e.2 := hee.symm
      _ < k.attrs.length := by rw [← h1']; exact h3
  cases f with
  | none => exact key _ h
  | some f => exact key _ h

/-- The average of the messages is linear. -/
theorem mean_linear (edges : List (ℕ × ℕ)) (msg msg' : ℕ → ℕ → ℝ) (p : ℕ) (s : ℕ) (ρ : ℕ → ℝ) (c : ℕ) (cs : ℕ → ℕ) (h : ∀ e < edges.length, msg' e c = ∑ j ∈ Finset.range s, ρ j * msg e (cs j)) :
    mean edges msg' p c = ∑ j ∈ Finset.range s, ρ j * mean edges msg p (cs j) := by
  unfold mean
  simp only [mul_div_assoc', ← Finset.sum_div, Finset.mul_sum]
  rw [Finset.sum_comm]
  congr 1
  exact Finset.sum_congr rfl fun e he => h e (Finset.mem_range.1 (Finset.mem_filter.1 he).1)

open Classical in
/-- The sampler of a layer: for a layer with kernels the messages of the transformed point cloud are the transformed messages, or all calls fail. -/
theorem messages_steer {T : IrrepTable G J'} {act : G → P → P} {Fsize : J → ℕ} {F : FBasis J P A} {mk : Rep G J' → Rep G J' → Except Err (SKB J J' A)} {dec : (Fin n → ℝ) → P}
    {inR outR uin uout : List (Rep G J')} (hin : ∀ r ∈ inR, r.WF T El) (hout : ∀ r ∈ outR, r.WF T El) (hui : ∀ r, r ∈ uin ↔ r ∈ inR) (hun : uin.Nodup) (huo : ∀ r, r ∈ uout ↔ r ∈ outR) (hon : uout.Nodup)
    (hni : ∀ r ∈ inR, ∀ r' ∈ inR, r.name = r'.name → r = r') (hno : ∀ r ∈ outR, ∀ r' ∈ outR, r.name = r'.name → r = r')
    (hdi : ∀ r ∈ inR, '.' ∉ r.name.toList) (hdo : ∀ r ∈ outR, '.' ∉ r.name.toList)
    (hser : ∀ i ∈ inR, ∀ o ∈ outR, SKB.Serves El act Fsize F i o (mk i o)) (filt : Option (Attr (SAttr J J' A) → Bool)) {groups : ℕ} (hgr : 0 < groups) :
    ∃ m, Sampler.init Rep.name Rep.size (Sampler.blockFor Rep.name (sampleGen Fsize F dec mk) filt) uin uout inR outR = .ok m ∧ m.inSize = (inR.map Rep.size).sum ∧ m.outSize = (outR.map Rep.size).sum ∧
      (m.dim = 0 ↔ ∀ i ∈ inR, ∀ o ∈ outR, Sampler.blockFor Rep.name (sampleGen Fsize F dec mk) filt i o = .error .emptyBasis) ∧
      (groups = 1 → 0 < m.dim → ∀ w pts x, 0 < pts.length → x.S = pts.length → x.cols = m.inSize * groups → ∃ y, m.messages m.dim w x pts true groups = .ok y) ∧
      ((∃ e, ∀ w pts x, 0 < pts.length → x.S = pts.length → x.cols = m.inSize * groups → m.messages m.dim w x pts true groups = .error e) ∨
      ∃ grp : ℕ → ℕ, (∀ o, grp o < groups) ∧ ∀ g, El g → ∀ w pts pts' x x', 0 < pts.length → pts'.length = pts.length → x.S = pts.length → x.cols = m.inSize * groups → x'.S = pts.length → x'.cols = m.inSize * groups →
        (∀ p < pts.length, ∃ v v', pts[p]? = some v ∧ pts'[p]? = some v' ∧ dec v' = act g (dec v)) →
        (∀ p t, t < groups → ∀ c < m.inSize, x'.get p (t * m.inSize + c) = ∑ c' ∈ Finset.range m.inSize, (blockDiag (inR.map fun r => r.mat g)).get c c' * x.get p (t * m.inSize + c')) →
        ∃ y y', m.messages m.dim w x pts true groups = .ok y ∧ m.messages m.dim w x' pts' true groups = .ok y' ∧ y.cols = m.outSize ∧ y'.cols = m.outSize ∧
          ∀ p < pts.length, ∀ o ro a, outR[o]? = some ro → a < ro.size → y'.get p (chanOffset Rep.size outR o + a) = ∑ j ∈ Finset.range ro.size, (ro.mat g).get a j * y.get p (chanOffset Rep.size outR o + j)) := by
  classical
  have hbasis : ∀ i ∈ inR, ∀ o ∈ outR, sampleGen Fsize F dec mk i o = .error .emptyBasis ∨ ∃ k, sampleGen Fsize F dec mk i o = .ok k ∧ k.outSize = o.size ∧ k.inSize = i.size ∧
      ∀ e < k.attrs.length, ∀ g, El g → ∀ (pts pts' : List (Fin n → ℝ)) (p : ℕ) x x', pts[p]? = some x → pts'[p]? = some x' → dec x' = act g (dec x) → ∀ a < o.size, ∀ c < i.size,
        ∑ j ∈ Finset.range i.size, k.sample pts' p a j e * (i.mat g).get j c = ∑ j ∈ Finset.range o.size, (o.mat g).get a j * k.sample pts p j c e := by
    intro i hi o ho
    rcases hser i hi o ho with h | ⟨s, L, hs, h1, h2, h3, h4, h5⟩
    · exact .inl (by simp only [sampleGen, bind, Except.bind, h])
    · obtain ⟨k, hk, a1, a2, a3⟩ := SKB.pbasis_spec (dec := dec) (hin i hi) (hout o ho) h1 h2 h3 h4 h5
      exact .inr ⟨k, by simp only [sampleGen, bind, Except.bind, hs, hk], a1, a2, a3⟩
  have hI : Input Rep.name Rep.size (sampleGen Fsize F dec mk) uin uout inR outR :=
    ⟨hui, hun, huo, hon, fun r hr r' hr' h => by rw [hni r hr r' hr' h], fun r hr r' hr' h => by rw [hno r hr r' hr' h], fun r hr => (hin r hr).pos, fun r hr => (hout r hr).pos, hdi, hdo,
      fun i hi o ho => (hbasis i hi o ho).imp_right fun ⟨k, a, b, c, _⟩ => ⟨k, a, b, c⟩⟩
  obtain ⟨m, hm, f⟩ := hI.init_spec filt
  refine ⟨m, hm, f.inSize, f.outSize, ?_, ?_, ?_⟩
  · rw [f.dim, List.eq_nil_iff_forall_not_mem]
    constructor
    · intro h i hi o ho
      rcases hI.blockFor_cases filt hi ho with e | ⟨b, e, -⟩
      · exact e
      · exact absurd ((f.mem _).2 ⟨i, hi, o, ho, rfl, b, e⟩) (h _)
    · intro h p hp
      obtain ⟨i, hi, o, ho, -, b, e⟩ := (f.mem p).1 hp
      rw [h i hi o ho] at e
      cases e
  · rintro rfl hdim w pts x h1 h2 h3
    rcases f.both w pts h1 ⟨x.S, 1, m.inSize, fun p g c => x.get p (g * m.inSize + c)⟩ rfl h2 rfl with ⟨hu, hp⟩ | ⟨F, y, e1, e2, e3, e4, e5, e6, e7, e8⟩
    · exact absurd (f.dim.2 hp) (by omega)
    · refine ⟨y, ?_⟩
      rw [messages, if_neg (by rw [h2, h3, Nat.mod_one]; simp), if_pos rfl, computeThenExpand, if_neg (by rw [h2]; simp [h1]), if_neg (by rw [h3]; simp)]
      exact e5
  · rcases f.fields hI filt hni hno hgr with he | ⟨grp, slot, hgrp, hok⟩
    · exact .inl he
    refine .inr ⟨grp, hgrp, fun g hg w pts pts' x x' h1 h2 h3 h4 h5 h6 hpts hx => ?_⟩
    obtain ⟨K, hK1, hK2⟩ := hok w pts
    obtain ⟨K', hK1', hK2'⟩ := hok w pts'
    obtain ⟨y, y1, y2, y3, y4⟩ := hK1 x h1 h3 h4
    obtain ⟨y', y1', y2', y3', y4'⟩ := hK1' x' (by rw [h2]; exact h1) (by rw [h2]; exact h5) h6
    refine ⟨y, y', y1, y1', y3, y3', fun p hp o ro a ho ha => ?_⟩
    have hst : ∀ c < m.inSize, ∑ j ∈ Finset.range m.inSize, K' p (chanOffset Rep.size outR o + a) j * (blockDiag (inR.map fun r => r.mat g)).get j c =
        ∑ j ∈ Finset.range ro.size, (ro.mat g).get a j * K p (chanOffset Rep.size outR o + j) c := by
      intro c hc
      rw [f.inSize] at hc ⊢
      obtain ⟨i, ri, b, hi, hb, rfl⟩ := exists_field hc
      rw [blockDiag_col (ρ := fun r : Rep G J' => r.mat g) (fun r hr => ⟨(hin r hr).rows hg, (hin r hr).cols hg⟩) hi hb fun j => K' p (chanOffset Rep.size outR o + a) j]
      have hi' := List.mem_of_getElem? hi
      have ho' := List.mem_of_getElem? ho
      rcases hI.blockFor_cases filt hi' ho' with he | ⟨bl, he, b1, b2⟩
      · rw [Finset.sum_eq_zero fun j hj => by rw [(hK2' p o ro i ri a j ho hi ha (Finset.mem_range.1 hj)).1 he, zero_mul],
          Finset.sum_eq_zero fun j hj => by rw [(hK2 p o ro i ri j b ho hi (Finset.mem_range.1 hj) hb).1 he, mul_zero]]
      · have l1 : ∀ j ∈ Finset.range ri.size, K' p (chanOffset Rep.size outR o + a) (chanOffset Rep.size inR i + j) * (ri.mat g).get j b =
            ∑ k ∈ Finset.range bl.dim, w (slot o i k) * bl.sample pts' p a j k * (ri.mat g).get j b :=
          fun j hj => by rw [(hK2' p o ro i ri a j ho hi ha (Finset.mem_range.1 hj)).2 bl he, Finset.sum_mul]
        have l2 : ∀ j ∈ Finset.range ro.size, (ro.mat g).get a j * K p (chanOffset Rep.size outR o + j) (chanOffset Rep.size inR i + b) =
            ∑ k ∈ Finset.range bl.dim, (ro.mat g).get a j * (w (slot o i k) * bl.sample pts p j b k) :=
          fun j hj => by rw [(hK2 p o ro i ri j b ho hi (Finset.mem_range.1 hj) hb).2 bl he, Finset.mul_sum]
        rw [Finset.sum_congr rfl l1, Finset.sum_congr rfl l2, Finset.sum_comm, Finset.sum_comm (s := Finset.range ro.size)]
        refine Finset.sum_congr rfl fun k hk => ?_
        obtain ⟨v, v', hv, hv', hvv⟩ := hpts p hp
        rcases hbasis ri hi' ro ho' with hb' | ⟨kb, hkb, -, -, hkst⟩
        · rw [Sampler.blockFor, hb'] at he; cases he
        · have hof : PBlock.ofFilter kb filt = .ok bl := by
            rw [Sampler.blockFor, hkb] at he
            simp only [bind, Except.bind] at he
            cases hk' : PBlock.ofFilter kb filt with
            | error e => rw [hk'] at he; cases he
            | ok b' =>
              rw [hk'] at he
              simp only at he
              split_ifs at he
              rw [Except.ok.inj he]
          obtain ⟨hbl, hmask⟩ := ofFilter_mask hof
          have hcom : ∑ j ∈ Finset.range ri.size, bl.sample pts' p a j k * (ri.mat g).get j b = ∑ j ∈ Finset.range ro.size, (ro.mat g).get a j * bl.sample pts p j b k := by
            unfold PBlock.sample
            rw [hbl]
            simp only
            have hlt : bl.kept[k]?.getD 0 < kb.attrs.length := hmask k (Finset.mem_range.1 hk)
            have := hkst _ hlt g hg pts pts' p v v' hv hv' hvv a ha b hb
            simp only [mul_right_comm _ _ ((ri.mat g).get _ _), ← mul_assoc, ← Finset.sum_mul]
            rw [this]
          simp only [mul_assoc, ← Finset.mul_sum, hcom, mul_left_comm _ (w (slot o i k))]
    rw [y4' p o ro a ho ha]
    have hsum : ∀ c ∈ Finset.range m.inSize, K' p (chanOffset Rep.size outR o + a) c * x'.get p (grp o * m.inSize + c) =
        ∑ c' ∈ Finset.range m.inSize, K' p (chanOffset Rep.size outR o + a) c * (blockDiag (inR.map fun r => r.mat g)).get c c' * x.get p (grp o * m.inSize + c') := fun c hc => by
      rw [hx p _ (hgrp o) c (Finset.mem_range.1 hc), Finset.mul_sum]
      exact Finset.sum_congr rfl fun _ _ => (mul_assoc _ _ _).symm
    rw [Finset.sum_congr rfl hsum, Finset.sum_comm]
    simp only [← Finset.sum_mul]
    rw [Finset.sum_congr rfl fun c hc => by rw [hst c (Finset.mem_range.1 hc)]]
    simp only [Finset.sum_mul]
    rw [Finset.sum_comm]
    refine Finset.sum_congr rfl fun j hj => ?_
    rw [y4 p o ro j ho (Finset.mem_range.1 hj), Finset.mul_sum]
    exact Finset.sum_congr rfl fun _ _ => mul_assoc _ _ _

/-- The displacements of the transformed point cloud. -/
theorem deltas_moved (M : NpMat ℝ) (pos : ℕ → Fin n → ℝ) (edges : List (ℕ × ℕ)) (delta : Option (List (Fin n → ℝ))) (hd : ∀ d, delta = some d → d.length = edges.length) :
    (deltas pos edges delta).length = edges.length ∧
    (deltas (fun p (o : Fin n) => ∑ i : Fin n, M.get o i * pos p i) edges (delta.map fun d => d.map fun v (o : Fin n) => ∑ i : Fin n, M.get o i * v i)).length = edges.length ∧ ∀ e < edges.length, ∃ v, (deltas pos edges delta)[e]? = some v ∧
      (deltas (fun p (o : Fin n) => ∑ i : Fin n, M.get o i * pos p i) edges (delta.map fun d => d.map fun v (o : Fin n) => ∑ i : Fin n, M.get o i * v i))[e]? = some fun o : Fin n => ∑ i : Fin n, M.get o i * v i := by
  cases delta with
  | none =>
    refine ⟨by simp [deltas], by simp [deltas], fun e he => ⟨_, by simp only [deltas]; rw [List.getElem?_map, List.getElem?_eq_getElem he]; rfl, ?_⟩⟩
    simp only [Option.map_none, deltas]
    rw [List.getElem?_map, List.getElem?_eq_getElem he]
    simp [mul_sub]
  | some d =>
    have := hd d rfl
    refine ⟨by simp [deltas, this], by simp [deltas, this], fun e he => ⟨_, by simp only [deltas]; exact List.getElem?_eq_getElem (by omega), ?_⟩⟩
    simp only [Option.map_some, deltas]
    rw [List.getElem?_map, List.getElem?_eq_getElem (by omega)]
    rfl

/-- **C74** with any number of groups.  There are layers with more than one group whose every call raises an error (C62); every other layer commutes with the group. -/
theorem C74_groups {T : IrrepTable G J'} {triv : J'} (hT : T.Valid El op one) (ht : T.IsTrivial El triv) {act : G → P → P} {Fsize : J → ℕ} (F : FBasis J P A)
    (mk : Rep G J' → Rep G J' → Except Err (SKB J J' A)) (toPt : (Fin n → ℝ) → P) (base : G → NpMat ℝ) (hsz : ∀ g, El g → (base g).rows = n ∧ (base g).cols = n)
    (hbase : ∀ g, El g → ∀ v : Fin n → ℝ, act g (toPt v) = toPt fun a : Fin n => ∑ b : Fin n, (base g).get a b * v b)
    (inT outT : FType S (Rep G J')) (hsp : inT.gspace = outT.gspace) (hin : ∀ r ∈ inT.reprs, r.WF T El) (hout : ∀ r ∈ outT.reprs, r.WF T El) (hne : inT.reprs ≠ [])
    (gdim : S → ℕ) (hgd : gdim inT.gspace = n) (filt : Option (Attr (SAttr J J' A) → Bool))
    {uin uout : List (Rep G J')} (hui : ∀ r, r ∈ uin ↔ r ∈ inT.reprs) (hun : uin.Nodup) (huo : ∀ r, r ∈ uout ↔ r ∈ outT.reprs) (hon : uout.Nodup)
    (hni : ∀ r ∈ inT.reprs, ∀ r' ∈ inT.reprs, r.name = r'.name → r = r') (hno : ∀ r ∈ outT.reprs, ∀ r' ∈ outT.reprs, r.name = r'.name → r = r')
    (hdi : ∀ r ∈ inT.reprs, '.' ∉ r.name.toList) (hdo : ∀ r ∈ outT.reprs, '.' ∉ r.name.toList)
    (hser : ∀ i ∈ inT.reprs, ∀ o ∈ outT.reprs, SKB.Serves El act Fsize F i o (mk i o))
    (groups : ℕ) (hg : 0 < groups) (inT' : FType S (Rep G J')) (hgt : RdConv.groupType groups inT outT = .ok inT') (bias : Bool) (w0 : ℕ → ℝ) :
    (init T.size triv gdim (sampleGen Fsize F toPt mk) filt uin uout inT outT groups bias w0 = .error .value ∧
      ∀ i ∈ inT.reprs, ∀ o ∈ outT.reprs, Sampler.blockFor Rep.name (sampleGen Fsize F toPt mk) filt i o = .error .emptyBasis) ∨
    ∃ l, init T.size triv gdim (sampleGen Fsize F toPt mk) filt uin uout inT outT groups bias w0 = .ok l ∧
      ((groups ≠ 1 ∧ ∃ e, ∀ w bw mode edges delta, edges ≠ [] → (∀ d, delta = some d → d.length = edges.length) → ∀ x : GPoints n S (Rep G J'), x.type = inT → x.chans = inT.size Rep.size → (∀ e ∈ edges, e.1 < x.size ∧ e.2 < x.size) →
        forward gdim (({ l with weights := w, bias := bw } : PointConv n S (Rep G J') (SAttr J J' A)).train mode) edges delta x = .error e) ∨
      ∀ w bw mode g, El g → ∀ edges delta, edges ≠ [] → (∀ d, delta = some d → d.length = edges.length) → ∀ x : GPoints n S (Rep G J'), x.type = inT → x.chans = inT.size Rep.size → (∀ e ∈ edges, e.1 < x.size ∧ e.2 < x.size) →
        PointCommutes gdim base (forward gdim (({ l with weights := w, bias := bw } : PointConv n S (Rep G J') (SAttr J J' A)).train mode) edges delta)
          (forward gdim (({ l with weights := w, bias := bw } : PointConv n S (Rep G J') (SAttr J J' A)).train mode) edges (delta.map fun d => d.map fun v (o : Fin n) => ∑ i : Fin n, (base g).get o i * v i)) g x) := by
  classical
  obtain ⟨mi, mo, hli, hri, hlo, hro, rfl⟩ := RdConv.groupType_spec hg hgt
  have hmi : 0 < mi := Nat.pos_of_ne_zero fun h => hne (List.length_eq_zero_iff.1 (by rw [hli, h, Nat.mul_zero]))
  have hmem : ∀ r, r ∈ inT.reprs.take mi ↔ r ∈ inT.reprs := fun r => ⟨List.mem_of_mem_take, fun h => by
    obtain ⟨i, hi, rfl⟩ := List.mem_iff_getElem.1 h
    refine List.mem_of_getElem? (i := i % mi) ?_
    rw [List.getElem?_take, if_pos (Nat.mod_lt _ hmi), ← hri i hi, List.getElem?_eq_getElem hi]⟩
  obtain ⟨m, hm, hmi1, hmo1, hm0, hm1, hm2⟩ := messages_steer (n := n) (dec := toPt) (inR := inT.reprs.take mi) (outR := outT.reprs) (fun r hr => hin r ((hmem r).1 hr)) hout (fun r => (hui r).trans (hmem r).symm) hun huo hon
    (fun r hr r' hr' => hni r ((hmem r).1 hr) r' ((hmem r').1 hr')) hno (fun r hr => hdi r ((hmem r).1 hr)) hdo (fun i hi o ho => hser i ((hmem i).1 hi) o ho) filt hg
  set be := if bias then Bias.expansion T.size triv outT.reprs else none with hbe
  have hinit : init T.size triv gdim (sampleGen Fsize F toPt mk) filt uin uout inT outT groups bias w0 =
      if m.dim = 0 then .error .value else .ok ⟨inT, outT, groups, m, be, w0, fun _ => 0, true, some (be.map fun _ _ => 0)⟩ := by
    rw [init, if_neg (by rintro (h | h) <;> [exact h hsp; exact h hgd])]
    simp only [bind, Except.bind, hgt]
    have := hm
    rw [show (Sampler.init Rep.name Rep.size (Sampler.blockFor Rep.name (sampleGen Fsize F toPt mk) filt) uin uout (⟨inT.gspace, inT.reprs.take mi⟩ : FType S (Rep G J')).reprs outT.reprs) = .ok m from this]
  by_cases hdim : m.dim = 0
  · exact .inl ⟨by rw [hinit, if_pos hdim], fun i hi o ho => hm0.1 hdim i ((hmem i).2 hi) o ho⟩
  rw [hinit, if_neg hdim]
  refine .inr ⟨_, rfl, ?_⟩
  set L : (ℕ → ℝ) → (ℕ → ℝ) → Bool → PointConv n S (Rep G J') (SAttr J J' A) := fun w bw mode => ((⟨inT, outT, groups, m, be, w, bw, true, some (be.map fun _ _ => 0)⟩ : PointConv n S (Rep G J') (SAttr J J' A)).train mode) with hL
  have hLf : ∀ w bw mode, (L w bw mode).inType = inT ∧ (L w bw mode).outType = outT ∧ (L w bw mode).groups = groups ∧ (L w bw mode).sampler = m ∧ (L w bw mode).weights = w ∧ (L w bw mode).current = .ok (be.map fun E => Bias.expand E bw) := by
    intro w bw mode
    cases mode <;> simp [hL, train, current, expandBias]
  have hpre : ∀ w bw mode edges delta (x : GPoints n S (Rep G J')), x.type = inT → (∀ e ∈ edges, e.1 < x.size ∧ e.2 < x.size) → forward gdim (L w bw mode) edges delta x =
      (m.messages m.dim w ⟨edges.length, x.chans, fun e c => edges[e]?.elim 0 fun d => x.feats d.1 c⟩ (deltas x.coords edges delta) true groups >>= fun y =>
        GPoints.mk' Rep.size gdim x.size x.coords y.cols (fun p c => mean edges y.get p c + Linear.biasAt (be.map fun E => Bias.expand E bw) c) outT) := by
    intro w bw mode edges delta x hx he
    obtain ⟨l1, l2, l3, l4, l5, l6⟩ := hLf w bw mode
    rw [forward, if_neg (by rw [hx, l1]; simp), if_neg (not_not.2 he), message, l3, l4, l5, l6, l2]
    rfl
  obtain ⟨hsi, -, -⟩ : inT.size Rep.size = groups * m.inSize ∧ True ∧ True := by
    refine ⟨?_, trivial, trivial⟩
    rw [hmi1, FType.size_eq]
    have hs : ((inT.reprs.take mi).map Rep.size).sum = chanOffset Rep.size inT.reprs mi := rfl
    rw [hs]
    obtain ⟨q, rfl⟩ : ∃ q, groups = q + 1 := ⟨groups - 1, by omega⟩
    have := repeat_offset (sz := Rep.size) hmi hli hri (show q < q + 1 by omega) (k := mi) le_rfl
    rw [Nat.succ_mul, ← this, ← chanOffset_length, hli, Nat.succ_mul]
  rcases hm2 with ⟨e, he⟩ | ⟨grp, hgrp, hok⟩
  · refine .inl ⟨fun h1 => ?_, e, fun w bw mode edges delta h1 h2 x hx hxc hxe => ?_⟩
    · obtain ⟨y, hy⟩ := hm1 h1 (Nat.pos_of_ne_zero hdim) (fun _ => 0) [fun _ => 0] ⟨1, m.inSize * groups, fun _ _ => 0⟩ (by simp) rfl rfl
      rw [he _ _ _ (by simp) rfl rfl] at hy
      cases hy
    · have hdl := (deltas_moved (n := n) (zeros 0 0) x.coords edges delta h2).1
      refine (hpre w bw mode edges delta x hx hxe).trans ?_
      rw [he _ _ _ (by rw [hdl]; exact List.length_pos_iff.2 h1) hdl.symm (by simp only; rw [hxc, hsi, Nat.mul_comm])]
      rfl
  · refine .inr fun w bw mode g hgel edges delta h1 h2 x hx hxc hxe => ?_
    obtain ⟨d1, d2, d3⟩ := deltas_moved (base g) x.coords edges delta h2
    subst hx
    have hgx := GPoints.transform_ok hT (gdim := gdim) (base := base) (x := x) hin hxc hgd hgel (hsz g hgel)
    obtain ⟨-, hA, -⟩ := fiberRep_groups hin hmi hli hri hgel (s := x.type.gspace) (s' := m.inSize) (by rw [hmi1, FType.size_eq]) hg
    obtain ⟨y, y', y1, y2, y3, y4, y5⟩ := hok g hgel w (deltas x.coords edges delta) (deltas (fun p (o : Fin n) => ∑ i : Fin n, (base g).get o i * x.coords p i) edges (delta.map fun d => d.map fun v (o : Fin n) => ∑ i : Fin n, (base g).get o i * v i))
      ⟨edges.length, x.chans, fun e c => edges[e]?.elim 0 fun d => x.feats d.1 c⟩
      ⟨edges.length, x.type.size Rep.size, fun e c => edges[e]?.elim 0 fun d => ∑ c' ∈ Finset.range (x.type.size Rep.size), (x.type.fiberRep g).get c c' * x.feats d.1 c'⟩
      (by rw [d1]; exact List.length_pos_iff.2 h1) (by rw [d1, d2]) d1.symm (by simp only; rw [hxc, hsi, Nat.mul_comm]) d1.symm (by simp only; rw [hsi, Nat.mul_comm])
      (fun p hp => by
        obtain ⟨v, v1, v2⟩ := d3 p (by rw [← d1]; exact hp)
        exact ⟨v, _, v1, v2, (hbase g hgel v).symm⟩)
      (fun p t htg c hc => by
        simp only
        rw [hsi]
        cases edges[p]? with
        | none => simp
        | some d => exact hA t htg c hc fun c' => x.feats d.1 c')
    have hos : outT.size Rep.size = m.outSize := by rw [hmo1, FType.size_eq]
    have hgo : n = gdim outT.gspace := by rw [← hsp, hgd]
    set b := be.map fun E => Bias.expand E bw with hb
    have hy : forward gdim (L w bw mode) edges delta x = .ok ⟨x.size, x.coords, y.cols, fun p c => mean edges y.get p c + Linear.biasAt b c, outT⟩ := by
      refine (hpre w bw mode edges delta x rfl hxe).trans ?_
      rw [y1]
      exact if_pos ⟨hgo, by rw [y3, hos]⟩
    refine ⟨_, _, ⟨x.size, fun p (o : Fin n) => ∑ i : Fin n, (base g).get o i * x.coords p i, y'.cols, fun p c => mean edges y'.get p c + Linear.biasAt b c, outT⟩, _, hy, hgx, ?_,
      GPoints.transform_ok hT (gdim := gdim) (base := base) (x := ⟨x.size, x.coords, y.cols, fun p c => mean edges y.get p c + Linear.biasAt b c, outT⟩) hout (by simp only; rw [y3, hos]) hgo.symm hgel (hsz g hgel), ?_⟩
    · refine (hpre w bw mode edges _ ⟨x.size, fun p (o : Fin n) => ∑ i : Fin n, (base g).get o i * x.coords p i, x.type.size Rep.size,
        fun p c => ∑ c' ∈ Finset.range (x.type.size Rep.size), (x.type.fiberRep g).get c c' * x.feats p c', x.type⟩ rfl hxe).trans ?_
      simp only
      rw [y2]
      exact if_pos ⟨hgo, by rw [y4, hos]⟩
    · refine ⟨rfl, by simp only; rw [y4, hos], rfl, fun p _ => ⟨rfl, fun c hc => ?_⟩⟩
      simp only at hc ⊢
      rw [y4, hmo1] at hc
      have hbf : ∑ j ∈ Finset.range (outT.size Rep.size), (outT.fiberRep g).get c j * Linear.biasAt b j = Linear.biasAt b c := by
        cases hbe' : be with
        | none => simp [hb, hbe', Linear.biasAt]
        | some E =>
          have hE : Bias.expansion T.size triv outT.reprs = some E := by
            rw [hbe] at hbe'
            split_ifs at hbe'
            exact hbe'
          have := Linear.bias_fixed hT ht hout hE bw hgel (by rw [FType.size_eq]; exact hc)
          simpa [hb, hbe', Linear.biasAt] using this
      obtain ⟨o, ro, a, ho, ha, rfl⟩ := exists_field hc
      simp only [mul_add, Finset.sum_add_distrib]
      rw [hbf]
      congr 1
      rw [FType.size_eq, FType.fiberRep, blockDiag_row (ρ := fun r : Rep G J' => r.mat g) (fun r hr => ⟨(hout r hr).rows hgel, (hout r hr).cols hgel⟩) ho ha]
      refine mean_linear edges y.get y'.get p ro.size (fun j => (ro.mat g).get a j) _ (fun j => chanOffset Rep.size outT.reprs o + j) fun e he => ?_
      exact y5 e (by rw [d1]; exact he) o ro a ho ha

/-- **C74** The layers with one group: the constructor raises `ValueError`, exactly if there are no kernels, or the layer commutes with the group. -/
theorem C74_module {T : IrrepTable G J'} {triv : J'} (hT : T.Valid El op one) (ht : T.IsTrivial El triv) {act : G → P → P} {Fsize : J → ℕ} (F : FBasis J P A)
    (mk : Rep G J' → Rep G J' → Except Err (SKB J J' A)) (toPt : (Fin n → ℝ) → P) (base : G → NpMat ℝ) (hsz : ∀ g, El g → (base g).rows = n ∧ (base g).cols = n)
    (hbase : ∀ g, El g → ∀ v : Fin n → ℝ, act g (toPt v) = toPt fun a : Fin n => ∑ b : Fin n, (base g).get a b * v b)
    (inT outT : FType S (Rep G J')) (hsp : inT.gspace = outT.gspace) (hin : ∀ r ∈ inT.reprs, r.WF T El) (hout : ∀ r ∈ outT.reprs, r.WF T El) (hne : inT.reprs ≠ [])
    (gdim : S → ℕ) (hgd : gdim inT.gspace = n) (filt : Option (Attr (SAttr J J' A) → Bool))
    {uin uout : List (Rep G J')} (hui : ∀ r, r ∈ uin ↔ r ∈ inT.reprs) (hun : uin.Nodup) (huo : ∀ r, r ∈ uout ↔ r ∈ outT.reprs) (hon : uout.Nodup)
    (hni : ∀ r ∈ inT.reprs, ∀ r' ∈ inT.reprs, r.name = r'.name → r = r') (hno : ∀ r ∈ outT.reprs, ∀ r' ∈ outT.reprs, r.name = r'.name → r = r')
    (hdi : ∀ r ∈ inT.reprs, '.' ∉ r.name.toList) (hdo : ∀ r ∈ outT.reprs, '.' ∉ r.name.toList)
    (hser : ∀ i ∈ inT.reprs, ∀ o ∈ outT.reprs, SKB.Serves El act Fsize F i o (mk i o)) (bias : Bool) (w0 : ℕ → ℝ) :
    (init T.size triv gdim (sampleGen Fsize F toPt mk) filt uin uout inT outT 1 bias w0 = .error .value ∧
      ∀ i ∈ inT.reprs, ∀ o ∈ outT.reprs, Sampler.blockFor Rep.name (sampleGen Fsize F toPt mk) filt i o = .error .emptyBasis) ∨
    ∃ l, init T.size triv gdim (sampleGen Fsize F toPt mk) filt uin uout inT outT 1 bias w0 = .ok l ∧
      ∀ w bw mode g, El g → ∀ edges delta, edges ≠ [] → (∀ d, delta = some d → d.length = edges.length) → ∀ x : GPoints n S (Rep G J'), x.type = inT → x.chans = inT.size Rep.size → (∀ e ∈ edges, e.1 < x.size ∧ e.2 < x.size) →
        PointCommutes gdim base (forward gdim (({ l with weights := w, bias := bw } : PointConv n S (Rep G J') (SAttr J J' A)).train mode) edges delta)
          (forward gdim (({ l with weights := w, bias := bw } : PointConv n S (Rep G J') (SAttr J J' A)).train mode) edges (delta.map fun d => d.map fun v (o : Fin n) => ∑ i : Fin n, (base g).get o i * v i)) g x := by
  rcases C74_groups hT ht F mk toPt base hsz hbase inT outT hsp hin hout hne gdim hgd filt hui hun huo hon hni hno hdi hdo hser 1 Nat.one_pos inT rfl bias w0 with h | ⟨l, h1, h2⟩
  · exact .inl h
  · exact .inr ⟨l, h1, h2.resolve_left fun h => h.1 rfl⟩

/-- The layer of the theorem above for kernels on the plane. -/
theorem planeSampleGen_eq {H J' : Type} [DecidableEq J'] {kern : Rep H J' → Rep H J' → Except Err (SKB (ℕ × ℕ) J' (Option StAttr) × FBasis (ℕ × ℕ) (ℝ × ℝ) (Option StAttr))} {F : FBasis (ℕ × ℕ) (ℝ × ℝ) (Option StAttr)}
    {mk : Rep H J' → Rep H J' → Except Err (SKB (ℕ × ℕ) J' (Option StAttr))} (h : ∀ i o, kern i o = (mk i o).map fun s => (s, F)) : planeSampleGen kern = sampleGen O2.table.size F (fun v : Fin 2 → ℝ => (v 0, v 1)) mk := by
  funext i o
  unfold planeSampleGen sampleGen
  rw [h i o]
  cases mk i o <;> rfl

end PointConv

/-- The kernels on the plane for all rotations. -/
theorem SO2.planeGen_serves (radii sigma : List ℝ) (L : ℕ) (junk : ℕ → ℝ) (hlen : radii.length = sigma.length) (hr : ∀ r ∈ radii, 0 ≤ r) (hs : ∀ s ∈ sigma, 0 < s) :
    let base := fun h => (restrictedIrrep SO2.table "O(2)" 0 (fun i => .ok (O2.restrictSO2 i.1 i.2)) (1, 1)).mat h
    (∀ h, SO2.IsElement h → (base h).rows = 2 ∧ (base h).cols = 2 ∧ ∀ p, moveBy (base h) p = rotate h p) ∧
    ∃ (F : FBasis (ℕ × ℕ) (ℝ × ℝ) (Option StAttr)) (mk : Rep ℝ ℕ → Rep ℝ ℕ → Except Err (SKB (ℕ × ℕ) ℕ (Option StAttr))),
      (∀ i o, kernelsSO2 i o radii sigma L none junk = (mk i o).map fun s => (s, F)) ∧
      ∀ i o : Rep ℝ ℕ, i.WF SO2.table SO2.IsElement → o.WF SO2.table SO2.IsElement → SKB.Serves SO2.IsElement (fun h p => moveBy (base h) p) O2.table.size F i o (mk i o) := by
  have hel : ∀ h, SO2.IsElement h → O2.so2ToO2 h = .ok (0, h) ∧ O2.IsElement (0, h) := fun h hh => by
    have hm : mod2pi h = h := mod2pi_eq_self hh.1 hh.2
    exact ⟨by simp [O2.so2ToO2, O2.element, O2.reduce, hm], .inl rfl, hh.1, hh.2⟩
  have hres := fun j hj hp => restrictedIrrep_ok (fun r hwf hn => C13_o2_so2 [] "O(2)" r hwf hn) j hj hp
  obtain ⟨F, mk, h1, -, h2⟩ := Escnn.planeGen_serves SO2.kgroup (restrictedIrrep SO2.table "O(2)" 0 fun i => .ok (O2.restrictSO2 i.1 i.2)) O2.so2ToO2 radii sigma L (Real.pi / 2) junk SO2.table_valid SO2.C18_so2
    (fun m n _ _ => ⟨SO2.tensor_nodup m n, fun p hp => ⟨rfl, (SO2.kgroup_cg m n p hp).2⟩⟩) (fun h hh => ⟨_, (hel h hh).1, (hel h hh).2, .inl rfl⟩) hres hlen hr hs
  refine ⟨fun h hh => ?_, F, mk, h1, h2⟩
  have h11 := (hres (1, 1) (by decide) (by decide)).2.2 h _ hh (hel h hh).1
  refine ⟨h11.1, h11.2.1, fun p => ?_⟩
  rw [moveBy_of_eqv h11]
  simp [rotate, sgnR, sub_eq_add_neg]

namespace PointConv

/-- **C74** for `rot2dOnR2(-1)` (all the rotations of the plane). -/
theorem C74_so2 (radii sigma : List ℝ) (L : ℕ) (junk : ℕ → ℝ) (hlen : radii.length = sigma.length) (hr : ∀ r ∈ radii, 0 ≤ r) (hs : ∀ s ∈ sigma, 0 < s)
    (inT outT : FType S (Rep ℝ ℕ)) (hsp : inT.gspace = outT.gspace) (hin : ∀ r ∈ inT.reprs, r.WF SO2.table SO2.IsElement) (hout : ∀ r ∈ outT.reprs, r.WF SO2.table SO2.IsElement) (hne : inT.reprs ≠ [])
    (filt : Option (Attr (SAttr (ℕ × ℕ) ℕ (Option StAttr)) → Bool))
    {uin uout : List (Rep ℝ ℕ)} (hui : ∀ r, r ∈ uin ↔ r ∈ inT.reprs) (hun : uin.Nodup) (huo : ∀ r, r ∈ uout ↔ r ∈ outT.reprs) (hon : uout.Nodup)
    (hni : ∀ r ∈ inT.reprs, ∀ r' ∈ inT.reprs, r.name = r'.name → r = r') (hno : ∀ r ∈ outT.reprs, ∀ r' ∈ outT.reprs, r.name = r'.name → r = r')
    (hdi : ∀ r ∈ inT.reprs, '.' ∉ r.name.toList) (hdo : ∀ r ∈ outT.reprs, '.' ∉ r.name.toList) (bias : Bool) (w0 : ℕ → ℝ) :
    let gen := planeSampleGen fun i o => kernelsSO2 i o radii sigma L none junk
    let base := fun h => (restrictedIrrep SO2.table "O(2)" 0 (fun i => .ok (O2.restrictSO2 i.1 i.2)) (1, 1)).mat h
    (init SO2.irrepSize 0 (fun _ => 2) gen filt uin uout inT outT 1 bias w0 = .error .value ∧ ∀ i ∈ inT.reprs, ∀ o ∈ outT.reprs, Sampler.blockFor Rep.name gen filt i o = .error .emptyBasis) ∨
    ∃ l, init SO2.irrepSize 0 (fun _ => 2) gen filt uin uout inT outT 1 bias w0 = .ok l ∧
      ∀ w bw mode g, SO2.IsElement g → ∀ edges delta, edges ≠ [] → (∀ d, delta = some d → d.length = edges.length) → ∀ x : GPoints 2 S (Rep ℝ ℕ), x.type = inT → x.chans = inT.size Rep.size → (∀ e ∈ edges, e.1 < x.size ∧ e.2 < x.size) →
        PointCommutes (fun _ => 2) base (forward (fun _ => 2) (({ l with weights := w, bias := bw } : PointConv 2 S (Rep ℝ ℕ) (SAttr (ℕ × ℕ) ℕ (Option StAttr))).train mode) edges delta)
          (forward (fun _ => 2) (({ l with weights := w, bias := bw } : PointConv 2 S (Rep ℝ ℕ) (SAttr (ℕ × ℕ) ℕ (Option StAttr))).train mode) edges (delta.map fun d => d.map fun v (o : Fin 2) => ∑ i : Fin 2, (base g).get o i * v i)) g x := by
  intro gen base
  obtain ⟨hb, F, mk, hk, hser⟩ := SO2.planeGen_serves radii sigma L junk hlen hr hs
  have hgen : gen = sampleGen O2.table.size F (fun v : Fin 2 → ℝ => (v 0, v 1)) mk := planeSampleGen_eq hk
  rw [hgen]
  exact C74_module SO2.table_valid SO2.trivial F mk (fun v => (v 0, v 1)) base (act := fun h p => moveBy (base h) p) (fun g hg => ⟨(hb g hg).1, (hb g hg).2.1⟩) (fun h hh v => by simp [moveBy, Fin.sum_univ_two])
    inT outT hsp hin hout hne (fun _ => 2) rfl filt hui hun huo hon hni hno hdi hdo (fun i hi o ho => hser i o (hin i hi) (hout o ho)) bias w0

/-- **C74** for `rot2dOnR2(N)`: on point clouds all the rotations by multiples of `360 / N` degrees are symmetries, not only those of the pixel grid. -/
theorem C74_cyclic (N : ℕ) (hN : 0 < N) (radii sigma : List ℝ) (L : ℕ) (junk : ℕ → ℝ) (hlen : radii.length = sigma.length) (hr : ∀ r ∈ radii, 0 ≤ r) (hs : ∀ s ∈ sigma, 0 < s)
    (inT outT : FType S (Rep ℤ ℕ)) (hsp : inT.gspace = outT.gspace) (hin : ∀ r ∈ inT.reprs, r.WF (Cyclic.table N) (fun g => Cyclic.isElement N g = true)) (hout : ∀ r ∈ outT.reprs, r.WF (Cyclic.table N) (fun g => Cyclic.isElement N g = true))
    (hne : inT.reprs ≠ []) (filt : Option (Attr (SAttr (ℕ × ℕ) ℕ (Option StAttr)) → Bool))
    {uin uout : List (Rep ℤ ℕ)} (hui : ∀ r, r ∈ uin ↔ r ∈ inT.reprs) (hun : uin.Nodup) (huo : ∀ r, r ∈ uout ↔ r ∈ outT.reprs) (hon : uout.Nodup)
    (hni : ∀ r ∈ inT.reprs, ∀ r' ∈ inT.reprs, r.name = r'.name → r = r') (hno : ∀ r ∈ outT.reprs, ∀ r' ∈ outT.reprs, r.name = r'.name → r = r')
    (hdi : ∀ r ∈ inT.reprs, '.' ∉ r.name.toList) (hdo : ∀ r ∈ outT.reprs, '.' ∉ r.name.toList) (bias : Bool) (w0 : ℕ → ℝ) :
    let gen := planeSampleGen fun i o => kernelsCN N i o radii sigma L none junk
    let base := fun h => (restrictedIrrep (Cyclic.table N) "O(2)" 0 (fun i => .ok (O2.restrictRot i.1 i.2 N)) (1, 1)).mat h
    (init (Cyclic.irrepSize N) 0 (fun _ => 2) gen filt uin uout inT outT 1 bias w0 = .error .value ∧ ∀ i ∈ inT.reprs, ∀ o ∈ outT.reprs, Sampler.blockFor Rep.name gen filt i o = .error .emptyBasis) ∨
    ∃ l, init (Cyclic.irrepSize N) 0 (fun _ => 2) gen filt uin uout inT outT 1 bias w0 = .ok l ∧
      ∀ w bw mode g, Cyclic.isElement N g = true → ∀ edges delta, edges ≠ [] → (∀ d, delta = some d → d.length = edges.length) → ∀ x : GPoints 2 S (Rep ℤ ℕ), x.type = inT → x.chans = inT.size Rep.size → (∀ e ∈ edges, e.1 < x.size ∧ e.2 < x.size) →
        PointCommutes (fun _ => 2) base (forward (fun _ => 2) (({ l with weights := w, bias := bw } : PointConv 2 S (Rep ℤ ℕ) (SAttr (ℕ × ℕ) ℕ (Option StAttr))).train mode) edges delta)
          (forward (fun _ => 2) (({ l with weights := w, bias := bw } : PointConv 2 S (Rep ℤ ℕ) (SAttr (ℕ × ℕ) ℕ (Option StAttr))).train mode) edges (delta.map fun d => d.map fun v (o : Fin 2) => ∑ i : Fin 2, (base g).get o i * v i)) g x := by
  intro gen base
  obtain ⟨-, F, mk, hk, -, hser⟩ := Cyclic.planeGen_serves N hN radii sigma L junk hlen hr hs
  have hgen : gen = sampleGen O2.table.size F (fun v : Fin 2 → ℝ => (v 0, v 1)) mk := planeSampleGen_eq hk
  rw [hgen]
  have h11 := (restrictedIrrep_ok (fun r hwf hn => C13_o2_rot N hN [] "O(2)" r hwf hn) (1, 1) (by decide) (by decide))
  exact C74_module (Cyclic.table_valid N hN) (Cyclic.trivial N) F mk (fun v => (v 0, v 1)) base (act := fun h p => moveBy (base h) p) (n := 2) (fun g hg => ⟨(h11.1.rows hg).trans h11.2.1, (h11.1.cols hg).trans h11.2.1⟩)
    (fun h hh v => by simp [moveBy, Fin.sum_univ_two])
    inT outT hsp hin hout hne (fun _ => 2) rfl filt hui hun huo hon hni hno hdi hdo (fun i hi o ho => hser i o (hin i hi) (hout o ho)) bias w0

/-- **C74** Moving all the points by the same vector does not change the features. -/
theorem C74_translation (gdim : S → ℕ) (l : PointConv n S (Rep G J') A) (edges : List (ℕ × ℕ)) (t : Fin n → ℝ) (x : GPoints n S (Rep G J')) :
    forward gdim l edges none { x with coords := fun p i => x.coords p i + t i } = (forward gdim l edges none x).map fun y => { y with coords := fun p i => y.coords p i + t i } := by
  have hd : deltas (fun p i => x.coords p i + t i) edges none = deltas x.coords edges none := by simp [deltas]
  unfold forward
  simp only
  by_cases h1 : x.type ≠ l.inType
  · rw [if_pos h1, if_pos h1]; rfl
  by_cases h2 : ¬ ∀ e ∈ edges, e.1 < x.size ∧ e.2 < x.size
  · rw [if_neg h1, if_pos h2, if_neg h1, if_pos h2]; rfl
  rw [if_neg h1, if_neg h2, if_neg h1, if_neg h2, hd]
  cases l.message x.chans x.feats edges (deltas x.coords edges none) with
  | error e => rfl
  | ok y =>
    cases l.current with
    | error e => rfl
    | ok b =>
      simp only [bind, Except.bind, GPoints.mk']
      split_ifs <;> rfl

/-- **C74** A set of points without edges is refused, whatever the layer. -/
theorem C74_no_edges_violated (gdim : S → ℕ) (l : PointConv n S (Rep G J') A) (delta : Option (List (Fin n → ℝ))) (x : GPoints n S (Rep G J')) : forward gdim l [] delta x = .error .assertion := by
  unfold forward
  by_cases h1 : x.type ≠ l.inType
  · rw [if_pos h1]
  have : l.message x.chans x.feats [] (deltas x.coords [] delta) = .error .assertion := by
    unfold message Sampler.messages
    by_cases h : l.sampler.dim ≠ l.sampler.dim ∨ x.chans ≠ l.sampler.inSize * l.groups ∨ ([] : List (ℕ × ℕ)).length ≠ (deltas x.coords [] delta).length ∨ l.sampler.outSize % l.groups ≠ 0
    · exact if_pos h
    · refine (if_neg h).trans ((if_pos rfl).trans ?_)
      rw [Sampler.computeThenExpand, if_pos (by simp)]
  rw [if_neg h1, if_neg (by simp), this]
  rfl

/-- **C74** `evaluate_output_shape` refuses the shape of every tensor of features which `forward` accepts. -/
theorem C74_shape_violated {R : Type} (sz : R → ℕ) (l : PointConv n S R A) (points chans : ℕ) : outputShape sz l [points, chans] = .error .assertion := rfl

/-- Scalar features for all the rotations of the plane: the hypotheses hold, the layer exists, and it commutes with every rotation on three points joined by four edges. -/
example (w0 : ℕ → ℝ) : ∃ l, init SO2.irrepSize 0 (fun _ => 2) (planeSampleGen fun i o => kernelsSO2 i o [1] [1] 0 none fun _ => 0) none [irrepRep SO2.table "irrep_0" ∅ 0] [irrepRep SO2.table "irrep_0" ∅ 0]
    (⟨(), [irrepRep SO2.table "irrep_0" ∅ 0]⟩ : FType Unit (Rep ℝ ℕ)) ⟨(), [irrepRep SO2.table "irrep_0" ∅ 0]⟩ 1 true w0 = .ok l ∧
    ∀ w bw mode g, SO2.IsElement g → ∀ (pos : ℕ → Fin 2 → ℝ) (f : ℕ → ℕ → ℝ), PointCommutes (fun _ => 2) (fun h => (restrictedIrrep SO2.table "O(2)" 0 (fun i => .ok (O2.restrictSO2 i.1 i.2)) (1, 1)).mat h)
      (forward (fun _ => 2) (({ l with weights := w, bias := bw } : PointConv 2 Unit (Rep ℝ ℕ) (SAttr (ℕ × ℕ) ℕ (Option StAttr))).train mode) [(0, 1), (1, 0), (2, 1), (1, 1)] none)
      (forward (fun _ => 2) (({ l with weights := w, bias := bw } : PointConv 2 Unit (Rep ℝ ℕ) (SAttr (ℕ × ℕ) ℕ (Option StAttr))).train mode) [(0, 1), (1, 0), (2, 1), (1, 1)] none) g
      ⟨3, pos, 1, f, ⟨(), [irrepRep SO2.table "irrep_0" ∅ 0]⟩⟩ := by
  have hwf := irrepRep_wf SO2.table_valid (j := 0) rfl (by decide) "irrep_0" ∅
  have hwf' : ∀ r ∈ (⟨(), [irrepRep SO2.table "irrep_0" ∅ 0]⟩ : FType Unit (Rep ℝ ℕ)).reprs, r.WF SO2.table SO2.IsElement := by
    intro r hr
    obtain rfl := List.mem_singleton.1 hr
    exact hwf
  rcases C74_so2 [1] [1] 0 (fun _ => 0) rfl (by simp) (by simp) (⟨(), [irrepRep SO2.table "irrep_0" ∅ 0]⟩ : FType Unit (Rep ℝ ℕ)) ⟨(), [irrepRep SO2.table "irrep_0" ∅ 0]⟩ rfl hwf' hwf' (by simp) none
    (uin := [irrepRep SO2.table "irrep_0" ∅ 0]) (uout := [irrepRep SO2.table "irrep_0" ∅ 0]) (fun _ => Iff.rfl) (List.nodup_singleton _) (fun _ => Iff.rfl) (List.nodup_singleton _)
    (fun r hr r' hr' _ => (List.mem_singleton.1 hr).trans (List.mem_singleton.1 hr').symm) (fun r hr r' hr' _ => (List.mem_singleton.1 hr).trans (List.mem_singleton.1 hr').symm)
    (fun r hr => by obtain rfl := List.mem_singleton.1 hr; decide) (fun r hr => by obtain rfl := List.mem_singleton.1 hr; decide) true w0 with ⟨-, h⟩ | ⟨l, h1, h2⟩
  · exfalso
    have h := h _ (List.mem_singleton.2 rfl) _ (List.mem_singleton.2 rfl)
    obtain ⟨s, F, hs, hd, -⟩ := kernelsSO2_nonempty "irrep_0" ∅
    obtain ⟨-, F', mk, hk, hser⟩ := SO2.planeGen_serves [1] [1] 0 (fun _ => 0) rfl (by simp) (by simp)
    have hk := hk (irrepRep SO2.table "irrep_0" ∅ 0) (irrepRep SO2.table "irrep_0" ∅ 0)
    rw [hs] at hk
    rcases hser _ _ hwf hwf with e | ⟨s', L, e, -, -, e1, e2, -⟩
    · rw [e] at hk; cases hk
    · rw [e] at hk
      obtain ⟨rfl, rfl⟩ := Prod.mk.inj (Except.ok.inj hk)
      obtain ⟨a, L', rfl⟩ : ∃ a L', L = a :: L' := List.exists_cons_of_ne_nil (List.length_pos_iff.1 (by omega))
      simp [Sampler.blockFor, planeSampleGen, hs, SKB.pbasis, e1, bind, Except.bind, PBlock.ofFilter, PBlock.init] at h
      rw [show Sampler.noDot (irrepRep SO2.table "irrep_0" ∅ 0).name = true from by decide] at h
      simp at h
  · refine ⟨l, h1, fun w bw mode g hg pos f => ?_⟩
    have := h2 w bw mode g hg [(0, 1), (1, 0), (2, 1), (1, 1)] none (by simp) (by simp) ⟨3, pos, 1, f, ⟨(), [irrepRep SO2.table "irrep_0" ∅ 0]⟩⟩ rfl rfl (by simp)
    exact this

end PointConv

end Escnn
