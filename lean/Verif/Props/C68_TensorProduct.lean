import Verif.Props.C67_Tensor
import Verif.Props.C42_Linear
import Verif.Props.C50_Uniform
import Verif.Model.TensorProduct

/-!
# C68: `TensorProductModule` is equivariant
-/

namespace Escnn

namespace TensorProduct

open NpMat

variable {S G J A B P C : Type} [DecidableEq J] {El : G → Prop} {op : G → G → G} {one : G}

/-- The value computed for the entry `o` of field `c`. -/
noncomputable def value (M : NpMat ℝ) (d osize : ℕ) (x : FTensor B P) (c o : ℕ) (b : B) (p : P) : ℝ :=
  ∑ h ∈ Finset.range (d * d), M.get (c * osize + o) h * (x.get b (c * d + h / d) p * x.get b (c * d + h % d) p)

/-- What the forward pass computes with the matrix `M`. -/
theorem forward_spec {l : TensorProduct S (Rep G J) A} {M : NpMat ℝ} (hM : l.current = .ok M) {n : ℕ} (hin : l.inType.reprs = List.replicate n l.rin) (hout : l.outType.reprs = List.replicate n l.rout)
    (hh : l.hid.size = l.rin.size * l.rin.size) (hr : M.rows = n * l.rout.size) (hc : M.cols = l.hid.size) (hpos : 0 < l.rin.size) (x : GTensor B P S (Rep G J) C) (hx : x.type = l.inType) (hxc : x.tensor.chans = l.inType.size Rep.size) :
    ∃ y, forward l x = .ok y ∧ y.type = l.outType ∧ y.coords = x.coords ∧ y.tensor.chans = l.outType.size Rep.size ∧
      ∀ (k : ℕ) (r : Rep G J), l.outType.reprs[k]? = some r → ∀ o < r.size, ∀ b p, y.tensor.get b (chanOffset Rep.size l.outType.reprs k + o) p = value M l.rin.size l.rout.size x.tensor k o b p := by
  have hlen : l.inType.len = n := by rw [FType.len, hin, List.length_replicate]
  have h1 : x.tensor.chans = n * l.rin.size := by rw [hxc, FType.size_eq, hin]; simp
  have h2 : l.outType.size Rep.size = n * l.rout.size := by rw [FType.size_eq, hout]; simp
  have hcp : 0 < M.cols := by rw [hc, hh]; exact Nat.mul_pos hpos hpos
  have hidx : ∀ r h, h < l.hid.size → (r * l.hid.size + h) / M.cols = r ∧ (r * l.hid.size + h) % M.cols = h := fun r h hlt => by
    rw [hc] at hcp ⊢
    rw [Nat.mul_comm, Nat.mul_add_div hcp, Nat.div_eq_of_lt hlt, Nat.mul_add_mod, Nat.mod_eq_of_lt hlt]
    exact ⟨rfl, rfl⟩
  refine ⟨⟨(⟨n, l.rout.size, fun b c o p => ∑ i ∈ Finset.range l.hid.size, M.get (((c * l.rout.size + o) * l.hid.size + i) / M.cols) (((c * l.rout.size + o) * l.hid.size + i) % M.cols) *
      (x.tensor.get b (c * l.rin.size + i / l.rin.size) p * x.tensor.get b (c * l.rin.size + i % l.rin.size) p)⟩ : FieldsT B P).flat, l.outType, x.coords⟩, ?_, rfl, rfl, h2.symm, fun k r hk o ho b p => ?_⟩
  · rw [forward, if_neg (by simp [hx]), hlen, FTensor.toFields, if_pos h1]
    simp only [bind, Except.bind]
    rw [square, if_pos hh.symm]
    simp only [hM]
    rw [project, if_pos (by rw [hr, hc])]
    simp only
    rw [GTensor.mk', if_pos]
    exact h2.symm
  · rw [hout, List.getElem?_replicate] at hk
    split_ifs at hk with hkn
    obtain rfl := Option.some.inj hk
    rw [hout, TensorRep.chanOffset_replicate _ _ _ _ hkn.le]
    rw [FieldsT.flat_get (⟨n, l.rout.size, fun b c o p => ∑ i ∈ Finset.range l.hid.size, M.get (((c * l.rout.size + o) * l.hid.size + i) / M.cols) (((c * l.rout.size + o) * l.hid.size + i) % M.cols) *
      (x.tensor.get b (c * l.rin.size + i / l.rin.size) p * x.tensor.get b (c * l.rin.size + i % l.rin.size) p)⟩ : FieldsT B P) b p ho]
    simp only [value, ← hh]
    refine Finset.sum_congr rfl fun h hh' => ?_
    obtain ⟨e1, e2⟩ := hidx (k * l.rout.size + o) h (Finset.mem_range.1 hh')
    rw [e1, e2]

/-- The quadratic map followed by an intertwiner is equivariant. -/
theorem value_equivariant {M ρi ρo ρh : NpMat ℝ} {d n : ℕ} {rout : ℕ} (hi : ρi.rows = d ∧ ρi.cols = d) (ho : ρo.rows = rout ∧ ρo.cols = rout) (hh : ρh ≈ kron ρi ρi) (hM : M.rows = n * rout ∧ M.cols = d * d)
    (h : mul M ρh ≈ mul (blockDiag ((List.replicate n ()).map fun _ => ρo)) M) {x gx : FTensor B P} {c o : ℕ} {b : B} {p : P} (hc : c < n) (ho' : o < rout)
    (hx : ∀ i < d, gx.get b (c * d + i) p = ∑ j ∈ Finset.range d, ρi.get i j * x.get b (c * d + j) p) :
    value M d rout gx c o b p = ∑ j ∈ Finset.range rout, ρo.get o j * value M d rout x c j b p := by
  have hshape := blockDiag_map_size (rs := List.replicate n ()) (ρ := fun _ => ρo) (sz := fun _ => rout) fun _ _ => ho
  have hsum : ((List.replicate n ()).map fun _ => rout).sum = n * rout := by simp
  rw [hsum] at hshape
  have hcg : (List.replicate n ())[c]? = some () := by simp [hc]
  -- the features
  have hq : ∀ k < d * d, gx.get b (c * d + k / d) p * gx.get b (c * d + k % d) p = ∑ k' ∈ Finset.range (d * d), ρh.get k k' * (x.get b (c * d + k' / d) p * x.get b (c * d + k' % d) p) := by
    intro k hk
    have hd : 0 < d := Nat.pos_of_ne_zero fun h => by simp [h] at hk
    rw [hx _ (Nat.div_lt_of_lt_mul hk), hx _ (Nat.mod_lt _ hd)]
    have e : ∀ k' ∈ Finset.range (d * d), ρh.get k k' * (x.get b (c * d + k' / d) p * x.get b (c * d + k' % d) p) =
        (fun a a' => ρi.get (k / d) a * x.get b (c * d + a) p * (ρi.get (k % d) a' * x.get b (c * d + a') p)) (k' / d) (k' % d) := fun k' hk' => by
      rw [hh.2.2 k k' (by rw [hh.1, kron_rows, hi.1]; exact hk) (by rw [hh.2.1, kron_cols, hi.2]; exact Finset.mem_range.1 hk')]
      simp only [kron, hi.1, hi.2]
      ring
    rw [Finset.sum_congr rfl e, sum_range_mul' d d (fun a a' => ρi.get (k / d) a * x.get b (c * d + a) p * (ρi.get (k % d) a' * x.get b (c * d + a') p)), Finset.sum_mul_sum]
  have hrow : ∀ k' < d * d, ∑ k ∈ Finset.range (d * d), M.get (c * rout + o) k * ρh.get k k' = ∑ j ∈ Finset.range rout, ρo.get o j * M.get (c * rout + j) k' := by
    intro k' hk'
    have hlt : c * rout + o < n * rout := by
      calc c * rout + o < c * rout + rout := by omega
        _ = (c + 1) * rout := by ring
        _ ≤ n * rout := Nat.mul_le_mul_right _ hc
    have e := h.2.2 (c * rout + o) k' (by rw [mul_rows, hM.1]; exact hlt) (by rw [mul_cols, hh.2.1, kron_cols, hi.2]; exact hk')
    simp only [mul] at e
    rw [hM.2] at e
    rw [e, hshape.2]
    have hb := blockDiag_row (ρ := fun _ : Unit => ρo) (sz := fun _ => rout) (rs := List.replicate n ()) (fun _ _ => ho) hcg ho' fun j => M.get j k'
    rw [TensorRep.chanOffset_replicate _ _ _ _ hc.le, hsum] at hb
    exact hb
  unfold value
  rw [Finset.sum_congr rfl fun k hk => by rw [hq k (Finset.mem_range.1 hk)]]
  simp only [Finset.mul_sum]
  rw [Finset.sum_comm]
  have : ∀ k' ∈ Finset.range (d * d), ∑ k ∈ Finset.range (d * d), M.get (c * rout + o) k * (ρh.get k k' * (x.get b (c * d + k' / d) p * x.get b (c * d + k' % d) p)) =
      ∑ j ∈ Finset.range rout, ρo.get o j * (M.get (c * rout + j) k' * (x.get b (c * d + k' / d) p * x.get b (c * d + k' % d) p)) := by
    intro k' hk'
    have e := congrArg (· * (x.get b (c * d + k' / d) p * x.get b (c * d + k' % d) p)) (hrow k' (Finset.mem_range.1 hk'))
    simp only [Finset.sum_mul] at e
    simpa only [mul_assoc] using e
  rw [Finset.sum_congr rfl this, Finset.sum_comm]

/-- **C68** `TensorProductModule`: for all uniform types with the same number of fields the constructor only fails, with `ValueError`, when there is no basis element; and for all weights the module is equivariant at every position,
in evaluation mode computes the same, and its declared output shape is right. -/
theorem C68_tensor_product (K : KGroup G J) (triv : J) (hT : K.T.Valid El op one) (hone : El one) (hE : EndoValid K.T K.typ El) (ht : K.T.IsTrivial El triv) (taken : List String)
    (inT outT : FType S (Rep G J)) (hsp : inT.gspace = outT.gspace) {n : ℕ} (hn : 0 < n) {rin rout : Rep G J} (hin : inT.reprs = List.replicate n rin) (hout : outT.reprs = List.replicate n rout)
    (hwi : rin.WF K.T El) (hwo : rout.WF K.T El) (hname : rin.name ++ " X " ++ rin.name ∉ taken)
    (hcg : ∀ m n, K.T.ok m = true → K.T.ok n = true → CGLaw El K.T.ok K.T.size K.T.mat K.tensor K.cg m n ∧ ∀ p ∈ K.tensor m n, (K.cg n m p.1).mult = p.2 ∧
      ∀ g, El g → Intertwines (K.T.mat n g) (K.T.mat m g) (K.T.mat p.1 g) (K.cg n m p.1)) (w0 : ℕ → ℝ) :
    ∃ hid, TensorRep.tensor K.T K.tensor K.cg taken rin rin = .ok hid ∧
      (Blocks.blockFor (pointGen K triv) none 1 hid rout = .error .emptyBasis → init K taken (pointGen K triv) inT outT w0 = .error .value) ∧
      (Blocks.blockFor (pointGen K triv) none 1 hid rout ≠ .error .emptyBasis → ∃ l, init K taken (pointGen K triv) inT outT w0 = .ok l ∧ l.weights = w0 ∧ l.training = true ∧
        (∀ shape : List ℕ, 2 ≤ shape.length → shape[1]? = some (inT.size Rep.size) → l.evaluateOutputShape Rep.size shape = shape.set 1 (outT.size Rep.size)) ∧
        ∀ w, FibreEquivariant (B := B) (P := P) (C := C) El inT outT (forward { l with weights := w }) ∧ PositionLocal (B := B) (P := P) (C := C) Rep.size inT (forward { l with weights := w }) ∧
          ∃ l', train { l with weights := w } false = .ok l' ∧ ∀ x : GTensor B P S (Rep G J) C, forward l' x = forward { l with weights := w } x) := by
  obtain ⟨hid, hten, hwh, hhs, -, hhm, -⟩ := TensorRep.C67_tensor hT taken hwi hwi (fun m hm n hn => (hcg m n (hwi.ok m hm) (hwi.ok n hn)).1) hname
  refine ⟨hid, hten, ?_⟩
  obtain ⟨k, rfl⟩ : ∃ k, n = k + 1 := ⟨n - 1, by omega⟩
  let hT' : FType S (Rep G J) := ⟨inT.gspace, [hid]⟩
  have hwo' : ∀ r ∈ outT.reprs, r.WF K.T El := fun r hr => by rw [hout] at hr; rw [List.eq_of_mem_replicate hr]; exact hwo
  have hwi' : ∀ r ∈ inT.reprs, r.WF K.T El := fun r hr => by rw [hin] at hr; rw [List.eq_of_mem_replicate hr]; exact hwi
  have hser : ∀ i ∈ hT'.reprs, ∀ o ∈ outT.reprs, SKB.Serves El (fun (_ : G) (x : Unit) => x) K.T.size (pointBasis (P := Unit) triv) i o
      (SKB.init K.T.size triv (pointBasis (P := Unit) triv) (WE.init K (pointBasis (P := Unit) triv)) i o) := fun i hi o ho => by
    obtain rfl : i = hid := by simpa [hT'] using hi
    exact SKB.serves_we K _ i o triv hT hE hwh (hwo' o ho) (fun m hm n hn => ⟨(hcg m n (hwh.ok m hm) ((hwo' o ho).ok n hn)).1.nodup, fun p hp =>
        ⟨(hcg m n (hwh.ok m hm) ((hwo' o ho).ok n hn)).1.ok p hp, (hcg m n (hwh.ok m hm) ((hwo' o ho).ok n hn)).2 p hp⟩⟩) (by simp [pointBasis])
      (fun e he => by rw [show e = (triv, 1) by simpa [pointBasis] using he]; exact ht.ok) (pointBasis_steerable triv _ _ _ _ ht.size ht.mat) (C37_point triv)
  obtain ⟨hI, m, hm, hw⟩ := Blocks.steerable_filter (pts := [()]) (uin := [hid]) (uout := [rout]) hone hT' outT (by simp) (fun r => by simp [hT']) (List.nodup_singleton _)
    (fun r => by rw [hout]; simp) (List.nodup_singleton _) (fun r hr r' hr' _ => by
      simp only [hT', List.mem_singleton] at hr hr'; rw [hr, hr']) (fun r hr r' hr' _ => by
      rw [hout] at hr hr'; rw [List.eq_of_mem_replicate hr, List.eq_of_mem_replicate hr']) (fun r hr => by simp only [hT', List.mem_singleton] at hr; rw [hr]; exact hwh) hwo' hser none
  have hm : Blocks.init Rep.name Rep.size (Blocks.blockFor (pointGen K triv) none 1) [hid] [rout] [hid] outT.reprs 1 = .ok m := hm
  have hinit : init K taken (pointGen K triv) inT outT w0 = if m.dim = 0 then .error .value else .ok ⟨inT, outT, rin, rout, hid, m, w0, true, some (zeros (outT.size Rep.size) hid.size)⟩ := by
    have hin' := hin
    have hout' := hout
    rw [List.replicate_succ] at hin' hout'
    unfold init
    split
    · rename_i a as b bs e1 e2
      rw [hin'] at e1
      rw [hout'] at e2
      obtain ⟨rfl, rfl⟩ := List.cons.inj e1
      obtain ⟨rfl, rfl⟩ := List.cons.inj e2
      rw [if_neg (by simp [hsp]), if_neg (by rw [not_not]; exact fun r hr => List.eq_of_mem_replicate hr), if_neg (by rw [not_not]; exact fun r hr => List.eq_of_mem_replicate hr),
        if_neg (by simp [FType.len, hin, hout])]
      simp only [bind, Except.bind, hten, hm]
    · rename_i hcase
      exact absurd hout' (hcase _ _ _ _ hin')
  refine ⟨fun hemp => ?_, fun hne => ?_⟩
  · obtain ⟨m', hm', hd, -⟩ := Blocks.C34_violated_empty hI none 1 ⟨rfl, rfl⟩ fun i hi o ho => by
      obtain rfl : i = hid := by simpa [hT'] using hi
      rw [hout] at ho
      rw [List.eq_of_mem_replicate ho]
      exact hemp
    obtain rfl := Except.ok.inj (hm.symm.trans hm')
    rw [hinit, if_pos hd]
  · have hdim : 0 < m.dim := by
      obtain ⟨m', T, hm', f⟩ := Blocks.init_spec (hI.args none 1) 1
      obtain rfl := Except.ok.inj (hm.symm.trans hm')
      have hio : hid ∈ hT'.reprs := by simp [hT']
      have hoo : rout ∈ outT.reprs := by rw [hout]; simp
      obtain h | ⟨b, hb, hbw, -, -⟩ := (hI.args none 1).gen_ok hid hio rout hoo
      · exact absurd h hne
      have hB : Blocks.HasBlock Rep.name (Blocks.blockFor (pointGen K triv) none 1) hT'.reprs outT.reprs (hid.name, rout.name) b := ⟨hid, hio, rout, hoo, rfl, hb⟩
      have hp := (f.mem _).2 ⟨b, hB⟩
      have hpos : 0 < T (hid.name, rout.name) := by
        rw [f.total _ _ hB]
        refine Nat.mul_pos hbw.1 (Nat.mul_pos ?_ ?_)
        · exact List.length_pos_of_mem (mem_labelled.2 (show (hT'.reprs.map Rep.name)[0]? = some hid.name from rfl))
        · exact List.length_pos_of_mem (mem_labelled.2 (show (outT.reprs.map Rep.name)[0]? = some rout.name by rw [hout]; rfl))
      rw [f.dim]
      exact lt_of_lt_of_le hpos (List.single_le_sum (by simp) _ (List.mem_map.2 ⟨_, hp, rfl⟩))
    refine ⟨_, by rw [hinit, if_neg (by omega)], rfl, rfl, ?_, fun w => ?_⟩
    · intro shape h2 h1
      unfold evaluateOutputShape
      match shape, h2, h1 with
      | a :: b :: t, _, h1 =>
        simp only [List.getElem?_cons_succ, List.getElem?_cons_zero, Option.some.injEq] at h1
        subst h1
        split_ifs with h
        · simp
        · have h : inT = outT := not_not.1 h
          simp [h]
    · obtain ⟨f, hf, hfr, hfc, hst⟩ := hw (fun _ => hdim) w
      set l : TensorProduct S (Rep G J) (SAttr J J (Option ℕ)) := ⟨inT, outT, rin, rout, hid, m, w, true, some (zeros (outT.size Rep.size) hid.size)⟩ with hl
      have hexp : ∀ tr mt, expandParameters (⟨inT, outT, rin, rout, hid, m, w, tr, mt⟩ : TensorProduct S (Rep G J) (SAttr J J (Option ℕ))) = .ok ⟨f.rows, f.cols, fun r c => f.get r c 0⟩ := fun tr mt => by
        simp only [expandParameters, bind, Except.bind, hf]
      have hcur : l.current = .ok ⟨f.rows, f.cols, fun r c => f.get r c 0⟩ := by
        rw [current, if_neg (by simp [hl]), hexp]
      have hfr' : f.rows = (k + 1) * rout.size := by rw [hfr, FType.size_eq, hout]; simp
      have hfc' : f.cols = hid.size := by rw [hfc, FType.size_eq]; simp [hT']
      have hspec := fun x hx hxc => forward_spec (B := B) (P := P) (C := C) (l := l) hcur (n := k + 1) hin hout hhs hfr' hfc' hwi.pos x hx hxc
      refine ⟨FibreEquivariant.of_fields (GatedNL.wf_square hwi') (GatedNL.wf_square hwo') _ hspec ?_, PositionLocal.of_fields _ hspec fun σ x c o b p => rfl, ?_⟩
      · intro g hg x gx _ _ hact c r hr o ho b p
        rw [hout, List.getElem?_replicate] at hr
        split_ifs at hr with hc
        obtain rfl := Option.some.inj hr
        have hs := hst g hg 0 0 () rfl rfl
        refine value_equivariant (n := k + 1) (ρi := rin.mat g) (ρo := rout.mat g) (ρh := hid.mat g) ⟨hwi.rows hg, hwi.cols hg⟩ ⟨hwo.rows hg, hwo.cols hg⟩ (hhm g hg) ⟨hfr', hfc'.trans hhs⟩ ?_ hc ho fun i hi => ?_
        · have e1 : hT'.fiberRep g ≈ hid.mat g := diag2_empty_right _
          have e2 : outT.fiberRep g = blockDiag ((List.replicate (k + 1) ()).map fun _ => rout.mat g) := by
            rw [FType.fiberRep, hout, List.map_replicate, List.map_replicate]
          rw [← e2]
          exact (mul_congr_right _ e1.symm (hfc'.trans (hwh.rows hg).symm)).trans hs
        · have := hact c rin (by rw [hin, List.getElem?_replicate, if_pos hc]) b i p hi
          rw [hin, TensorRep.chanOffset_replicate _ _ _ _ hc.le] at this
          exact this
      · refine ⟨⟨inT, outT, rin, rout, hid, m, w, false, some ⟨f.rows, f.cols, fun r c => f.get r c 0⟩⟩, ?_, fun x => ?_⟩
        · rw [train, if_neg (by simp)]
          simp only [bind, Except.bind, hl, hexp]
        · unfold forward
          rw [hcur]
          rfl

/-- **C68** The types accepted by the constructor: on one space, uniform, with the same number of fields. -/
theorem C68_init (K : KGroup G J) (taken : List String) (gen : Rep G J → Rep G J → Except Err (KBasis A)) (inT outT : FType S (Rep G J)) (w0 : ℕ → ℝ) {l : TensorProduct S (Rep G J) A}
    (h : init K taken gen inT outT w0 = .ok l) : inT.gspace = outT.gspace ∧ inT.reprs.length = outT.reprs.length ∧ inT.reprs ≠ [] ∧ (∀ r ∈ inT.reprs, ∀ q ∈ inT.reprs, r = q) ∧ (∀ r ∈ outT.reprs, ∀ q ∈ outT.reprs, r = q) ∧
      l.inType = inT ∧ l.outType = outT ∧ l.weights = w0 := by
  obtain ⟨sp, L⟩ := inT
  obtain ⟨sp', L'⟩ := outT
  unfold init at h
  match L, L', h with
  | [], _, h => simp at h
  | _ :: _, [], h => simp at h
  | rin :: ins, rout :: outs, h =>
    simp only at h
    split_ifs at h with h1 h2 h3 h4
    obtain ⟨hid, -, h⟩ := ExRel.bind_ok h
    obtain ⟨b, -, h⟩ := ExRel.bind_ok h
    split_ifs at h
    obtain rfl := Except.ok.inj h
    have key : ∀ {a : Rep G J} {L : List (Rep G J)}, (∀ r ∈ L, r = a) → ∀ r ∈ a :: L, ∀ q ∈ a :: L, r = q := by
      intro a L hL r hr q hq
      have : ∀ r ∈ a :: L, r = a := by
        intro r hr
        rcases List.mem_cons.1 hr with rfl | hr
        · rfl
        · exact hL r hr
      rw [this r hr, this q hq]
    exact ⟨not_not.1 h1, not_not.1 h4, by simp, key h2, key h3, rfl, rfl, rfl⟩

/-- Two input fields cannot be mapped to one output field. -/
example (w0 : ℕ → ℝ) (r : Rep ℤ ℕ) (l) : init (Cyclic.kgroup 3) [] (pointGen (Cyclic.kgroup 3) 0) (⟨(), [r, r]⟩ : FType Unit (Rep ℤ ℕ)) ⟨(), [r]⟩ w0 ≠ .ok l := fun h => by
  have := (C68_init _ _ _ _ _ _ h).2.1
  simp at this

/-- **C68** Switching the mode: training clears the stored matrix, evaluation stores the matrix of the current weights. -/
theorem C68_train (l l' : TensorProduct S (Rep G J) A) (mode : Bool) (h : l.train mode = .ok l') : l'.training = mode ∧ l'.weights = l.weights ∧ l'.inType = l.inType ∧ l'.outType = l.outType ∧
    (mode = true → l'.matrix = none) ∧ (mode = false → ∃ M, l.expandParameters = .ok M ∧ l'.matrix = some M) := by
  unfold train at h
  cases mode with
  | true =>
    obtain rfl := Except.ok.inj h
    exact ⟨rfl, rfl, rfl, rfl, fun _ => rfl, fun h => by simp at h⟩
  | false =>
    rw [if_neg (by simp)] at h
    obtain ⟨M, h1, h⟩ := ExRel.bind_ok h
    obtain rfl := Except.ok.inj h
    exact ⟨rfl, rfl, rfl, rfl, fun h => by simp at h, fun _ => ⟨M, h1, rfl⟩⟩

/-- Training after evaluation. -/
example (l l' : TensorProduct S (Rep G J) A) (h : l.train false = .ok l') : ∃ l'', l'.train true = .ok l'' ∧ l''.matrix = none ∧ l''.weights = l.weights :=
  ⟨_, rfl, (C68_train l' _ true rfl).2.2.2.2.1 rfl, (C68_train l l' false h).2.1⟩

/-- **C68** for the cyclic groups. -/
theorem C68_cyclic (N : ℕ) (hN : 0 < N) (taken : List String) (inT outT : FType S (Rep ℤ ℕ)) (hsp : inT.gspace = outT.gspace) {n : ℕ} (hn : 0 < n) {rin rout : Rep ℤ ℕ} (hin : inT.reprs = List.replicate n rin)
    (hout : outT.reprs = List.replicate n rout) (hwi : rin.WF (Cyclic.table N) fun g => Cyclic.isElement N g = true) (hwo : rout.WF (Cyclic.table N) fun g => Cyclic.isElement N g = true)
    (hname : rin.name ++ " X " ++ rin.name ∉ taken) (w0 : ℕ → ℝ) :
    init (Cyclic.kgroup N) taken (pointGen (Cyclic.kgroup N) 0) inT outT w0 = .error .value ∨ ∃ l, init (Cyclic.kgroup N) taken (pointGen (Cyclic.kgroup N) 0) inT outT w0 = .ok l ∧
      ∀ w, FibreEquivariant (B := B) (P := P) (C := C) (fun g => Cyclic.isElement N g = true) inT outT (forward { l with weights := w }) := by
  obtain ⟨hid, -, h1, h2⟩ := C68_tensor_product (B := B) (P := P) (C := C) (Cyclic.kgroup N) 0 (Cyclic.table_valid N hN) (Cyclic.isElement_zero hN) (Cyclic.C18_cyclic N hN).1 (Cyclic.trivial N) taken inT outT hsp hn hin hout
    hwi hwo hname (fun m n hm hn => ⟨TensorRep.cyclic_law N hN (of_decide_eq_true hm) (of_decide_eq_true hn),
      fun p hp => (Cyclic.kgroup_cg N hN m n (of_decide_eq_true hm) (of_decide_eq_true hn) p hp).2⟩) w0
  by_cases hb : Blocks.blockFor (pointGen (Cyclic.kgroup N) 0) none 1 hid rout = .error .emptyBasis
  · exact .inl (h1 hb)
  · obtain ⟨l, hl, -, -, -, h⟩ := h2 hb
    exact .inr ⟨l, hl, fun w => (h w).1⟩

/-- **C68** for SO(2). -/
theorem C68_so2 (taken : List String) (inT outT : FType S (Rep ℝ ℕ)) (hsp : inT.gspace = outT.gspace) {n : ℕ} (hn : 0 < n) {rin rout : Rep ℝ ℕ} (hin : inT.reprs = List.replicate n rin)
    (hout : outT.reprs = List.replicate n rout) (hwi : rin.WF SO2.table SO2.IsElement) (hwo : rout.WF SO2.table SO2.IsElement) (hname : rin.name ++ " X " ++ rin.name ∉ taken) (w0 : ℕ → ℝ) :
    init SO2.kgroup taken (pointGen SO2.kgroup 0) inT outT w0 = .error .value ∨ ∃ l, init SO2.kgroup taken (pointGen SO2.kgroup 0) inT outT w0 = .ok l ∧
      ∀ w, FibreEquivariant (B := B) (P := P) (C := C) SO2.IsElement inT outT (forward { l with weights := w }) := by
  obtain ⟨hid, -, h1, h2⟩ := C68_tensor_product (B := B) (P := P) (C := C) SO2.kgroup 0 SO2.table_valid ⟨le_rfl, Real.two_pi_pos⟩ SO2.C18_so2 SO2.trivial taken inT outT hsp hn hin hout
    hwi hwo hname (fun m n _ _ => ⟨TensorRep.so2_law m n, fun p hp => SO2.kgroup_cg m n p hp⟩) w0
  by_cases hb : Blocks.blockFor (pointGen SO2.kgroup 0) none 1 hid rout = .error .emptyBasis
  · exact .inl (h1 hb)
  · obtain ⟨l, hl, -, -, -, h⟩ := h2 hb
    exact .inr ⟨l, hl, fun w => (h w).1⟩

/-- Two fields of the rotations of `C_3` in the plane, mapped to two such fields. -/
example (w0 : ℕ → ℝ) := C68_cyclic (S := Unit) (B := Unit) (P := Unit) (C := Unit) 3 (by norm_num) [] ⟨(), List.replicate 2 (irrepRep (Cyclic.table 3) "irrep_1" ∅ 1)⟩ ⟨(), List.replicate 2 (irrepRep (Cyclic.table 3) "irrep_1" ∅ 1)⟩
  rfl (by norm_num) rfl rfl (irrepRep_wf (Cyclic.table_valid 3 (by norm_num)) rfl (by decide) _ _) (irrepRep_wf (Cyclic.table_valid 3 (by norm_num)) rfl (by decide) _ _) (by simp) w0

end TensorProduct

end Escnn
