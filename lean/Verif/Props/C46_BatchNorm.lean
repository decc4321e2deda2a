import Verif.Lemmas.ExportTensor
import Verif.Props.C56_IID
import Verif.Props.C56_Inner
import Verif.Props.C56_GNorm

/-!
# C46: the exported batch normalizations

`export` begins with `self.eval()`; the exported module is used in evaluation mode.
-/

namespace Escnn

open Finset

variable {B P S G Id C : Type} [DecidableEq Id] {El : G → Prop} {op : G → G → G} {one : G} {T : IrrepTable G Id} {triv : Id} [Fintype B] [Fintype P]

theorem bind_eq {α β : Type} {m : Except Err α} {f : α → Except Err β} {a : α} {y : Except Err β} (h : m = .ok a) (h' : f a = y) : (m >>= f) = y := by rw [h]; exact h'

/-- A batch normalization which leaves its buffers unchanged and computes for each field the affine map of the exported module. -/
theorem TorchBN.same_fields {St : Type} {t : FType S (Rep G Id)} {bn : TorchBN} {nd : ℕ} (hnd : 2 + nd ∈ bn.dims) (hft : bn.features = t.size Rep.size) {st : St}
    {f : GTensor B P S (Rep G Id) C → Except Err (St × GTensor B P S (Rep G Id) C)} {out : FTensor B P → ℕ → ℕ → B → P → ℝ}
    (hf : ∀ x : GTensor B P S (Rep G Id) C, x.type = t → x.tensor.chans = t.size Rep.size → ∃ y, f x = .ok (st, y) ∧ y.type = t ∧ y.tensor.chans = t.size Rep.size ∧
      ∀ (k : ℕ) (r : Rep G Id), t.reprs[k]? = some r → ∀ o < r.size, ∀ b q, y.tensor.get b (chanOffset Rep.size t.reprs k + o) q = out x.tensor k o b q)
    (hout : ∀ (x : FTensor B P) (k : ℕ) (r : Rep G Id), t.reprs[k]? = some r → ∀ o < r.size, ∀ b q, out x k o b q =
      (x.get b (chanOffset Rep.size t.reprs k + o) q - bn.mean (chanOffset Rep.size t.reprs k + o)) / Real.sqrt (bn.var (chanOffset Rep.size t.reprs k + o) + bn.eps) *
        (if bn.affine then bn.weight (chanOffset Rep.size t.reprs k + o) else 1) + if bn.affine then bn.bias (chanOffset Rep.size t.reprs k + o) else 0) :
    SameFunction (HoldsTensor t) (fun r z => r.1 = st ∧ HoldsTensor t r.2 z) f (bn.forward nd) := by
  intro x z ⟨hx, hc, hz⟩
  obtain ⟨y, f1, f2, f3, f4⟩ := hf x hx hc
  have hzc : z.chans = t.size Rep.size := hz.1.symm.trans hc
  refine .inl ⟨(st, y), ⟨z.chans, fun b c p => (z.get b c p - bn.mean c) / Real.sqrt (bn.var c + bn.eps) * (if bn.affine then bn.weight c else 1) + if bn.affine then bn.bias c else 0⟩, f1, ?_, rfl, f2, f3, ?_⟩
  · unfold forward
    rw [if_neg (not_not.2 hnd), if_neg (not_not.2 (hzc.trans hft.symm))]
  · refine equiv_of_fields f3 hzc fun k r hk o ho b p => ?_
    rw [f4 k r hk o ho, hout x.tensor k r hk o ho b p]
    have : x.tensor.get b (chanOffset Rep.size t.reprs k + o) p = z.get b (chanOffset Rep.size t.reprs k + o) p := by
      refine hz.2 b _ p ?_
      rw [hc, FType.size_eq]
      exact chanOffset_lt hk ho
    rw [this]

namespace IIDBatchNorm

/-- **C46** IIDBatchNorm: for each type with distinct names, all buffers and parameters, with or without parameters, `export` (without running statistics it raises `ValueError`) returns a batch normalization which computes the
same function as the module in evaluation mode, for all inputs with the number of dimensions of the exported module. -/
theorem C46_iid {t : FType S (Rep G Id)} (hwf : ∀ r ∈ t.reprs, r.WF T El) (hn : NamesApart t.reprs) {uniq : List (Rep G Id)} (hnd : uniq.Nodup) (hu : ∀ r, r ∈ uniq ↔ r ∈ t.reprs) {eps : ℝ}
    {mo : Option ℝ} {affine track : Bool} {m : IIDBatchNorm S (Rep G Id)} (hm : init T.size triv uniq t eps mo affine track = .ok m) {d : ℕ} (hd : d = 1 ∨ d = 2 ∨ d = 3) (c : BNPar) (hc : c.training = false)
    (junk : B → ℕ → P → ℝ) (st : IIDState) :
    (track = true → ∃ bn, m.export' Rep.size d c st = .ok bn ∧ ∀ nd, 2 + nd ∈ torchBNDims d →
      SameFunction (HoldsTensor (C := C) t) (fun r z => r.1 = st ∧ HoldsTensor t r.2 z) (forward m B P c junk st) (bn.forward nd)) ∧
    (track = false → m.export' Rep.size d c st = .error .value) := by
  obtain ⟨h1, h2, h3, h4, h5, h6, h7, h8, h9⟩ := init_ok hm
  refine ⟨fun htr => ?_, fun htr => ?_⟩
  swap
  · unfold export'
    rw [if_pos (by rw [h5, htr]; simp)]
  have htab : ∀ r ∈ t.reprs, tabGet m.tabs r.name = .ok (NormTab.of T.size triv r) := fun r hr => tabGet_ok.2 (h9 ▸ nameTab_get hn hu (NormTab.of T.size triv) hr)
  have hw : ∀ (v : NormTab → String → ℕ → ℕ → ℝ) (u : ℕ → ℝ), ∃ res, writeLoop (fun name => do
      let T ← tabGet m.tabs name
      .ok (fieldVec (m.names.count name) T.size (v T name))) m.table (chanVec (t.size Rep.size) u) m.order = .ok res ∧
      ∀ (k : ℕ) r, t.reprs[k]? = some r → ∀ o < r.size, vecOf res (chanOffset Rep.size t.reprs k + o) = v (NormTab.of T.size triv r) r.name ((labelled (t.reprs.map Rep.name) r.name).idxOf k) o := by
    intro v u
    rw [h8]
    refine nameWrite (fun r hr => (hwf r hr).pos) hn hnd hu h7 (fun r => v (NormTab.of T.size triv r) r.name) (fun r hr => ?_) u
    simp only [htab r hr, bind, Except.bind, h6]
    rfl
  obtain ⟨var, a1, a2⟩ := hw (fun _ name i _ => (st.stat name i).var) fun _ => 1
  obtain ⟨weight, b1, b2⟩ := hw (fun _ name i _ => c.weight name i) fun _ => 1
  obtain ⟨mean, c1, c2⟩ := hw (fun T name i o => if T.has then (st.stat name i).mean o else 0) fun _ => 0
  obtain ⟨bias, d1, d2⟩ := hw (fun T name i o => if T.has then ∑ j ∈ Finset.range T.Q.cols, T.Q.get o j * c.bias name i j else 0) fun _ => 0
  refine ⟨⟨t.size Rep.size, m.eps, m.affine, torchBNDims d, st.count, vecOf mean, vecOf var, vecOf weight, vecOf bias⟩, ?_, fun nd hdim => ?_⟩
  · unfold export'
    rw [if_neg (by rw [h5, htr]; simp), if_neg (not_not.2 hd), h1]
    simp only [a1, b1, c1, d1]
    rfl
  · refine TorchBN.same_fields (out := outField T triv t eps affine track c st) hdim rfl (fun x hx hxc => ?_) fun x k r hk o ho b q => ?_
    · obtain ⟨y, f1, f2, -, f4, f5⟩ := forward_spec hwf hn hnd hu hm c junk st x hx hxc
      refine ⟨y, ?_, f2, f4, f5⟩
      rw [f1]
      congr 2
      unfold after
      simp only [hc, Bool.false_eq_true, if_false]
      cases st with
      | mk cnt stat =>
      congr 1
      funext l
      by_cases hl : l ∈ t.reprs.map Rep.name
      · rw [if_pos hl]
        funext n
        rcases (labelled (t.reprs.map Rep.name) l)[n]? with _ | k
        · rfl
        · show update track false 0 _ _ _ = _
          unfold update
          rw [if_neg (by simp)]
      · rw [if_neg hl]
    · have hr := List.mem_of_getElem? hk
      simp only [outField, repOf_eq hk, used, hc, htr, Bool.not_true, Bool.false_eq_true, if_false, normalize, a2 k r hk o ho, b2 k r hk o ho, c2 k r hk o ho, d2 k r hk o ho, NormTab.shift, h2, h4]
      have hv : fieldOf t x k b o q = x.get b (chanOffset Rep.size t.reprs k + o) q := rfl
      rw [hv]
      rcases Bool.eq_false_or_eq_true (NormTab.of T.size triv r).has with hh | hh <;> rcases Bool.eq_false_or_eq_true affine with ha | ha <;>
        simp only [hh, ha, if_true, if_false, Bool.false_eq_true, and_self, and_true, and_false, true_and, false_and, sub_zero] <;> ring

/-- Fields of the irreps 0 and 1 of `C_4`. -/
example (c : BNPar) (hc : c.training = false) (st : IIDState) : ∃ m bn, init (Cyclic.table 4).size 0 convDemo.reprs convDemo (1 / 100000) (some (1 / 10)) true true = .ok m ∧ m.export' Rep.size 2 c st = .ok bn ∧
    SameFunction (HoldsTensor (B := Fin 4) (P := Fin 5 × Fin 5) (C := Unit) convDemo) (fun r z => r.1 = st ∧ HoldsTensor convDemo r.2 z) (forward m _ _ c (fun _ _ _ => 0) st) (bn.forward 2) := by
  obtain ⟨tab, htab, -⟩ := runTable_spec (sz := Rep.size) convDemo (fun r hr => (convDemo_wf r hr).pos) (convDemo.reprs.map Rep.name) (by simp)
  have hm : ∃ m, init (Cyclic.table 4).size 0 convDemo.reprs convDemo (1 / 100000) (some (1 / 10)) true true = .ok m := ⟨_, by simp only [init, htab, bind, Except.bind]; rfl⟩
  obtain ⟨m, hm⟩ := hm
  obtain ⟨bn, h1, h2⟩ := (C46_iid (B := Fin 4) (P := Fin 5 × Fin 5) (C := Unit) convDemo_wf convDemo_names.1 convDemo_names.2 (fun _ => Iff.rfl) hm (.inr (.inl rfl)) c hc (fun _ _ _ => 0) st).1 rfl
  exact ⟨m, bn, hm, h1, h2 2 (by decide)⟩

end IIDBatchNorm

namespace InnerBatchNorm

theorem export_spec {dim : ℕ} {t : FType S (Rep G Id)} (hpos : ∀ r ∈ t.reprs, 0 < r.size) {eps : ℝ} {mo : Option ℝ} {affine track : Bool} {m : InnerBatchNorm S (Rep G Id)}
    (hm : init dim t eps mo affine track = .ok m) (c : InnerPar) (st : ℕ → TorchBNState) {bn : TorchBN} (hbn : m.export' Rep.size dim c st = .ok bn) :
    track = true ∧ bn.features = t.size Rep.size ∧ bn.eps = eps ∧ bn.dims = torchBNDims (if dim = 0 then 1 else dim) ∧ bn.affine = affine ∧ (∀ s ∈ t.reprs.map Rep.size, (st s).count = bn.count) ∧ dim ≤ 3 ∧
      ∀ (k : ℕ) r, t.reprs[k]? = some r → ∀ o < r.size, bn.mean (chanOffset Rep.size t.reprs k + o) = (st r.size).mean ((labelled (t.reprs.map Rep.size) r.size).idxOf k) ∧
        bn.var (chanOffset Rep.size t.reprs k + o) = (st r.size).var ((labelled (t.reprs.map Rep.size) r.size).idxOf k) ∧
        bn.weight (chanOffset Rep.size t.reprs k + o) = c.weight r.size ((labelled (t.reprs.map Rep.size) r.size).idxOf k) ∧
        bn.bias (chanOffset Rep.size t.reprs k + o) = c.bias r.size ((labelled (t.reprs.map Rep.size) r.size).idxOf k) := by
  obtain ⟨-, h1, h2, h3, h4, h5, h6, h7, h8⟩ := init_ok hm
  obtain ⟨d, hd, hTab⟩ := fieldTable_spec (sz := Rep.size) t hpos (t.reprs.map Rep.size) (by simp [FType.len])
  rw [h7] at hd
  obtain rfl := Except.ok.inj hd
  unfold export' at hbn
  by_cases htr : track = true
  swap
  · rw [if_pos (by rw [h5]; exact htr)] at hbn
    cases hbn
  rw [if_neg (by rw [h5]; exact not_not.2 htr)] at hbn
  by_cases h3' : 3 < dim
  · rw [if_pos h3'] at hbn
    cases hbn
  rw [if_neg h3'] at hbn
  rw [h1, h6] at hbn
  obtain ⟨var, a1, hbn⟩ := bind_ok hbn
  obtain ⟨mean, b1, hbn⟩ := bind_ok hbn
  have hcont : ∀ s ∈ t.reprs.map Rep.size, ∃ i, tabGet m.table s = .ok i ∧ i.1 = true := by
    intro s hs
    obtain ⟨e, he⟩ := writeLoop_steps a1 s (mem_keysInOrder.2 hs)
    obtain ⟨i, hi, he⟩ := bind_ok he
    refine ⟨i, hi, ?_⟩
    by_contra hne
    rw [if_neg hne] at he
    cases he
  have hw : ∀ (v : ℕ → ℕ → ℝ) (u : ℕ → ℝ) (res : FTensor Unit Unit), writeLoop (fun s => do
      let i ← tabGet m.table s
      if i.1 then .ok (fieldVec ((t.reprs.map Rep.size).count s) s fun j _ => v s j) else .error .notImplemented) m.table (chanVec (t.size Rep.size) u) (keysInOrder (t.reprs.map Rep.size)) = .ok res →
      ∀ (k : ℕ) r, t.reprs[k]? = some r → ∀ o < r.size, vecOf res (chanOffset Rep.size t.reprs k + o) = v r.size ((labelled (t.reprs.map Rep.size) r.size).idxOf k) := by
    intro v u res hres
    obtain ⟨res', g1, g2⟩ := sizeWrite (t := t) hTab (F := fun s => do
      let i ← tabGet m.table s
      if i.1 then .ok (fieldVec ((t.reprs.map Rep.size).count s) s fun j _ => v s j) else .error .notImplemented) v (fun s hs => by
        obtain ⟨i, hi, hi'⟩ := hcont s hs
        simp only [hi, hi', bind, Except.bind, if_true]) u
    obtain rfl := Except.ok.inj (hres.symm.trans g1)
    exact g2
  by_cases hcnt : ∀ s ∈ keysInOrder (t.reprs.map Rep.size), ∀ s' ∈ keysInOrder (t.reprs.map Rep.size), (st s).count = (st s').count
  swap
  · rw [if_neg hcnt] at hbn
    cases hbn
  rw [if_pos hcnt] at hbn
  obtain ⟨weight, c1, hbn⟩ := bind_ok hbn
  obtain ⟨bias, d1, hbn⟩ := bind_ok hbn
  obtain rfl := Except.ok.inj hbn
  refine ⟨htr, rfl, h2, rfl, h4, fun s hs => ?_, by omega, fun k r hk o ho => ⟨hw _ _ _ b1 k r hk o ho, hw _ _ _ a1 k r hk o ho, hw _ _ _ c1 k r hk o ho, hw _ _ _ d1 k r hk o ho⟩⟩
  have hs' := mem_keysInOrder.2 hs
  refine hcnt s hs' _ ?_
  rcases ho : keysInOrder (t.reprs.map Rep.size) with _ | ⟨a, L⟩
  · rw [ho] at hs'; simp at hs'
  · simp

/-- **C46** InnerBatchNorm: whenever `export` returns, the exported batch normalization computes the same function as the module in evaluation mode, on inputs with the number of spatial axes of the gspace, which is not 0. -/
theorem C46_inner_partial {dim : ℕ} (hdim : 1 ≤ dim) {t : FType S (Rep G Id)} (hpos : ∀ r ∈ t.reprs, 0 < r.size) {eps : ℝ} {mo : Option ℝ} {affine track : Bool} {m : InnerBatchNorm S (Rep G Id)}
    (hm : init dim t eps mo affine track = .ok m) (c : InnerPar) (hc : c.training = false) (junk : B → ℕ → P → ℝ) (st : ℕ → TorchBNState) {bn : TorchBN} (hbn : m.export' Rep.size dim c st = .ok bn) :
    SameFunction (HoldsTensor (C := C) t) (fun r z => r.1 = st ∧ HoldsTensor t r.2 z) (forward m dim B P c junk st) (bn.forward dim) := by
  obtain ⟨-, h1, h2, h3, h4, h5, h6, h7, h8⟩ := init_ok hm
  obtain ⟨e1, e2, e3, e4, e5, e6, e7, e8⟩ := export_spec hpos hm c st hbn
  refine TorchBN.same_fields (out := outField t eps affine track c st) (by rw [e4, if_neg (by omega)]; unfold torchBNDims; split_ifs with h <;> simp [h]; omega) e2 (fun x hx hxc => ?_) fun x k r hk o ho b q => ?_
  · have hnd : 3 + dim = m.bnDims := by
      unfold dims at h8
      split_ifs at h8 with g1 g2 g3 <;> have := Except.ok.inj h8 <;> omega
    obtain ⟨y, f1, f2, -, f4, f5⟩ := forward_spec hpos hm hnd c (by simp [hc, e1]) junk st x hx hxc
    refine ⟨y, ?_, f2, f4, f5⟩
    rw [f1]
    congr 2
    unfold after
    funext s
    split_ifs
    · unfold afterS
      rw [if_neg (by simp [hc])]
    · rfl
  · obtain ⟨g1, g2, g3, g4⟩ := e8 k r hk o ho
    have hv : fieldOf t x k b o q = x.get b (chanOffset Rep.size t.reprs k + o) q := rfl
    simp only [outField, repOf_eq hk, hc, e1, g1, g2, g3, g4, e3, e5, hv, Bool.false_eq_true, not_true_eq_false, or_self, if_false]

/-- **C46** For gspaces of dimensionality 0 the exported module accepts inputs with two axes; the module itself raises. -/
theorem C46_inner_dim0_violated {t : FType S (Rep G Id)} (hpos : ∀ r ∈ t.reprs, 0 < r.size) (hne : t.reprs ≠ []) {eps : ℝ} {mo : Option ℝ} {affine track : Bool} {m : InnerBatchNorm S (Rep G Id)}
    (hm : init 0 t eps mo affine track = .ok m) (c : InnerPar) (junk : B → ℕ → P → ℝ) (st : ℕ → TorchBNState) {bn : TorchBN} (hbn : m.export' Rep.size 0 c st = .ok bn)
    (x : GTensor B P S (Rep G Id) C) (hx : HoldsTensor t x x.tensor) : forward m 0 B P c junk st x = .error .value ∧ ∃ w, bn.forward 0 x.tensor = .ok w := by
  obtain ⟨e1, e2, e3, e4, -⟩ := export_spec hpos hm c st hbn
  refine ⟨C56_inner_dim0_violated hpos hne hm c junk st x hx.1 hx.2.1,
    ⟨x.tensor.chans, fun b c p => (x.tensor.get b c p - bn.mean c) / Real.sqrt (bn.var c + bn.eps) * (if bn.affine then bn.weight c else 1) + if bn.affine then bn.bias c else 0⟩, ?_⟩
  unfold TorchBN.forward
  rw [if_neg (by rw [e4]; decide), if_neg (not_not.2 (hx.2.1.trans e2.symm))]

/-- Vectors of a field of the regular representation of `C_2`, and the same on a plane. -/
example (dim : ℕ) (hdim : dim ≤ 3) (c : InnerPar) (st : ℕ → TorchBNState) : ∃ m bn, init dim (⟨(), [swapRep]⟩ : FType Unit (Rep Bool Unit)) (1 / 100000) (some (1 / 10)) true true = .ok m ∧ m.export' Rep.size dim c st = .ok bn := by
  have htab : fieldTable Rep.size (⟨(), [swapRep]⟩ : FType Unit (Rep Bool Unit)) [swapRep.size] = .ok [(2, true, [0, 2])] := by rfl
  obtain ⟨e, he⟩ : ∃ e, dims dim = .ok e := by
    unfold dims
    split_ifs
    all_goals first | exact ⟨_, rfl⟩ | omega
  refine ⟨⟨⟨(), [swapRep]⟩, 1 / 100000, some (1 / 10), true, true, [2], [(2, true, [0, 2])], e⟩, ?_⟩
  have hinit : init dim (⟨(), [swapRep]⟩ : FType Unit (Rep Bool Unit)) (1 / 100000) (some (1 / 10)) true true = .ok ⟨⟨(), [swapRep]⟩, 1 / 100000, some (1 / 10), true, true, [2], [(2, true, [0, 2])], e⟩ := by
    unfold init
    rw [if_pos fun r h => by obtain rfl := List.mem_singleton.1 h; simp [swapRep]]
    simp only [List.map_cons, List.map_nil, htab, he, bind, Except.bind]
    rfl
  have hw : ∀ (v : ℕ → ℕ → ℝ) (u : ℕ → ℝ), ∃ res, writeLoop (fun s => do
      let i ← tabGet [(2, true, [0, 2])] s
      if i.1 then .ok (fieldVec ([2].count s) s fun j _ => v s j) else .error .notImplemented) [(2, true, [0, 2])] (chanVec ((⟨(), [swapRep]⟩ : FType Unit (Rep Bool Unit)).size Rep.size) u) (keysInOrder [2]) = .ok res := fun v u => ⟨_, rfl⟩
  obtain ⟨r1, h1⟩ := hw (fun s => (st s).var) fun _ => 1
  obtain ⟨r2, h2⟩ := hw (fun s => (st s).mean) fun _ => 0
  obtain ⟨r3, h3⟩ := hw (c.weight ·) fun _ => 1
  obtain ⟨r4, h4⟩ := hw (c.bias ·) fun _ => 0
  obtain ⟨bn, hbn⟩ : ∃ bn, export' Rep.size (⟨⟨(), [swapRep]⟩, 1 / 100000, some (1 / 10), true, true, [2], [(2, true, [0, 2])], e⟩ : InnerBatchNorm Unit (Rep Bool Unit)) dim c st = .ok bn := by
    unfold export'
    rw [if_neg (by simp), if_neg (by omega)]
    simp only [bind, Except.bind] at h1 h2 h3 h4
    simp only [h1, h2, h3, h4, bind, Except.bind]
    rw [if_pos fun s hs s' hs' => by rw [mem_keysInOrder, List.mem_singleton] at hs hs'; rw [hs, hs']]
    exact ⟨_, rfl⟩
  exact ⟨bn, hinit, hbn⟩

end InnerBatchNorm

namespace GNormBatchNorm

theorem export_spec (ht : T.IsTrivial El triv) {t : FType S (Rep G Id)} (hwf : ∀ r ∈ t.reprs, r.WF T El) (hn : NamesApart t.reprs) {uniq : List (Rep G Id)} (hnd : uniq.Nodup)
    (hu : ∀ r, r ∈ uniq ↔ r ∈ t.reprs) {eps : ℝ} {mo : Option ℝ} {affine track : Bool} {m : GNormBatchNorm S (Rep G Id)} (hm : init T.size triv uniq t eps mo affine track = .ok m) (c : GNormPar) (st : GNormState)
    {bn : TorchBN} (hbn : m.export' Rep.size c st = .ok bn) :
    track = true ∧ bn.features = t.size Rep.size ∧ bn.eps = eps ∧ bn.dims = [5] ∧ bn.affine = affine ∧ bn.count = st.count ∧
      ∀ (k : ℕ) r, t.reprs[k]? = some r → ∀ o < r.size,
        bn.mean (chanOffset Rep.size t.reprs k + o) = (GNormTab.of T.size triv r).shift (fun _ => 0) (st.stat r.name ((labelled (t.reprs.map Rep.name) r.name).idxOf k)).mean o ∧
        (r.cob ≈ NpMat.eye r.size → bn.var (chanOffset Rep.size t.reprs k + o) = (GNormTab.of T.size triv r).scale (fun _ => 1) (st.stat r.name ((labelled (t.reprs.map Rep.name) r.name).idxOf k)).var o) ∧
        bn.weight (chanOffset Rep.size t.reprs k + o) = (GNormTab.of T.size triv r).scale (fun _ => 1) (c.weight r.name ((labelled (t.reprs.map Rep.name) r.name).idxOf k)) o ∧
        bn.bias (chanOffset Rep.size t.reprs k + o) = (GNormTab.of T.size triv r).shift (fun _ => 0) (c.bias r.name ((labelled (t.reprs.map Rep.name) r.name).idxOf k)) o := by
  obtain ⟨h1, h2, h3, h4, h5, h6, h7, h8, h9⟩ := init_ok hm
  have htab : ∀ r ∈ t.reprs, tabGet m.tabs r.name = .ok (GNormTab.of T.size triv r) := fun r hr => tabGet_ok.2 (h9 ▸ nameTab_get hn hu (GNormTab.of T.size triv) hr)
  unfold export' at hbn
  by_cases htr : track = true
  swap
  · rw [if_pos (by rw [h5]; exact htr)] at hbn
    cases hbn
  rw [if_neg (by rw [h5]; exact not_not.2 htr)] at hbn
  rw [h1, h6] at hbn
  obtain ⟨mean, a1, hbn⟩ := bind_ok hbn
  obtain ⟨var, b1, hbn⟩ := bind_ok hbn
  obtain ⟨weight, c1, hbn⟩ := bind_ok hbn
  obtain ⟨bias, d1, hbn⟩ := bind_ok hbn
  have hcont : ∀ r ∈ t.reprs, ∃ i, tabGet m.table r.name = .ok i ∧ i.1 = true := by
    intro r hr
    obtain ⟨e, he⟩ := writeLoop_steps a1 r.name (by rw [h8]; exact List.mem_map_of_mem ((hu r).2 hr))
    obtain ⟨T', -, he⟩ := bind_ok he
    obtain ⟨i, hi, he⟩ := bind_ok he
    refine ⟨i, hi, ?_⟩
    by_contra hne
    rw [if_neg hne] at he
    cases he
  have hw : ∀ (v : GNormTab → String → ℕ → ℕ → ℝ) (u : ℕ → ℝ) (res : FTensor Unit Unit), writeLoop (fun name => do
      let T ← tabGet m.tabs name
      let i ← tabGet m.table name
      if i.1 then .ok (fieldVec ((t.reprs.map Rep.name).count name) T.size (v T name)) else .error .notImplemented) m.table (chanVec (t.size Rep.size) u) m.order = .ok res →
      ∀ (k : ℕ) r, t.reprs[k]? = some r → ∀ o < r.size, vecOf res (chanOffset Rep.size t.reprs k + o) = v (GNormTab.of T.size triv r) r.name ((labelled (t.reprs.map Rep.name) r.name).idxOf k) o := by
    intro v u res hres
    rw [h8] at hres
    obtain ⟨res', g1, g2⟩ := nameWrite (fun r hr => (hwf r hr).pos) hn hnd hu h7 (F := fun name => do
      let T ← tabGet m.tabs name
      let i ← tabGet m.table name
      if i.1 then .ok (fieldVec ((t.reprs.map Rep.name).count name) T.size (v T name)) else .error .notImplemented) (fun r => v (GNormTab.of T.size triv r) r.name) (fun r hr => by
        obtain ⟨i, hi, hi'⟩ := hcont r hr
        simp only [htab r hr, hi, hi', bind, Except.bind, if_true]
        rfl) u
    obtain rfl := Except.ok.inj (hres.symm.trans g1)
    exact g2
  obtain rfl := Except.ok.inj hbn
  refine ⟨htr, rfl, h2, rfl, h4, rfl, fun k r hk o ho => ⟨hw _ _ _ a1 k r hk o ho, fun hcob => ?_, hw _ _ _ c1 k r hk o ho, hw _ _ _ d1 k r hk o ho⟩⟩
  refine (hw _ _ _ b1 k r hk o ho).trans ?_
  have : (GNormTab.of T.size triv r).cobs = none := if_pos hcob
  unfold GNormTab.changeVec
  rw [this]

/-- **C46** GNormBatchNorm: the exported module is always a `BatchNorm3d`.  For types without changes of basis, nonnegative running variances (the module replaces negative ones by 0) and volumes, it computes the same function
as the module in evaluation mode.  (For other inputs see `C46_gnorm_dims_violated`.) -/
theorem C46_gnorm_partial (ht : T.IsTrivial El triv) {t : FType S (Rep G Id)} (hwf : ∀ r ∈ t.reprs, r.WF T El) (hn : NamesApart t.reprs) {uniq : List (Rep G Id)} (hnd : uniq.Nodup)
    (hu : ∀ r, r ∈ uniq ↔ r ∈ t.reprs) {eps : ℝ} {mo : Option ℝ} {affine track : Bool} {m : GNormBatchNorm S (Rep G Id)} (hm : init T.size triv uniq t eps mo affine track = .ok m)
    (hcob : ∀ r ∈ t.reprs, r.cob ≈ NpMat.eye r.size) (c : GNormPar) (hc : c.training = false) (junk : B → ℕ → P → ℝ) (st : GNormState) (hst : ∀ l n i, 0 ≤ (st.stat l n).var i)
    {bn : TorchBN} (hbn : m.export' Rep.size c st = .ok bn) : SameFunction (HoldsTensor (C := C) t) (fun r z => r.1 = st ∧ HoldsTensor t r.2 z) (forward m 3 B P c junk st) (bn.forward 3) := by
  obtain ⟨e1, e2, e3, e4, e5, e6, e7⟩ := export_spec ht hwf hn hnd hu hm c st hbn
  refine TorchBN.same_fields (out := outField T triv t eps affine track c st) (by rw [e4]; decide) e2 (fun x hx hxc => ?_) fun x k r hk o ho b q => ?_
  · obtain ⟨y, f1, f2, -, f4, f5⟩ := forward_spec ht hwf hn hnd hu hm (nd := 3) (.inr hcob) c junk st x hx hxc
    refine ⟨y, ?_, f2, f4, f5⟩
    rw [f1]
    congr 2
    unfold after
    simp only [hc, Bool.false_eq_true, if_false]
    cases st with
    | mk cnt stat =>
    congr 1
    funext l
    by_cases hl : l ∈ t.reprs.map Rep.name
    · rw [if_pos hl]
      funext n
      rcases (labelled (t.reprs.map Rep.name) l)[n]? with _ | k
      · rfl
      · show GNormTab.update _ track false 0 _ _ = _
        unfold GNormTab.update
        rw [e1, if_neg (by simp), if_neg (by simp)]
        have : (fun i => max 0 ((stat l n).var i)) = (stat l n).var := funext fun i => max_eq_right (hst l n i)
        rw [this]
    · rw [if_neg hl]
  · have hr := List.mem_of_getElem? hk
    have hsz := (hwf r hr).size
    obtain ⟨g1, g2, g3, g4⟩ := e7 k r hk o ho
    have g2 := g2 (hcob r hr)
    obtain ⟨n, hn'⟩ : ∃ n, n = (labelled (t.reprs.map Rep.name) r.name).idxOf k := ⟨_, rfl⟩
    rw [← hn'] at g1 g2 g3 g4
    have hv : coords t x k b o q = x.get b (chanOffset Rep.size t.reprs k + o) q := by
      unfold coords
      rw [repOf_eq hk, (GNormTab.change_eye (hwf r hr) (hcob r hr) ho _).2]
      rfl
    have hmax : (fun i => max 0 ((st.stat r.name n).var i)) = (st.stat r.name n).var := funext fun i => max_eq_right (hst _ _ i)
    simp only [outField, repOf_eq hk, ← hn', GNormTab.used, hc, e1, Bool.not_true, Bool.false_eq_true, if_false, hmax]
    rw [(GNormTab.change_eye (hwf r hr) (hcob r hr) ho _).1]
    have ho' : o < (r.irreps.map T.size).sum := by rw [hsz]; exact ho
    obtain ⟨i, j, a, hi, ha, rfl⟩ := exists_field ho'
    rw [GNormTab.normalize_get ht (hwf r hr) _ _ _ _ _ _ hi ha, hv, g1, g2, g3, g4, e3, e5]
    have hmt := GNormTab.mem_trivials (triv := triv) ht (hwf r hr) hi ha
    simp only [GNormTab.scale, GNormTab.shift, GNormTab.sum_prop hi ha, one_mul, zero_add, hmt]
    by_cases hj : j = triv
    · simp only [hj, if_true]
      cases affine <;> simp <;> ring
    · simp only [hj, if_false]
      cases affine <;> simp <;> ring

/-- **C46** On images the exported module raises; the module computes an output, for each type. -/
theorem C46_gnorm_dims_violated (ht : T.IsTrivial El triv) {t : FType S (Rep G Id)} (hwf : ∀ r ∈ t.reprs, r.WF T El) (hn : NamesApart t.reprs) {uniq : List (Rep G Id)} (hnd : uniq.Nodup)
    (hu : ∀ r, r ∈ uniq ↔ r ∈ t.reprs) {eps : ℝ} {mo : Option ℝ} {affine track : Bool} {m : GNormBatchNorm S (Rep G Id)} (hm : init T.size triv uniq t eps mo affine track = .ok m) (c : GNormPar)
    (junk : B → ℕ → P → ℝ) (st : GNormState) {bn : TorchBN} (hbn : m.export' Rep.size c st = .ok bn) (x : GTensor B P S (Rep G Id) C) (hx : HoldsTensor t x x.tensor) :
    (∃ r, forward m 2 B P c junk st x = .ok r) ∧ bn.forward 2 x.tensor = .error .value := by
  obtain ⟨-, -, -, e4, -⟩ := export_spec ht hwf hn hnd hu hm c st hbn
  obtain ⟨y, f1, -⟩ := forward_spec ht hwf hn hnd hu hm (nd := 2) (.inl rfl) c junk st x hx.1 hx.2.1
  refine ⟨⟨_, f1⟩, ?_⟩
  unfold TorchBN.forward
  rw [if_pos (by rw [e4]; decide)]

/-- A field of the irrep 1 of `C_4`. -/
example (c : GNormPar) (st : GNormState) : ∃ m bn, init (Cyclic.table 4).size 0 [irrepRep (Cyclic.table 4) "irrep_1" ∅ 1] (⟨(), [irrepRep (Cyclic.table 4) "irrep_1" ∅ 1]⟩ : FType Unit (Rep ℤ ℕ)) (1 / 100000) none true true = .ok m ∧
    m.export' Rep.size c st = .ok bn := by
  have htab : runTable Rep.size (⟨(), [irrepRep (Cyclic.table 4) "irrep_1" ∅ 1]⟩ : FType Unit (Rep ℤ ℕ)) ["irrep_1"] = .ok [("irrep_1", true, [0, 2])] := by rfl
  obtain ⟨T', hT'⟩ : ∃ T', T' = GNormTab.of (Cyclic.table 4).size 0 (irrepRep (Cyclic.table 4) "irrep_1" ∅ 1) := ⟨_, rfl⟩
  have hsize : T'.size = 2 := by rw [hT']; rfl
  have hw : ∀ (v : GNormTab → String → ℕ → ℕ → ℝ) (u : ℕ → ℝ), ∃ res, writeLoop (fun name => do
      let T ← tabGet [("irrep_1", T')] name
      let i ← tabGet [("irrep_1", true, [0, 2])] name
      if i.1 then .ok (fieldVec (["irrep_1"].count name) T.size (v T name)) else .error .notImplemented) [("irrep_1", true, [0, 2])]
        (chanVec ((⟨(), [irrepRep (Cyclic.table 4) "irrep_1" ∅ 1]⟩ : FType Unit (Rep ℤ ℕ)).size Rep.size) u) ["irrep_1"] = .ok res := by
    intro v u
    obtain ⟨s, nirr, tr, agg, prop, cobs⟩ := T'
    obtain rfl : s = 2 := hsize
    exact ⟨_, rfl⟩
  obtain ⟨m, h1, hm⟩ : ∃ m : GNormBatchNorm Unit (Rep ℤ ℕ), m = ⟨⟨(), [irrepRep (Cyclic.table 4) "irrep_1" ∅ 1]⟩, 1 / 100000, none, true, true, ["irrep_1"], [("irrep_1", true, [0, 2])], ["irrep_1"], [("irrep_1", T')]⟩ ∧
      init (Cyclic.table 4).size 0 [irrepRep (Cyclic.table 4) "irrep_1" ∅ 1] (⟨(), [irrepRep (Cyclic.table 4) "irrep_1" ∅ 1]⟩ : FType Unit (Rep ℤ ℕ)) (1 / 100000) none true true = .ok m := by
    refine ⟨_, rfl, ?_⟩
    unfold init
    rw [show (⟨(), [irrepRep (Cyclic.table 4) "irrep_1" ∅ 1]⟩ : FType Unit (Rep ℤ ℕ)).reprs.map Rep.name = ["irrep_1"] from rfl]
    simp only [htab, hT', bind, Except.bind]
    rfl
  refine ⟨m, ?_⟩
  have : ∃ bn, m.export' Rep.size c st = .ok bn := by
    subst h1
    unfold export'
    rw [if_neg (by simp)]
    obtain ⟨r1, h1⟩ := hw (fun T name i => T.shift (fun _ => 0) (st.stat name i).mean) fun _ => 0
    obtain ⟨r2, h2⟩ := hw (fun T name i => T.changeVec (T.scale (fun _ => 1) (st.stat name i).var)) fun _ => 1
    obtain ⟨r3, h3⟩ := hw (fun T name i => T.scale (fun _ => 1) (c.weight name i)) fun _ => 1
    obtain ⟨r4, h4⟩ := hw (fun T name i => T.shift (fun _ => 0) (c.bias name i)) fun _ => 0
    refine ⟨⟨(⟨(), [irrepRep (Cyclic.table 4) "irrep_1" ∅ 1]⟩ : FType Unit (Rep ℤ ℕ)).size Rep.size, 1 / 100000, true, torchBNDims 3, st.count, vecOf r1, vecOf r2, vecOf r3, vecOf r4⟩, ?_⟩
    refine bind_eq h1 ?_
    refine bind_eq h2 ?_
    refine bind_eq h3 ?_
    refine bind_eq h4 ?_
    rfl
  exact ⟨this.choose, hm, this.choose_spec⟩

end GNormBatchNorm

end Escnn
