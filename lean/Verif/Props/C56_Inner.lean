import Verif.Model.InnerBatchNorm
import Verif.Lemmas.StatLoop
import Verif.Lemmas.BatchStat
import Verif.Props.C57_FieldNorm

/-!
# C56: the running statistics and the outputs of InnerBatchNorm
-/

namespace Escnn

open Finset

variable {S G Id C : Type} {El : G → Prop}

/-- Sums over the entries of a vector do not change if the entries are permuted. -/
theorem IsPermMat.sum {n : ℕ} {M : NpMat ℝ} (h : IsPermMat n M) (F : ℝ → ℝ) (u : ℕ → ℝ) : ∑ o ∈ range n, F (∑ j ∈ range n, M.get o j * u j) = ∑ o ∈ range n, F (u o) := by
  obtain ⟨π, hπ⟩ := h.perm
  rw [← Fin.sum_univ_eq_sum_range (fun o => F (∑ j ∈ range n, M.get o j * u j)) n, ← Fin.sum_univ_eq_sum_range (fun o => F (u o)) n,
    ← Equiv.sum_comp π fun i : Fin n => F (u i)]
  exact sum_congr rfl fun i _ => by rw [hπ u i]

/-- A permutation matrix fixes the constant vectors. -/
theorem IsPermMat.const {n : ℕ} {M : NpMat ℝ} (h : IsPermMat n M) (a : ℝ) {o : ℕ} (ho : o < n) : ∑ j ∈ range n, M.get o j * a = a := by
  obtain ⟨π, hπ⟩ := h.perm
  exact hπ (fun _ => a) ⟨o, ho⟩

namespace InnerBatchNorm

section

variable {B P P' : Type} [Fintype B] [Fintype P] [Fintype P']

theorem init_ok {dim : ℕ} {t : FType S (Rep G Id)} {eps : ℝ} {mo : Option ℝ} {affine track : Bool} {m : InnerBatchNorm S (Rep G Id)} (h : init dim t eps mo affine track = .ok m) :
    (∀ r ∈ t.reprs, "pointwise" ∈ r.nonlin) ∧ m.inType = t ∧ m.eps = eps ∧ m.momentum = mo ∧ m.affine = affine ∧ m.track = track ∧ m.sizes = t.reprs.map Rep.size ∧
      fieldTable Rep.size t (t.reprs.map Rep.size) = .ok m.table ∧ dims dim = .ok m.bnDims := by
  unfold init at h
  split_ifs at h with hs
  cases ht : fieldTable Rep.size t (t.reprs.map Rep.size) with
  | error e => simp [ht, bind, Except.bind] at h
  | ok tab =>
    cases hd : dims dim with
    | error e => simp [ht, hd, bind, Except.bind] at h
    | ok d =>
      simp only [ht, hd, bind, Except.bind, Except.ok.injEq] at h
      subst h
      exact ⟨hs, rfl, rfl, rfl, rfl, rfl, rfl, rfl, rfl⟩

theorem mean_congr {s : ℕ} {v w : B → ℕ → P → ℝ} (h : ∀ o < s, ∀ b p, v b o p = w b o p) : mean s v = mean s w := by
  unfold mean
  congr 1
  exact sum_congr rfl fun b _ => sum_congr rfl fun o ho => sum_congr rfl fun p _ => h o (mem_range.1 ho) b p

theorem dev_congr {s : ℕ} {v w : B → ℕ → P → ℝ} (h : ∀ o < s, ∀ b p, v b o p = w b o p) : dev s v = dev s w := by
  unfold dev
  exact sum_congr rfl fun b _ => sum_congr rfl fun o ho => sum_congr rfl fun p _ => by rw [h o (mem_range.1 ho) b p, mean_congr h]

/-- Sums over a batch transformed with a permutation matrix. -/
theorem sum_act {n : ℕ} {M : NpMat ℝ} (hM : IsPermMat n M) (σ : P' ≃ P) {v : B → ℕ → P → ℝ} {w : B → ℕ → P' → ℝ} (hw : ∀ b p, ∀ o < n, w b o p = ∑ j ∈ range n, M.get o j * v b j (σ p)) (F : ℝ → ℝ) :
    ∑ b, ∑ o ∈ range n, ∑ p, F (w b o p) = ∑ b, ∑ o ∈ range n, ∑ p, F (v b o p) := by
  refine sum_congr rfl fun b _ => ?_
  rw [sum_comm, sum_comm (s := range n), ← Equiv.sum_comp σ]
  refine sum_congr rfl fun p _ => ?_
  rw [← hM.sum F fun j => v b j (σ p)]
  exact sum_congr rfl fun o ho => by rw [hw b p o (mem_range.1 ho)]

theorem mean_act {n : ℕ} {M : NpMat ℝ} (hM : IsPermMat n M) (σ : P' ≃ P) {v : B → ℕ → P → ℝ} {w : B → ℕ → P' → ℝ} (hw : ∀ b p, ∀ o < n, w b o p = ∑ j ∈ range n, M.get o j * v b j (σ p)) :
    mean n w = mean n v := by
  unfold mean number
  rw [Fintype.card_congr σ]
  congr 1
  exact sum_act hM σ hw id

theorem dev_act {n : ℕ} {M : NpMat ℝ} (hM : IsPermMat n M) (σ : P' ≃ P) {v : B → ℕ → P → ℝ} {w : B → ℕ → P' → ℝ} (hw : ∀ b p, ∀ o < n, w b o p = ∑ j ∈ range n, M.get o j * v b j (σ p)) :
    dev n w = dev n v := by
  unfold dev
  rw [mean_act hM σ hw]
  exact sum_act hM σ hw fun a => (a - mean n v) ^ 2

/-- The buffers for the fields of size `s` after a call. -/
noncomputable def afterS (t : FType S (Rep G Id)) (mo : Option ℝ) (track : Bool) (c : InnerPar) (a : TorchBNState) (x : FTensor B P) (s : ℕ) : TorchBNState :=
  if c.training ∧ track then
    ⟨a.count + 1, fun n => match (labelled (t.reprs.map Rep.size) s)[n]? with
      | some k => (1 - avgFactor mo (a.count + 1)) * a.mean n + avgFactor mo (a.count + 1) * mean s (fieldOf t x k)
      | none => a.mean n,
    fun n => match (labelled (t.reprs.map Rep.size) s)[n]? with
      | some k => (1 - avgFactor mo (a.count + 1)) * a.var n + avgFactor mo (a.count + 1) * (dev s (fieldOf t x k) / (number B P s - 1))
      | none => a.var n⟩
  else a

/-- The buffers after a call. -/
noncomputable def after (t : FType S (Rep G Id)) (mo : Option ℝ) (track : Bool) (c : InnerPar) (st : ℕ → TorchBNState) (x : FTensor B P) : ℕ → TorchBNState := fun s =>
  if s ∈ t.reprs.map Rep.size then afterS t mo track c (st s) x s else st s

/-- The output of a call for one field. -/
noncomputable def outField (t : FType S (Rep G Id)) (eps : ℝ) (affine track : Bool) (c : InnerPar) (st : ℕ → TorchBNState) (x : FTensor B P) (k o : ℕ) (b : B) (p : P) : ℝ :=
  let s := (repOf t k).size
  let n := (labelled (t.reprs.map Rep.size) s).idxOf k
  (fieldOf t x k b o p - if c.training ∨ ¬ track then mean s (fieldOf t x k) else (st s).mean n) /
    Real.sqrt ((if c.training ∨ ¬ track then dev s (fieldOf t x k) / number B P s else (st s).var n) + eps) * (if affine then c.weight s n else 1) + if affine then c.bias s n else 0

theorem forward_spec {dim : ℕ} {t : FType S (Rep G Id)} (hpos : ∀ r ∈ t.reprs, 0 < r.size) {eps : ℝ} {mo : Option ℝ} {affine track : Bool} {m : InnerBatchNorm S (Rep G Id)}
    (hm : init dim t eps mo affine track = .ok m) {nd : ℕ} (hnd : 3 + nd = m.bnDims) (c : InnerPar) (hN : c.training = true ∨ ¬ track = true → 2 ≤ Fintype.card B * Fintype.card P) (junk : B → ℕ → P → ℝ) (st : ℕ → TorchBNState)
    (x : GTensor B P S (Rep G Id) C) (hx : x.type = t) (hc : x.tensor.chans = t.size Rep.size) :
    ∃ y, forward m nd B P c junk st x = .ok (after t mo track c st x.tensor, y) ∧ y.type = t ∧ y.coords = x.coords ∧ y.tensor.chans = t.size Rep.size ∧
      ∀ (k : ℕ) (r : Rep G Id), t.reprs[k]? = some r → ∀ o < r.size, ∀ b q, y.tensor.get b (chanOffset Rep.size t.reprs k + o) q = outField t eps affine track c st x.tensor k o b q := by
  obtain ⟨-, h1, h2, h3, h4, h5, h6, h7, h8⟩ := init_ok hm
  obtain ⟨d, hd, hTab⟩ := fieldTable_spec (sz := Rep.size) t hpos (t.reprs.map Rep.size) (by simp [FType.len])
  rw [h7] at hd
  obtain rfl := Except.ok.inj hd
  obtain ⟨res, f1, f2, f3⟩ := statLoop_tab (sz := Rep.size) (t := t) (labels := t.reprs.map Rep.size) (by simp) (s := id) (fun k l r hl hr => by
      rw [List.getElem?_map, hr] at hl
      simpa using hl) hTab (keysInOrder_nodup _) (fun s => mem_keysInOrder) (F := m.step nd c) (x := x.tensor) (out := ⟨x.tensor.chans, junk⟩) hc hc st (fun s => afterS t mo track c (st s) x.tensor s)
    (fun s n k b o q => (fieldOf t x.tensor k b o q - if c.training ∨ ¬ track then mean s (fieldOf t x.tensor k) else (st s).mean n) /
      Real.sqrt ((if c.training ∨ ¬ track then dev s (fieldOf t x.tensor k) / number B P s else (st s).var n) + eps) * (if affine then c.weight s n else 1) + if affine then c.bias s n else 0)
    (by
      intro s hs d f e1 e2 e3 e4
      have e1' : d.toFields (List.count s (t.reprs.map Rep.size)) s = .ok f := e1
      have e3 : f.size = s := e3
      have hs0 : 0 < s := by
        obtain ⟨r, hr, rfl⟩ := List.mem_map.1 hs
        exact hpos r hr
      have hnum : c.training = true ∨ ¬ track = true → number B P s ≠ 1 := by
        intro hN'
        unfold number
        have : 1 * 2 ≤ s * (Fintype.card B * Fintype.card P) := Nat.mul_le_mul hs0 (hN hN')
        have e : Fintype.card B * s * Fintype.card P = s * (Fintype.card B * Fintype.card P) := by ring
        omega
      have hmean : ∀ n k, (labelled (t.reprs.map Rep.size) s)[n]? = some k → mean s (fun b o p => f.get b n o p) = mean s (fieldOf t x.tensor k) := fun n k hk => mean_congr fun o ho b p => e4 n k hk b o p ho
      have hdev : ∀ n k, (labelled (t.reprs.map Rep.size) s)[n]? = some k → dev s (fun b o p => f.get b n o p) = dev s (fieldOf t x.tensor k) := fun n k hk => dev_congr fun o ho b p => e4 n k hk b o p ho
      have hlt : ∀ n, n < f.n ↔ ∃ k, (labelled (t.reprs.map Rep.size) s)[n]? = some k := by
        intro n
        rw [e2, ← labelled_length]
        exact ⟨fun h => ⟨_, List.getElem?_eq_getElem h⟩, fun ⟨k, h⟩ => (List.getElem?_eq_some_iff.1 h).1⟩
      have hb : m.batchnorm (3 + nd) c.training (c.weight s) (c.bias s) (st s) f = .ok (afterS t mo track c (st s) x.tensor s, ⟨f.n, f.size, fun b n o p =>
          (f.get b n o p - if c.training ∨ ¬ track then mean s (fun b o p => f.get b n o p) else (st s).mean n) /
            Real.sqrt ((if c.training ∨ ¬ track then dev s (fun b o p => f.get b n o p) / number B P s else (st s).var n) + eps) * (if affine then c.weight s n else 1) + if affine then c.bias s n else 0⟩) := by
        unfold batchnorm
        rw [if_neg (by rw [hnd]; simp), if_neg (by rw [e3, h5]; exact fun h => hnum h.1 h.2)]
        simp only [h2, h3, h4, h5, e3, Except.ok.injEq, Prod.mk.injEq, and_true]
        unfold afterS
        by_cases htr : c.training = true ∧ track = true
        · rw [if_pos htr, if_pos htr]
          congr 1
          · funext n
            rcases hk : (labelled (t.reprs.map Rep.size) s)[n]? with _ | k
            · rw [if_neg (by rw [hlt, hk]; simp)]
            · rw [if_pos ((hlt n).2 ⟨k, hk⟩), hmean n k hk]
          · funext n
            rcases hk : (labelled (t.reprs.map Rep.size) s)[n]? with _ | k
            · rw [if_neg (by rw [hlt, hk]; simp)]
            · rw [if_pos ((hlt n).2 ⟨k, hk⟩), hdev n k hk]
        · rw [if_neg htr, if_neg htr]
      refine ⟨⟨f.n, f.size, fun b n o p =>
          (f.get b n o p - if c.training ∨ ¬ track then mean s (fun b o p => f.get b n o p) else (st s).mean n) /
            Real.sqrt ((if c.training ∨ ¬ track then dev s (fun b o p => f.get b n o p) / number B P s else (st s).var n) + eps) * (if affine then c.weight s n else 1) + if affine then c.bias s n else 0⟩,
        ?_, rfl, e3, fun n k hnk b o q ho => ?_⟩
      · simp only [step, h6, e1', hb, bind, Except.bind]
      · simp only [e4 n k hnk b o q ho, hmean n k hnk, hdev n k hnk]
        rfl)
  refine ⟨⟨res, t, x.coords⟩, ?_, rfl, rfl, f2, fun k r hk o ho b q => ?_⟩
  · unfold forward
    rw [if_pos (hx.trans h1.symm)]
    have hmk : GTensor.mk' Rep.size res t x.coords = .ok ⟨res, t, x.coords⟩ := if_pos f2
    simp only [h6, f1, h1, hmk, bind, Except.bind]
    rfl
  · rw [f3 k r.size (by rw [List.getElem?_map, hk]; rfl) b o q ho]
    simp only [outField, repOf_eq hk]

end

/-- **C56** InnerBatchNorm.  (Missing: inputs without spatial axes, see `C56_inner_dim0_violated`, and types which are declared to support 'pointwise' without being permutation representations.)  For each accepted type
of permutation representations, all `eps > 0` and momenta (also the cumulative average), with or without parameters and running statistics: after each history of calls in training or evaluation mode, with changing
parameters, the running statistics are the same if each batch is transformed by a group element of its own, and in the reached state a further call in training or evaluation mode commutes with the action. -/
theorem C56_inner_partial {dim : ℕ} (t : FType S (Rep G Id)) (hpos : ∀ r ∈ t.reprs, 0 < r.size) (hperm : ∀ r ∈ t.reprs, ∀ g, El g → IsPermMat r.size (r.mat g)) {eps : ℝ} (_heps : 0 < eps) {mo : Option ℝ}
    {affine track : Bool} {m : InnerBatchNorm S (Rep G Id)} (hm : init dim t eps mo affine track = .ok m) {nd : ℕ} (hnd : nd = dim ∧ 1 ≤ dim) :
    HistoryEquivariant (C := C) El t 2 (forward m nd) fresh := by
  have hd : 3 + nd = m.bnDims := by
    obtain ⟨-, -, -, -, -, -, -, -, h⟩ := init_ok hm
    unfold dims at h
    obtain ⟨rfl, h0⟩ := hnd
    split_ifs at h with h1 h2 h3
    · have := Except.ok.inj h
      omega
    · have := Except.ok.inj h
      omega
    · have := Except.ok.inj h
      omega
  refine HistoryEquivariant.of_fields (fun r hr g hg => ⟨(hperm r hr g hg).1, (hperm r hr g hg).2.1⟩) (fun _ => True) trivial (fun B P _ _ c st x => after t mo track c st x)
    (fun B P _ _ c st x => outField t eps affine track c st x) ?_ ?_ ?_ fun _ _ _ _ _ _ _ _ => trivial
  · intro B P _ _ c junk st x hx hc hN
    exact forward_spec hpos hm hd c (fun _ => hN) junk st x hx hc
  · intro B P P' _ _ _ c st g hg σ x gx hact
    unfold after
    funext s
    congr 1
    unfold afterS
    congr 2
    · funext n
      rcases h : (labelled (t.reprs.map Rep.size) s)[n]? with _ | k
      · rfl
      · obtain ⟨r, hr, rfl⟩ := labelled_rep h
        dsimp only
        rw [mean_act (hperm r (List.mem_of_getElem? hr) g hg) σ (v := fieldOf t x k) (w := fieldOf t (⟨gx.chans, fun b c p => gx.get b c (σ p)⟩ : FTensor B P') k) fun b p o ho => hact k r hr b o (σ p) ho]
    · funext n
      rcases h : (labelled (t.reprs.map Rep.size) s)[n]? with _ | k
      · rfl
      · obtain ⟨r, hr, rfl⟩ := labelled_rep h
        dsimp only
        rw [dev_act (hperm r (List.mem_of_getElem? hr) g hg) σ (v := fieldOf t x k) (w := fieldOf t (⟨gx.chans, fun b c p => gx.get b c (σ p)⟩ : FTensor B P') k) fun b p o ho => hact k r hr b o (σ p) ho,
          number, Fintype.card_congr σ]
        rfl
  · intro B P P' _ _ _ c st _ g hg σ x gx hact k r hr o ho b p
    have hP := hperm r (List.mem_of_getElem? hr) g hg
    simp only [outField, repOf_eq hr]
    rw [mean_act hP σ (v := fieldOf t x k) (w := fieldOf t (⟨gx.chans, fun b c p => gx.get b c (σ p)⟩ : FTensor B P') k) fun b p o ho => hact k r hr b o (σ p) ho,
      dev_act hP σ (v := fieldOf t x k) (w := fieldOf t (⟨gx.chans, fun b c p => gx.get b c (σ p)⟩ : FTensor B P') k) fun b p o ho => hact k r hr b o (σ p) ho]
    have hv : fieldOf t (⟨gx.chans, fun b c p => gx.get b c (σ p)⟩ : FTensor B P') k b o p = ∑ j ∈ range r.size, (r.mat g).get o j * fieldOf t x k b j (σ p) := hact k r hr b o (σ p) ho
    have hnum : number B P' r.size = number B P r.size := by rw [number, number, Fintype.card_congr σ]
    obtain ⟨n, hn⟩ : ∃ n, n = (labelled (t.reprs.map Rep.size) r.size).idxOf k := ⟨_, rfl⟩
    obtain ⟨μ, hμ⟩ : ∃ μ : ℝ, μ = if c.training = true ∨ ¬ track = true then mean r.size (fieldOf t x k) else (st r.size).mean n := ⟨_, rfl⟩
    obtain ⟨q, hq⟩ : ∃ q : ℝ, q = Real.sqrt ((if c.training = true ∨ ¬ track = true then dev r.size (fieldOf t x k) / number B P r.size else (st r.size).var n) + eps) := ⟨_, rfl⟩
    rw [hv, hnum, ← hn, ← hμ, ← hq, ← hP.const μ ho, ← hP.const (if affine = true then c.bias r.size n else 0) ho, ← sum_sub_distrib, sum_div, sum_mul, ← sum_add_distrib]
    refine sum_congr rfl fun j _ => ?_
    rw [hP.const _ ho, hP.const _ ho]
    ring

/-- **C56** For a gspace of dimensionality 0 the module uses `BatchNorm2d`, and each input of shape `(batch, channels)`, the shape of the feature vectors of such a space, raises `ValueError`. -/
theorem C56_inner_dim0_violated {t : FType S (Rep G Id)} (hpos : ∀ r ∈ t.reprs, 0 < r.size) (hne : t.reprs ≠ []) {eps : ℝ} {mo : Option ℝ} {affine track : Bool} {m : InnerBatchNorm S (Rep G Id)}
    (hm : init 0 t eps mo affine track = .ok m) {B P : Type} [Fintype B] [Fintype P] (c : InnerPar) (junk : B → ℕ → P → ℝ) (st : ℕ → TorchBNState) (x : GTensor B P S (Rep G Id) C) (hx : x.type = t)
    (hc : x.tensor.chans = t.size Rep.size) : forward m 0 B P c junk st x = .error .value := by
  obtain ⟨-, h1, -, -, -, -, h6, h7, h8⟩ := init_ok hm
  have hb : m.bnDims = 4 := (Except.ok.inj h8).symm
  obtain ⟨d, hd, hTab⟩ := fieldTable_spec (sz := Rep.size) t hpos (t.reprs.map Rep.size) (by simp [FType.len])
  rw [h7] at hd
  obtain rfl := Except.ok.inj hd
  unfold forward
  rw [if_pos (hx.trans h1.symm), h6]
  rcases ho : keysInOrder (t.reprs.map Rep.size) with _ | ⟨l, ls⟩
  · obtain ⟨r, hr⟩ := List.exists_mem_of_ne_nil _ hne
    have : r.size ∈ keysInOrder (t.reprs.map Rep.size) := mem_keysInOrder.2 (List.mem_map_of_mem hr)
    rw [ho] at this
    simp at this
  · have hl : l ∈ t.reprs.map Rep.size := mem_keysInOrder.1 (by rw [ho]; simp)
    obtain ⟨i, d, f, e1, e2, e3, -⟩ := labelRead_tab (sz := Rep.size) (t := t) (labels := t.reprs.map Rep.size) (by simp) (s := id) (fun k l r hl hr => by
      rw [List.getElem?_map, hr] at hl
      simpa using hl) hTab hc hl
    have e3' : d.toFields (List.count l (t.reprs.map Rep.size)) l = .ok f := e3
    have hbn : m.batchnorm (3 + 0) c.training (c.weight l) (c.bias l) (st l) f = .error .value := by
      unfold batchnorm
      rw [if_pos (by rw [hb]; norm_num)]
    simp only [statLoop, e1, e2, step, h6, e3', hbn, bind, Except.bind]

/-- Two regular fields and a trivial one of the group with two elements. -/
example : ∃ m, init 2 (⟨(), [swapRep, trivRep, swapRep]⟩ : FType Unit (Rep Bool Unit)) (1 / 100000) (some (1 / 10)) true true = .ok m ∧
    HistoryEquivariant (C := Unit) (fun _ : Bool => True) (⟨(), [swapRep, trivRep, swapRep]⟩ : FType Unit (Rep Bool Unit)) 2 (forward m 2) fresh := by
  set t : FType Unit (Rep Bool Unit) := ⟨(), [swapRep, trivRep, swapRep]⟩ with ht
  have hr : ∀ r ∈ t.reprs, r = swapRep ∨ r = trivRep := by
    intro r hr
    simp only [ht, List.mem_cons, List.not_mem_nil, or_false] at hr
    tauto
  have hpos : ∀ r ∈ t.reprs, 0 < r.size := fun r h => by rcases hr r h with rfl | rfl <;> decide
  obtain ⟨tab, htab, -⟩ := fieldTable_spec (sz := Rep.size) t hpos (t.reprs.map Rep.size) (by simp [FType.len])
  obtain ⟨m, hm⟩ : ∃ m, init 2 t (1 / 100000) (some (1 / 10)) true true = .ok m := by
    unfold init
    rw [if_pos fun r h => by rcases hr r h with rfl | rfl <;> simp [swapRep, trivRep]]
    simp only [htab, show dims 2 = .ok 5 from rfl, bind, Except.bind]
    exact ⟨_, rfl⟩
  refine ⟨m, hm, C56_inner_partial t hpos (fun r h g _ => ?_) (by norm_num) hm ⟨rfl, by norm_num⟩⟩
  rcases hr r h with rfl | rfl
  · exact swapRep_perm g
  · exact trivRep_perm g

/-- Vectors without spatial axes. -/
example : ∃ m, init 0 (⟨(), [swapRep]⟩ : FType Unit (Rep Bool Unit)) (1 / 100000) (some (1 / 10)) true true = .ok m ∧
    ∀ (c : InnerPar) (x : GTensor (Fin 5) Unit Unit (Rep Bool Unit) Unit), x.type = ⟨(), [swapRep]⟩ → x.tensor.chans = 2 → forward m 0 (Fin 5) Unit c (fun _ _ _ => 0) fresh x = .error .value := by
  have hpos : ∀ r ∈ (⟨(), [swapRep]⟩ : FType Unit (Rep Bool Unit)).reprs, 0 < r.size := fun r h => by
    obtain rfl := List.mem_singleton.1 h
    decide
  obtain ⟨tab, htab, -⟩ := fieldTable_spec (sz := Rep.size) (⟨(), [swapRep]⟩ : FType Unit (Rep Bool Unit)) hpos [swapRep.size] rfl
  obtain ⟨m, hm⟩ : ∃ m, init 0 (⟨(), [swapRep]⟩ : FType Unit (Rep Bool Unit)) (1 / 100000) (some (1 / 10)) true true = .ok m := by
    unfold init
    rw [if_pos fun r h => by obtain rfl := List.mem_singleton.1 h; simp [swapRep]]
    simp only [List.map_cons, List.map_nil, htab, show dims 0 = .ok 4 from rfl, bind, Except.bind]
    exact ⟨_, rfl⟩
  exact ⟨m, hm, fun c x hx hc => C56_inner_dim0_violated hpos (by simp) hm c _ _ x hx hc⟩

end InnerBatchNorm

end Escnn
