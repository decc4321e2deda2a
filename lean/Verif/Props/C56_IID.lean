import Verif.Model.IIDBatchNorm
import Verif.Lemmas.StatLoop
import Verif.Lemmas.BatchStat
import Verif.Props.C57_FieldNorm

/-!
# C56: the running statistics and the outputs of IIDBatchNorm
-/

namespace Escnn

open Finset

variable {S G Id C : Type} [DecidableEq Id] {El : G → Prop} {op : G → G → G} {one : G} {T : IrrepTable G Id} {triv : Id}

namespace IIDBatchNorm

section

variable {B P P' : Type} [Fintype B] [Fintype P] [Fintype P']

theorem init_ok {uniq : List (Rep G Id)} {t : FType S (Rep G Id)} {eps : ℝ} {mo : Option ℝ} {affine track : Bool} {m : IIDBatchNorm S (Rep G Id)} (h : init T.size triv uniq t eps mo affine track = .ok m) :
    m.inType = t ∧ m.eps = eps ∧ m.momentum = mo ∧ m.affine = affine ∧ m.track = track ∧ m.names = t.reprs.map Rep.name ∧ runTable Rep.size t (t.reprs.map Rep.name) = .ok m.table ∧
      m.order = uniq.map Rep.name ∧ m.tabs = uniq.map fun r => (r.name, NormTab.of T.size triv r) := by
  unfold init at h
  cases ht : runTable Rep.size t (t.reprs.map Rep.name) with
  | error e => simp [ht, bind, Except.bind] at h
  | ok tab =>
    simp only [ht, bind, Except.bind, Except.ok.injEq] at h
    subst h
    exact ⟨rfl, rfl, rfl, rfl, rfl, rfl, rfl, rfl, rfl⟩

theorem estimate_congr {r : Rep G Id} (hr : r.WF T El) {v w : B → ℕ → P → ℝ} (h : ∀ o < r.size, ∀ b p, v b o p = w b o p) : estimate (NormTab.of T.size triv r) v = estimate (NormTab.of T.size triv r) w := by
  have hm : ∀ i, (NormTab.of T.size triv r).mean (fun j => batchMean fun b p => v b j p) i = (NormTab.of T.size triv r).mean (fun j => batchMean fun b p => w b j p) i := fun i =>
    FieldNorm.mean_congr hr (fun o ho => batchMean_congr fun b p => h o ho b p) i
  unfold estimate
  simp only [hm]
  congr 2
  refine sum_congr rfl fun o ho => batchVar_congr fun b p => ?_
  rw [h o (mem_range.1 ho)]

theorem update_congr {r : Rep G Id} (hr : r.WF T El) (track training : Bool) (f : ℝ) (a : FieldStat) {v w : B → ℕ → P → ℝ} (h : ∀ o < r.size, ∀ b p, v b o p = w b o p) :
    update track training f (NormTab.of T.size triv r) a v = update track training f (NormTab.of T.size triv r) a w := by
  unfold update
  rw [estimate_congr hr h]

theorem used_congr {r : Rep G Id} (hr : r.WF T El) (track training : Bool) (a : FieldStat) {v w : B → ℕ → P → ℝ} (h : ∀ o < r.size, ∀ b p, v b o p = w b o p) :
    used track training (NormTab.of T.size triv r) a v = used track training (NormTab.of T.size triv r) a w := by
  unfold used
  rw [estimate_congr hr h]

/-- The state after a call. -/
noncomputable def after (T : IrrepTable G Id) (triv : Id) (t : FType S (Rep G Id)) (mo : Option ℝ) (track : Bool) (c : BNPar) (st : IIDState) (x : FTensor B P) : IIDState :=
  ⟨if c.training then st.count + 1 else st.count, fun l => if l ∈ t.reprs.map Rep.name then fun n =>
    match (labelled (t.reprs.map Rep.name) l)[n]? with
    | some k => update track c.training (if c.training then avgFactor mo (if c.training then st.count + 1 else st.count) else 0) (NormTab.of T.size triv (repOf t k)) (st.stat l n) (fieldOf t x k)
    | none => st.stat l n
  else st.stat l⟩

/-- The output of a call for one field. -/
noncomputable def outField (T : IrrepTable G Id) (triv : Id) (t : FType S (Rep G Id)) (eps : ℝ) (affine track : Bool) (c : BNPar) (st : IIDState) (x : FTensor B P) (k o : ℕ) (b : B) (p : P) : ℝ :=
  let r := repOf t k
  let n := (labelled (t.reprs.map Rep.name) r.name).idxOf k
  normalize (NormTab.of T.size triv r) eps affine (c.weight r.name n) (c.bias r.name n) (used track c.training (NormTab.of T.size triv r) (st.stat r.name n) (fieldOf t x k)) (fun o => fieldOf t x k b o p) o

theorem forward_spec {t : FType S (Rep G Id)} (hwf : ∀ r ∈ t.reprs, r.WF T El) (hn : NamesApart t.reprs) {uniq : List (Rep G Id)} (hnd : uniq.Nodup) (hu : ∀ r, r ∈ uniq ↔ r ∈ t.reprs) {eps : ℝ}
    {mo : Option ℝ} {affine track : Bool} {m : IIDBatchNorm S (Rep G Id)} (hm : init T.size triv uniq t eps mo affine track = .ok m) (c : BNPar) (junk : B → ℕ → P → ℝ) (st : IIDState)
    (x : GTensor B P S (Rep G Id) C) (hx : x.type = t) (hc : x.tensor.chans = t.size Rep.size) :
    ∃ y, forward m B P c junk st x = .ok (after T triv t mo track c st x.tensor, y) ∧ y.type = t ∧ y.coords = x.coords ∧ y.tensor.chans = t.size Rep.size ∧
      ∀ (k : ℕ) (r : Rep G Id), t.reprs[k]? = some r → ∀ o < r.size, ∀ b q, y.tensor.get b (chanOffset Rep.size t.reprs k + o) q = outField T triv t eps affine track c st x.tensor k o b q := by
  obtain ⟨h1, h2, h3, h4, h5, h6, h7, h8, h9⟩ := init_ok hm
  obtain ⟨res, f1, f2, f3⟩ := nameStat_run (A := ℕ → FieldStat) (fun r hr => (hwf r hr).pos) hn hnd hu h7
    (F := m.step c (if c.training then avgFactor m.momentum (if c.training then st.count + 1 else st.count) else 0)) (x := x.tensor) (out := ⟨x.tensor.chans, junk⟩) hc hc st.stat
    (fun l n => match (labelled (t.reprs.map Rep.name) l)[n]? with
      | some k => update track c.training (if c.training then avgFactor mo (if c.training then st.count + 1 else st.count) else 0) (NormTab.of T.size triv (repOf t k)) (st.stat l n) (fieldOf t x.tensor k)
      | none => st.stat l n)
    (fun r n k b o q => normalize (NormTab.of T.size triv r) eps affine (c.weight r.name n) (c.bias r.name n) (used track c.training (NormTab.of T.size triv r) (st.stat r.name n) (fieldOf t x.tensor k))
      (fun o => fieldOf t x.tensor k b o q) o)
    (by
      intro r hr d f e1 e2 e3 e4
      have htab := nameTab_get hn hu (NormTab.of T.size triv) hr
      have e1' : d.toFields (List.count r.name (List.map Rep.name t.reprs)) (NormTab.of T.size triv r).size = .ok f := e1
      refine ⟨⟨f.n, f.size, fun b n o p => normalize (NormTab.of T.size triv r) m.eps m.affine (c.weight r.name n) (c.bias r.name n)
        (used m.track c.training (NormTab.of T.size triv r) (st.stat r.name n) fun b o p => f.get b n o p) (fun o => f.get b n o p) o⟩, ?_, rfl, e3, fun n k hnk b o q ho => ?_⟩
      · simp only [step, h9, h6, tabGet_ok.2 htab, bind, Except.bind, e1', Except.ok.injEq, Prod.mk.injEq, and_true]
        funext n
        rcases hk : (labelled (t.reprs.map Rep.name) r.name)[n]? with _ | k
        · rw [if_neg]
          rw [List.getElem?_eq_none_iff, labelled_length] at hk
          omega
        · have hlt := (List.getElem?_eq_some_iff.1 hk).1
          rw [labelled_length] at hlt
          rw [if_pos (by omega), h3, h5]
          have : repOf t k = r := by rw [repOf, hn.labelled hr hk]; rfl
          simp only [this]
          exact update_congr (hwf r hr) _ _ _ _ fun o ho b p => e4 n k hk b o p ho
      · simp only [h2, h4, h5]
        rw [used_congr (hwf r hr) _ _ _ fun o ho b p => e4 n k hnk b o p ho]
        unfold normalize
        simp only [e4 n k hnk b o q ho, fieldOf]
        rfl)
  refine ⟨⟨res, t, x.coords⟩, ?_, rfl, rfl, f2, fun k r hk o ho b q => ?_⟩
  · unfold forward
    rw [← h8] at f1
    rw [if_pos (hx.trans h1.symm)]
    simp only [f1, bind, Except.bind]
    rw [h1, GTensor.mk', if_pos f2]
    rfl
  · rw [f3 k r hk b o q ho]
    have : repOf t k = r := by rw [repOf, hk]; rfl
    simp only [outField, this]

/-- The statistics of a transformed batch. -/
theorem estimate_act (hT : T.Valid El op one) (ht : T.IsTrivial El triv) {r : Rep G Id} (hr : r.WF T El) {g : G} (hg : El g) (ho : IsOrthMat r.size (r.mat g)) (σ : P' ≃ P) {v : B → ℕ → P → ℝ}
    {w : B → ℕ → P' → ℝ} (hw : ∀ b p, ∀ o < r.size, w b o p = ∑ j ∈ range r.size, (r.mat g).get o j * v b j (σ p)) :
    estimate (NormTab.of T.size triv r) w = estimate (NormTab.of T.size triv r) v := by
  have hm : ∀ i, (NormTab.of T.size triv r).mean (fun j => batchMean fun b p => w b j p) i = (NormTab.of T.size triv r).mean (fun j => batchMean fun b p => v b j p) i := fun i =>
    NormTab.mean_act hT ht hr hg (fun o ho => batchMean_act σ hw ho) i
  unfold estimate
  simp only [hm, batchVar_sub]
  congr 2
  exact batchVar_act ho σ hw

/-- The running mean is invariant. -/
def Inv (El : G → Prop) (t : FType S (Rep G Id)) (st : IIDState) : Prop :=
  ∀ r ∈ t.reprs, ∀ n g, El g → ∀ o < r.size, ∑ j ∈ range r.size, (r.mat g).get o j * (st.stat r.name n).mean j = (st.stat r.name n).mean o

theorem update_inv (hT : T.Valid El op one) (ht : T.IsTrivial El triv) {r : Rep G Id} (hr : r.WF T El) {g : G} (hg : El g) (track training : Bool) (f : ℝ) {a : FieldStat}
    (ha : ∀ o < r.size, ∑ j ∈ range r.size, (r.mat g).get o j * a.mean j = a.mean o) (v : B → ℕ → P → ℝ) {o : ℕ} (ho : o < r.size) :
    ∑ j ∈ range r.size, (r.mat g).get o j * (update track training f (NormTab.of T.size triv r) a v).mean j = (update track training f (NormTab.of T.size triv r) a v).mean o := by
  unfold update
  by_cases h : track = true ∧ training = true
  · simp only [h, and_self, if_true]
    by_cases h' : (NormTab.of T.size triv r).has = true
    · simp only [h', if_true]
      have e1 := ha o ho
      have e2 := NormTab.mean_fixed hT ht hr hg (fun j => batchMean fun b p => v b j p) ho
      show ∑ j ∈ range r.size, (r.mat g).get o j * (a.mean j * (1 - f) + f * (NormTab.of T.size triv r).mean (fun j => batchMean fun b p => v b j p) j) = a.mean o * (1 - f) + f * (NormTab.of T.size triv r).mean (fun j => batchMean fun b p => v b j p) o
      rw [← e1, ← e2, sum_mul, mul_sum, ← sum_add_distrib]
      exact sum_congr rfl fun j _ => by ring
    · simp only [h', if_false, Bool.false_eq_true]
      exact ha o ho
  · rw [if_neg h]
    exact ha o ho

end

/-- **C56** IIDBatchNorm.  (Missing: types with representations which are not orthogonal, see `C56_iid_not_orthogonal_violated`.)  For each type of orthogonal representations with distinct names, all
`eps > 0`, momenta (also the cumulative average), with or without parameters and running statistics: after each history of calls in training or evaluation mode, with changing parameters, the running statistics are
the same if each batch is transformed by a group element of its own, and in the reached state a further call in training or evaluation mode commutes with the action. -/
theorem C56_iid_partial (hT : T.Valid El op one) (ht : T.IsTrivial El triv) (t : FType S (Rep G Id)) (hwf : ∀ r ∈ t.reprs, r.WF T El) (hort : Orthogonal El t) (hn : NamesApart t.reprs)
    {uniq : List (Rep G Id)} (hnd : uniq.Nodup) (hu : ∀ r, r ∈ uniq ↔ r ∈ t.reprs) {eps : ℝ} (_heps : 0 < eps) {mo : Option ℝ} {affine track : Bool} {m : IIDBatchNorm S (Rep G Id)}
    (hm : init T.size triv uniq t eps mo affine track = .ok m) : HistoryEquivariant (C := C) El t 2 (forward m) fresh := by
  have hk' : ∀ {k : ℕ} {r : Rep G Id}, t.reprs[k]? = some r → repOf t k = r := fun h => by rw [repOf, h]; rfl
  have hlab : ∀ {l : String} {n k : ℕ}, (labelled (t.reprs.map Rep.name) l)[n]? = some k → ∃ r, t.reprs[k]? = some r ∧ r.name = l := by
    intro l n k h
    have hk := mem_labelled.1 (List.mem_of_getElem? h)
    rw [List.getElem?_map] at hk
    exact Option.map_eq_some_iff.1 hk
  refine HistoryEquivariant.of_fields hort.square (Inv El t) ?_ (fun B P _ _ c st x => after T triv t mo track c st x) (fun B P _ _ c st x => outField T triv t eps affine track c st x) ?_ ?_ ?_ ?_
  · intro r _ n g _ o _
    simp [fresh]
  · intro B P _ _ c junk st x hx hc _
    exact forward_spec hwf hn hnd hu hm c junk st x hx hc
  · intro B P P' _ _ _ c st g hg σ x gx hact
    unfold after
    congr 1
    funext l
    congr 1
    funext n
    rcases h : (labelled (t.reprs.map Rep.name) l)[n]? with _ | k
    · rfl
    · obtain ⟨r, hr, rfl⟩ := hlab h
      have hrm := List.mem_of_getElem? hr
      simp only [hk' hr]
      unfold update
      rw [estimate_act hT ht (hwf r hrm) hg (hort r hrm g hg) σ (v := fieldOf t x k) (w := fieldOf t (⟨gx.chans, fun b c p => gx.get b c (σ p)⟩ : FTensor B P') k) fun b p o ho => hact k r hr b o (σ p) ho]
  · intro B P P' _ _ _ c st hst g hg σ x gx hact k r hr o ho b p
    have hrm := List.mem_of_getElem? hr
    simp only [outField, hk' hr]
    have hus : used track c.training (NormTab.of T.size triv r) (st.stat r.name ((labelled (t.reprs.map Rep.name) r.name).idxOf k)) (fieldOf t (⟨gx.chans, fun b c p => gx.get b c (σ p)⟩ : FTensor B P') k) =
        used track c.training (NormTab.of T.size triv r) (st.stat r.name ((labelled (t.reprs.map Rep.name) r.name).idxOf k)) (fieldOf t x k) := by
      unfold used
      rw [estimate_act hT ht (hwf r hrm) hg (hort r hrm g hg) σ (v := fieldOf t x k) (w := fieldOf t (⟨gx.chans, fun b c p => gx.get b c (σ p)⟩ : FTensor B P') k) fun b p o ho => hact k r hr b o (σ p) ho]
    rw [hus]
    obtain ⟨s, hs⟩ : ∃ s, s = used track c.training (NormTab.of T.size triv r) (st.stat r.name ((labelled (t.reprs.map Rep.name) r.name).idxOf k)) (fieldOf t x k) := ⟨_, rfl⟩
    have hfix : ∑ j ∈ range r.size, (r.mat g).get o j * s.mean j = s.mean o := by
      rw [hs]
      unfold used
      split_ifs
      · exact NormTab.mean_fixed hT ht (hwf r hrm) hg _ ho
      · exact NormTab.mean_fixed hT ht (hwf r hrm) hg _ ho
      · exact hst r hrm _ g hg o ho
    rw [← hs]
    unfold normalize
    rw [← NormTab.shift_fixed hT ht (hwf r hrm) hg affine _ ho]
    have hv : fieldOf t (⟨gx.chans, fun b c p => gx.get b c (σ p)⟩ : FTensor B P') k b o p = ∑ j ∈ range r.size, (r.mat g).get o j * fieldOf t x k b j (σ p) := hact k r hr b o (σ p) ho
    by_cases hh : (NormTab.of T.size triv r).has = true
    · simp only [hh, if_true]
      rw [hv, ← hfix, ← sum_sub_distrib, sum_mul, ← sum_add_distrib]
      exact sum_congr rfl fun j _ => by ring
    · simp only [hh, if_false, Bool.false_eq_true]
      rw [hv, sum_mul, ← sum_add_distrib]
      exact sum_congr rfl fun j _ => by ring
  · intro B P _ _ c st x hst r hrm n g hg o ho
    unfold after
    simp only [List.mem_map_of_mem hrm, if_true]
    rcases h : (labelled (t.reprs.map Rep.name) r.name)[n]? with _ | k
    · exact hst r hrm n g hg o ho
    · simp only [hk' (hn.labelled hrm h)]
      exact update_inv hT ht (hwf r hrm) hg _ _ _ (hst r hrm n g hg) _ ho

/-- **C56** For a representation which is not orthogonal (the irrep 1 of `C_4` in a stretched basis) the running variance depends on the pose of the batch; the constructor accepts it. -/
theorem C56_iid_not_orthogonal_violated {eps : ℝ} {mo : ℝ} (hmo : mo ≠ 0) (affine : Bool) : ∃ m, init (Cyclic.table 4).size 0 [stretchRep] (⟨(), [stretchRep]⟩ : FType Unit (Rep ℤ ℕ)) eps (some mo) affine true = .ok m ∧
    ¬ HistoryEquivariant (C := Unit) (fun g => Cyclic.isElement 4 g = true) (⟨(), [stretchRep]⟩ : FType Unit (Rep ℤ ℕ)) 2 (forward m) fresh := by
  set t : FType Unit (Rep ℤ ℕ) := ⟨(), [stretchRep]⟩ with ht
  have hwf : ∀ r ∈ t.reprs, r.WF (Cyclic.table 4) fun g => Cyclic.isElement 4 g = true := by
    intro r hr
    simp only [ht, List.mem_singleton] at hr
    subst hr
    exact stretchRep_wf
  have hn : NamesApart t.reprs := by
    intro r hr r' hr' _
    simp only [ht, List.mem_singleton] at hr hr'
    rw [hr, hr']
  obtain ⟨tab, htab, -⟩ := runTable_spec (sz := Rep.size) t (fun r hr => (hwf r hr).pos) (t.reprs.map Rep.name) (by simp)
  have hm : init (Cyclic.table 4).size 0 [stretchRep] t eps (some mo) affine true =
      .ok ⟨t, eps, some mo, affine, true, t.reprs.map Rep.name, tab, [stretchRep].map Rep.name, [stretchRep].map fun r => (r.name, NormTab.of (Cyclic.table 4).size 0 r)⟩ := by
    simp only [init, htab, bind, Except.bind]
  obtain ⟨m, hm⟩ : ∃ m, init (Cyclic.table 4).size 0 [stretchRep] t eps (some mo) affine true = .ok m := ⟨_, hm⟩
  refine ⟨m, hm, fun h => ?_⟩
  have hsz : t.size Rep.size = 2 := by rw [FType.size_eq]; rfl
  let x : FTensor Bool Unit := ⟨2, fun b c _ => if b = true ∧ c = 0 then 1 else 0⟩
  obtain ⟨gx, f1, f2, f3⟩ := transformFibers_act (P := Unit) (GatedNL.wf_square hwf) (g := 1) (by decide) x hsz.symm
  let c : BNPar := ⟨true, fun _ _ => 1, fun _ _ _ => 0⟩
  obtain ⟨st, r1, r2, -⟩ := h [⟨Bool, Unit, Unit, inferInstance, inferInstance, inferInstance, c, fun _ _ _ => 0, fun _ _ _ => 0, x, (), (), hsz.symm, by simp, 1, by decide, gx, f1, Equiv.refl _⟩]
  obtain ⟨y, a1, -⟩ := forward_spec hwf hn (List.nodup_singleton _) (fun _ => Iff.rfl) hm c (fun _ _ _ => 0) fresh ⟨x, t, ()⟩ rfl hsz.symm
  obtain ⟨y', b1, -⟩ := forward_spec hwf hn (List.nodup_singleton _) (fun _ => Iff.rfl) hm c (fun _ _ _ => 0) fresh ⟨⟨gx.chans, fun b c p => gx.get b c p⟩, t, ()⟩ rfl f2
  simp only [List.map_cons, List.map_nil, StatModule.run, MovedBatch.before, MovedBatch.after, Equiv.refl_apply] at r1 r2
  rw [a1] at r1
  rw [b1] at r2
  have e1 : after (Cyclic.table 4) 0 t (some mo) true c fresh x = st := Except.ok.inj r1
  have e2 : after (Cyclic.table 4) 0 t (some mo) true c fresh (⟨gx.chans, fun b c p => gx.get b c p⟩ : FTensor Bool Unit) = st := Except.ok.inj r2
  have hact : ∀ b, ∀ o < 2, gx.get b o () = (stretchRep.mat 1).get o 0 * if b = true then 1 else 0 := by
    intro b o ho
    have := f3 0 stretchRep rfl b o () ho
    rw [show chanOffset Rep.size t.reprs 0 = 0 from rfl, zero_add] at this
    rw [this, stretchRep_size]
    simp [Finset.sum_range_succ, x]
  obtain ⟨s00, s01, s10, s11⟩ := stretchRep_one
  have hlab : (labelled (t.reprs.map Rep.name) "stretch")[0]? = some 0 := by decide
  have hval : ∀ z : FTensor Bool Unit, (after (Cyclic.table 4) 0 t (some mo) true c fresh z).stat "stretch" 0 =
      update true true mo (NormTab.of (Cyclic.table 4).size 0 stretchRep) ⟨fun _ => 0, 1⟩ (fieldOf t z 0) := by
    intro z
    unfold after
    have hin : "stretch" ∈ t.reprs.map Rep.name := by decide
    simp only [hin, if_true, hlab]
    rfl
  have hno : ∀ v : ℕ → ℝ, ∀ i, (NormTab.of (Cyclic.table 4).size 0 stretchRep).mean v i = 0 := fun v i => if_neg (by decide)
  have hvar : ∀ z : FTensor Bool Unit, ((after (Cyclic.table 4) 0 t (some mo) true c fresh z).stat "stretch" 0).var = 1 * (1 - mo) + mo * ((∑ o ∈ range 2, batchVar fun b p => z.get b o p) / (2 : ℕ)) := by
    intro z
    rw [hval]
    simp only [update, and_self, if_true, estimate, hno, sub_zero]
    have : ∀ o, (batchVar fun b p => fieldOf t z 0 b o p) = batchVar fun b p => z.get b o p := fun o => batchVar_congr fun b p => by
      show z.get b (0 + o) p = _
      rw [zero_add]
    simp only [this]
    rfl
  have hbv : ∀ a : ℝ, (batchVar fun (b : Bool) (_ : Unit) => a * if b = true then 1 else 0) = a ^ 2 / 2 := by
    intro a
    simp [batchVar, batchMean]
    ring
  have v1 := hvar x
  have v2 := hvar ⟨gx.chans, fun b c p => gx.get b c p⟩
  rw [e1, sum_range_succ, sum_range_one] at v1
  rw [e2, sum_range_succ, sum_range_one] at v2
  have x0 : (batchVar fun b p => x.get b 0 p) = 1 ^ 2 / 2 := by
    rw [← hbv]
    exact batchVar_congr fun b p => by simp [x]
  have x1 : (batchVar fun b p => x.get b 1 p) = 0 ^ 2 / 2 := by
    rw [← hbv]
    exact batchVar_congr fun b p => by simp [x]
  rw [x0, x1] at v1
  rw [batchVar_congr (fun b p => hact b 0 (by norm_num)), batchVar_congr (fun b p => hact b 1 (by norm_num)), hbv, hbv, s00, s10, v1] at v2
  norm_num at v2
  exact hmo (by linarith)

/-- Fields of the irreps 0 and 1 of `C_4`. -/
example : ∃ m, init (Cyclic.table 4).size 0 convDemo.reprs convDemo (1 / 100000) (some (1 / 10)) true true = .ok m ∧
    HistoryEquivariant (C := Unit) (fun g => Cyclic.isElement 4 g = true) convDemo 2 (forward m) fresh := by
  obtain ⟨tab, htab, -⟩ := runTable_spec (sz := Rep.size) convDemo (fun r hr => (convDemo_wf r hr).pos) (convDemo.reprs.map Rep.name) (by simp)
  have hm : ∃ m, init (Cyclic.table 4).size 0 convDemo.reprs convDemo (1 / 100000) (some (1 / 10)) true true = .ok m := ⟨_, by simp only [init, htab, bind, Except.bind]; rfl⟩
  obtain ⟨m, hm⟩ := hm
  exact ⟨m, hm, C56_iid_partial (Cyclic.table_valid 4 (by norm_num)) (Cyclic.trivial 4) convDemo convDemo_wf convDemo_orth convDemo_names.1 convDemo_names.2 (fun _ => Iff.rfl) (by norm_num) hm⟩

end IIDBatchNorm

end Escnn
