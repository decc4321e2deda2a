import Verif.Model.NormBatchNorm
import Verif.Lemmas.StatLoop
import Verif.Lemmas.SizeLoop
import Verif.Lemmas.BatchStat
import Verif.Props.C57_FieldNorm

/-!
# C56: the running statistics and the outputs of NormBatchNorm
-/

namespace Escnn

open Finset

variable {S G Id C : Type} [DecidableEq Id] {El : G → Prop} {triv : Id}

namespace NormBatchNorm

section

variable {B P P' : Type} [Fintype B] [Fintype P] [Fintype P']

theorem init_ok {t : FType S (Rep G Id)} {eps : ℝ} {mo : Option ℝ} {affine : Bool} {m : NormBatchNorm S (Rep G Id)} (h : init triv t eps mo affine = .ok m) :
    (∀ r ∈ t.reprs, "norm" ∈ r.nonlin ∧ triv ∉ r.irreps) ∧ m.inType = t ∧ m.eps = eps ∧ m.momentum = mo ∧ m.affine = affine ∧ m.sizes = t.reprs.map Rep.size ∧
      runTable Rep.size t (t.reprs.map Rep.size) = .ok m.table ∧ m.order = keysInOrder (t.reprs.map Rep.size) := by
  unfold init at h
  split_ifs at h with hs
  cases ht : runTable Rep.size t (t.reprs.map Rep.size) with
  | error e => simp [ht, bind, Except.bind] at h
  | ok tab =>
    simp only [ht, bind, Except.bind, Except.ok.injEq] at h
    subst h
    exact ⟨hs, rfl, rfl, rfl, rfl, rfl, rfl, rfl⟩

theorem estimate_congr {s : ℕ} {v w : B → ℕ → P → ℝ} (h : ∀ o < s, ∀ b p, v b o p = w b o p) : estimate s v = estimate s w := by
  unfold estimate
  congr 2
  exact batchMean_congr fun b p => sum_congr rfl fun o ho => h o (mem_range.1 ho) b p

/-- The state after a call. -/
noncomputable def after (t : FType S (Rep G Id)) (mo : Option ℝ) (c : NormBNPar) (st : NormBNState) (x : FTensor B P) : NormBNState :=
  if c.training then ⟨st.count + 1, fun s => if s ∈ t.reprs.map Rep.size then fun n =>
    match (labelled (t.reprs.map Rep.size) s)[n]? with
    | some k => st.var s n * (1 - avgFactor mo (st.count + 1)) + avgFactor mo (st.count + 1) * estimate s fun b o p => fieldOf t x k b o p ^ 2
    | none => st.var s n
  else st.var s⟩ else st

/-- The output of a call for one field. -/
noncomputable def outField (t : FType S (Rep G Id)) (eps : ℝ) (mo : Option ℝ) (affine : Bool) (c : NormBNPar) (st : NormBNState) (x : FTensor B P) (k o : ℕ) (b : B) (p : P) : ℝ :=
  let s := (repOf t k).size
  let n := (labelled (t.reprs.map Rep.size) s).idxOf k
  fieldOf t x k b o p * ((if affine then c.weight s n else 1) / Real.sqrt ((after t mo c st x).var s n + eps))

theorem forward_spec {t : FType S (Rep G Id)} (hpos : ∀ r ∈ t.reprs, 0 < r.size) {eps : ℝ} {mo : Option ℝ} {affine : Bool} {m : NormBatchNorm S (Rep G Id)} (hm : init triv t eps mo affine = .ok m)
    (c : NormBNPar) (junk : B → ℕ → P → ℝ) (st : NormBNState) (x : GTensor B P S (Rep G Id) C) (hx : x.type = t) (hc : x.tensor.chans = t.size Rep.size) :
    ∃ y, forward m B P c junk st x = .ok (after t mo c st x.tensor, y) ∧ y.type = t ∧ y.coords = x.coords ∧ y.tensor.chans = t.size Rep.size ∧
      ∀ (k : ℕ) (r : Rep G Id), t.reprs[k]? = some r → ∀ o < r.size, ∀ b q, y.tensor.get b (chanOffset Rep.size t.reprs k + o) q = outField t eps mo affine c st x.tensor k o b q := by
  obtain ⟨-, h1, h2, h3, h4, h5, h6, h7⟩ := init_ok hm
  have hnd := keysInOrder_nodup (t.reprs.map Rep.size)
  have hmem : ∀ s, s ∈ keysInOrder (t.reprs.map Rep.size) ↔ s ∈ t.reprs.map Rep.size := fun s => mem_keysInOrder
  obtain ⟨d, hd, hTab⟩ := runTable_spec (sz := Rep.size) t hpos (t.reprs.map Rep.size) (by simp)
  rw [h6] at hd
  obtain rfl := Except.ok.inj hd
  have hupd : m.nextVar c.training (if c.training then st.count + 1 else st.count) st.var x.tensor = .ok (after t mo c st x.tensor).var := by
    unfold nextVar
    unfold after
    by_cases htr : c.training = true
    · simp only [htr, if_true]
      rw [h7, updLoop_tab (sz := Rep.size) (t := t) (labels := t.reprs.map Rep.size) (by simp) (s := id) (fun k l r hl hr => by
        rw [List.getElem?_map, hr] at hl
        simpa using hl) hTab hnd hmem (x := ⟨x.tensor.chans, fun b o p => x.tensor.get b o p ^ 2⟩) hc st.var (fun s n => match (labelled (t.reprs.map Rep.size) s)[n]? with
          | some k => st.var s n * (1 - avgFactor mo (st.count + 1)) + avgFactor mo (st.count + 1) * estimate s fun b o p => fieldOf t x.tensor k b o p ^ 2
          | none => st.var s n)]
      intro s _ d f e1 e2 e3 e4
      have e1' : d.toFields (List.count s (t.reprs.map Rep.size)) s = .ok f := e1
      simp only [updStep, h5, e1', bind, Except.bind, Except.ok.injEq]
      funext n
      rcases hk : (labelled (t.reprs.map Rep.size) s)[n]? with _ | k
      · rw [if_neg]
        rw [List.getElem?_eq_none_iff, labelled_length] at hk
        omega
      · have hlt := (List.getElem?_eq_some_iff.1 hk).1
        rw [labelled_length] at hlt
        rw [if_pos (by omega), h3]
        congr 2
        exact estimate_congr fun o ho b p => e4 n k hk b o p ho
    · simp only [htr]
      rfl
  obtain ⟨res, f1, f2, f3⟩ := sizeLoop_run (sz := Rep.size) hpos h6 (order := m.order) (by rw [h7]; exact hnd) (fun s => by rw [h7]; exact hmem s) (F := m.mulStep c (after t mo c st x.tensor).var) hc hc
    (fun s n k b o q => fieldOf t x.tensor k b o q * ((if affine then c.weight s n else 1) / Real.sqrt ((after t mo c st x.tensor).var s n + eps)))
    (by
      intro s hs d f e1 e2 e3 e4
      refine ⟨⟨f.n, f.size, fun b n o p => f.get b n o p * ((if m.affine then c.weight s n else 1) / Real.sqrt ((after t mo c st x.tensor).var s n + m.eps))⟩, ?_, rfl, e3, fun n k hnk b o q ho => ?_⟩
      · simp only [mulStep, h5, e1, bind, Except.bind]
      · simp only [h2, h4, e4 n k hnk b o q ho]
        rfl)
  refine ⟨⟨res, t, x.coords⟩, ?_, rfl, rfl, f2, fun k r hk o ho b q => ?_⟩
  · unfold forward
    rw [if_pos (hx.trans h1.symm)]
    have hmk : GTensor.mk' Rep.size res t x.coords = .ok ⟨res, t, x.coords⟩ := if_pos f2
    simp only [hupd, f1, h1, hmk, bind, Except.bind]
    unfold after
    by_cases htr : c.training = true
    · simp only [htr, if_true]
    · simp only [htr]
      rfl
  · rw [f3 k r hk b o q ho]
    simp only [outField, repOf_eq hk]

end

/-- **C56** NormBatchNorm.  (Missing: types with representations which are not orthogonal, see `C56_norm_not_orthogonal_violated`.)  For each accepted type of orthogonal representations, all `eps > 0` and momenta (also the
cumulative average), with or without parameters: after each history of calls in training or evaluation mode, with changing parameters, the running statistics are the same if each batch is transformed by a group element
of its own, and in the reached state a further call in training or evaluation mode commutes with the action. -/
theorem C56_norm_partial (t : FType S (Rep G Id)) (hpos : ∀ r ∈ t.reprs, 0 < r.size) (hort : Orthogonal El t) {eps : ℝ} (_heps : 0 < eps) {mo : Option ℝ} {affine : Bool} {m : NormBatchNorm S (Rep G Id)}
    (hm : init triv t eps mo affine = .ok m) : HistoryEquivariant (C := C) El t 1 (forward m) fresh := by
  have hU : ∀ (B P P' : Type) [Fintype B] [Fintype P] [Fintype P'] (par : NormBNPar) (st : NormBNState) g, El g → ∀ (σ : P' ≃ P) (x gx : FTensor B P), FieldAct t g x gx →
      after t mo par st (⟨gx.chans, fun b c p => gx.get b c (σ p)⟩ : FTensor B P') = after t mo par st x := by
    intro B P P' _ _ _ c st g hg σ x gx hact
    unfold after
    congr 2
    funext s
    congr 1
    funext n
    rcases h : (labelled (t.reprs.map Rep.size) s)[n]? with _ | k
    · rfl
    · obtain ⟨r, hr, rfl⟩ := labelled_rep h
      have hrm := List.mem_of_getElem? hr
      dsimp only
      congr 2
      unfold estimate
      rw [Fintype.card_congr σ]
      congr 2
      rw [← batchMean_perm σ]
      refine batchMean_congr fun b p => ?_
      rw [← (hort r hrm g hg).norm fun j => fieldOf t x k b j (σ p)]
      exact sum_congr rfl fun o ho => congrArg (· ^ 2) (hact k r hr b o (σ p) (mem_range.1 ho))
  refine HistoryEquivariant.of_fields hort.square (fun _ => True) trivial (fun B P _ _ c st x => after t mo c st x) (fun B P _ _ c st x => outField t eps mo affine c st x) ?_ hU ?_ fun _ _ _ _ _ _ _ _ => trivial
  · intro B P _ _ c junk st x hx hc _
    exact forward_spec hpos hm c junk st x hx hc
  · intro B P P' _ _ _ c st _ g hg σ x gx hact k r hr o ho b p
    simp only [outField, repOf_eq hr, hU B P P' c st g hg σ x gx hact]
    have hv : fieldOf t (⟨gx.chans, fun b c p => gx.get b c (σ p)⟩ : FTensor B P') k b o p = ∑ j ∈ range r.size, (r.mat g).get o j * fieldOf t x k b j (σ p) := hact k r hr b o (σ p) ho
    rw [hv, sum_mul]
    exact sum_congr rfl fun j _ => by ring

/-- **C56** For a representation which is not orthogonal (the irrep 1 of `C_4` in a stretched basis, declared to support 'norm') the running variance depends on the pose of the batch; the constructor accepts it. -/
theorem C56_norm_not_orthogonal_violated {eps : ℝ} {mo : ℝ} (hmo : mo ≠ 0) (affine : Bool) :
    ∃ m, init 0 (⟨(), [{ stretchRep with nonlin := {"norm"} }]⟩ : FType Unit (Rep ℤ ℕ)) eps (some mo) affine = .ok m ∧
      ¬ HistoryEquivariant (C := Unit) (fun g => Cyclic.isElement 4 g = true) (⟨(), [{ stretchRep with nonlin := {"norm"} }]⟩ : FType Unit (Rep ℤ ℕ)) 1 (forward m) fresh := by
  set r0 : Rep ℤ ℕ := { stretchRep with nonlin := {"norm"} } with hr0
  set t : FType Unit (Rep ℤ ℕ) := ⟨(), [r0]⟩ with ht
  have hwf : ∀ r ∈ t.reprs, r.WF (Cyclic.table 4) fun g => Cyclic.isElement 4 g = true := by
    intro r hr
    simp only [ht, List.mem_singleton] at hr
    subst hr
    exact ⟨stretchRep_wf.pos, stretchRep_wf.inv, stretchRep_wf.ok, stretchRep_wf.size, stretchRep_wf.mat⟩
  have hpos : ∀ r ∈ t.reprs, 0 < r.size := fun r hr => (hwf r hr).pos
  obtain ⟨tab, htab, -⟩ := runTable_spec (sz := Rep.size) t hpos (t.reprs.map Rep.size) (by simp)
  have hall : ∀ r ∈ t.reprs, "norm" ∈ r.nonlin ∧ (0 : ℕ) ∉ r.irreps := by
    intro r hr
    simp only [ht, List.mem_singleton] at hr
    subst hr
    exact ⟨by decide, by decide⟩
  obtain ⟨m, hm⟩ : ∃ m, init 0 t eps (some mo) affine = .ok m := by
    unfold init
    rw [if_pos hall]
    simp only [htab, bind, Except.bind]
    exact ⟨_, rfl⟩
  refine ⟨m, hm, fun h => ?_⟩
  have hsz : t.size Rep.size = 2 := by rw [FType.size_eq]; rfl
  let x : FTensor Unit Unit := ⟨2, fun _ c _ => if c = 0 then 1 else 0⟩
  obtain ⟨gx, f1, f2, f3⟩ := transformFibers_act (P := Unit) (GatedNL.wf_square hwf) (g := 1) (by decide) x hsz.symm
  let c : NormBNPar := ⟨true, fun _ _ => 1⟩
  obtain ⟨st, r1, r2, -⟩ := h [⟨Unit, Unit, Unit, inferInstance, inferInstance, inferInstance, c, fun _ _ _ => 0, fun _ _ _ => 0, x, (), (), hsz.symm, by simp, 1, by decide, gx, f1, Equiv.refl _⟩]
  obtain ⟨y, a1, -⟩ := forward_spec hpos hm c (fun _ _ _ => 0) fresh ⟨x, t, ()⟩ rfl hsz.symm
  obtain ⟨y', b1, -⟩ := forward_spec hpos hm c (fun _ _ _ => 0) fresh ⟨⟨gx.chans, fun b c p => gx.get b c p⟩, t, ()⟩ rfl f2
  simp only [List.map_cons, List.map_nil, StatModule.run, MovedBatch.before, MovedBatch.after, Equiv.refl_apply] at r1 r2
  rw [a1] at r1
  rw [b1] at r2
  have e1 : after t (some mo) c fresh x = st := Except.ok.inj r1
  have e2 : after t (some mo) c fresh (⟨gx.chans, fun b c p => gx.get b c p⟩ : FTensor Unit Unit) = st := Except.ok.inj r2
  have hact : ∀ o < 2, gx.get () o () = (stretchRep.mat 1).get o 0 := by
    intro o ho
    have := f3 0 r0 rfl () o () ho
    rw [show chanOffset Rep.size t.reprs 0 = 0 from rfl, zero_add] at this
    rw [this, show r0.size = 2 from rfl]
    simp [Finset.sum_range_succ, x, hr0]
  obtain ⟨s00, s01, s10, s11⟩ := stretchRep_one
  have hvar : ∀ z : FTensor Unit Unit, (after t (some mo) c fresh z).var 2 0 = 1 * (1 - mo) + mo * ((z.get () 0 () ^ 2 + z.get () 1 () ^ 2) / 2) := by
    intro z
    have hin : 2 ∈ t.reprs.map Rep.size := by decide
    have hlab : (labelled (t.reprs.map Rep.size) 2)[0]? = some 0 := by decide
    unfold after
    simp only [c, hin, if_true, hlab]
    show 1 * (1 - mo) + mo * _ = _
    simp [estimate, batchMean, Finset.sum_range_succ, fieldOf, show chanOffset Rep.size t.reprs 0 = 0 from rfl]
  have v1 := hvar x
  have v2 := hvar ⟨gx.chans, fun b c p => gx.get b c p⟩
  rw [e1] at v1
  rw [e2] at v2
  simp only [hact 0 (by norm_num), hact 1 (by norm_num), s00, s10, v1, x] at v2
  norm_num at v2
  exact hmo (by linarith)

/-- Two fields of the irrep 1 of `C_4`. -/
example : ∃ m, init 0 (⟨(), [irrepRep (Cyclic.table 4) "irrep_1" {"norm"} 1, irrepRep (Cyclic.table 4) "irrep_1" {"norm"} 1]⟩ : FType Unit (Rep ℤ ℕ)) (1 / 100000) none true = .ok m ∧
    HistoryEquivariant (C := Unit) (fun g => Cyclic.isElement 4 g = true) (⟨(), [irrepRep (Cyclic.table 4) "irrep_1" {"norm"} 1, irrepRep (Cyclic.table 4) "irrep_1" {"norm"} 1]⟩ : FType Unit (Rep ℤ ℕ)) 1
      (forward m) fresh := by
  set t : FType Unit (Rep ℤ ℕ) := ⟨(), [irrepRep (Cyclic.table 4) "irrep_1" {"norm"} 1, irrepRep (Cyclic.table 4) "irrep_1" {"norm"} 1]⟩ with ht
  have hr : ∀ r ∈ t.reprs, r = irrepRep (Cyclic.table 4) "irrep_1" {"norm"} 1 := by
    intro r hr
    simp only [ht, List.mem_cons, List.not_mem_nil, or_false, or_self] at hr
    exact hr
  have hpos : ∀ r ∈ t.reprs, 0 < r.size := fun r h => by rw [hr r h]; decide
  obtain ⟨tab, htab, -⟩ := runTable_spec (sz := Rep.size) t hpos (t.reprs.map Rep.size) (by simp)
  obtain ⟨m, hm⟩ : ∃ m, init 0 t (1 / 100000) none true = .ok m := by
    unfold init
    rw [if_pos fun r h => by rw [hr r h]; exact ⟨by decide, by decide⟩]
    simp only [htab, bind, Except.bind]
    exact ⟨_, rfl⟩
  refine ⟨m, hm, C56_norm_partial t hpos (fun r h g hg => ?_) (by norm_num) hm⟩
  rw [hr r h]
  have hv := Cyclic.table_valid 4 (by norm_num) 1 rfl
  exact (hv.ortho g hg).mat (hv.rows g hg) (hv.cols g hg)

end NormBatchNorm

end Escnn
