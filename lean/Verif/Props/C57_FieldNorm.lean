import Verif.Model.FieldNorm
import Verif.Lemmas.LabelLoop
import Verif.Lemmas.NormTables
import Verif.Props.C49_Norm
import Verif.Props.C50_Gated
import Verif.Lemmas.StretchRep

/-!
# C57: FieldNorm commutes with the action
-/

namespace Escnn

open Finset

variable {B P S G Id C : Type} [DecidableEq Id] {El : G → Prop} {op : G → G → G} {one : G} {T : IrrepTable G Id} {triv : Id}

namespace FieldNorm

theorem init_ok {uniq : List (Rep G Id)} {t : FType S (Rep G Id)} {eps : ℝ} {affine : Bool} {m : FieldNorm S (Rep G Id)} (h : init T.size triv uniq t eps affine = .ok m) :
    m.inType = t ∧ m.eps = eps ∧ m.affine = affine ∧ m.names = t.reprs.map Rep.name ∧ runTable Rep.size t (t.reprs.map Rep.name) = .ok m.table ∧ m.order = uniq.map Rep.name ∧
      m.tabs = (uniq.map fun r => (r.name, NormTab.of T.size triv r)) ∧ (∀ n i, m.weight n i = 1) ∧ ∀ n i c, m.bias n i c = 0 := by
  unfold init at h
  cases ht : runTable Rep.size t (t.reprs.map Rep.name) with
  | error e => simp [ht, bind, Except.bind] at h
  | ok tab =>
    simp only [ht, bind, Except.bind, Except.ok.injEq] at h
    subst h
    exact ⟨rfl, rfl, rfl, rfl, rfl, rfl, rfl, fun _ _ => rfl, fun _ _ _ => rfl⟩

theorem mean_congr {r : Rep G Id} (hr : r.WF T El) {v w : ℕ → ℝ} (h : ∀ o < r.size, v o = w o) (i : ℕ) : (NormTab.of T.size triv r).mean v i = (NormTab.of T.size triv r).mean w i := by
  unfold NormTab.mean
  rw [NormTab.avg_cols hr]
  congr 1
  exact sum_congr rfl fun j hj => by rw [h j (mem_range.1 hj)]

theorem normalize_congr {r : Rep G Id} (hr : r.WF T El) (eps : ℝ) (affine : Bool) (w : ℝ) (β : ℕ → ℝ) {v v' : ℕ → ℝ} (h : ∀ o < r.size, v o = v' o) {o : ℕ} (ho : o < r.size) :
    normalize (NormTab.of T.size triv r) eps affine w β v o = normalize (NormTab.of T.size triv r) eps affine w β v' o := by
  have hv : variance (NormTab.of T.size triv r) v = variance (NormTab.of T.size triv r) v' := by
    unfold variance
    congr 1
    exact sum_congr rfl fun i hi => by rw [h i (mem_range.1 hi), mean_congr hr h]
  unfold normalize
  rw [h o ho, mean_congr hr h, hv]

theorem forward_spec {t : FType S (Rep G Id)} (hwf : ∀ r ∈ t.reprs, r.WF T El) (hn : NamesApart t.reprs) {uniq : List (Rep G Id)} (hnd : uniq.Nodup) (hu : ∀ r, r ∈ uniq ↔ r ∈ t.reprs) {eps : ℝ}
    {affine : Bool} {m : FieldNorm S (Rep G Id)} (hm : init T.size triv uniq t eps affine = .ok m) (w : String → ℕ → ℝ) (β : String → ℕ → ℕ → ℝ) (junk : B → ℕ → P → ℝ) (x : GTensor B P S (Rep G Id) C)
    (hx : x.type = t) (hc : x.tensor.chans = t.size Rep.size) :
    ∃ y, forward junk { m with weight := w, bias := β } x = .ok y ∧ y.type = t ∧ y.coords = x.coords ∧ y.tensor.chans = t.size Rep.size ∧
      ∀ (k : ℕ) (r : Rep G Id), t.reprs[k]? = some r → ∀ o < r.size, ∀ b q, y.tensor.get b (chanOffset Rep.size t.reprs k + o) q =
        normalize (NormTab.of T.size triv r) eps affine (w r.name ((labelled (t.reprs.map Rep.name) r.name).idxOf k)) (β r.name ((labelled (t.reprs.map Rep.name) r.name).idxOf k))
          (fun o => x.tensor.get b (chanOffset Rep.size t.reprs k + o) q) o := by
  obtain ⟨h1, h2, h3, h4, h5, h6, h7, -⟩ := init_ok hm
  obtain ⟨res, f1, f2, f3⟩ := nameLoop_run (fun r hr => (hwf r hr).pos) hn hnd hu h5 (F := ({ m with weight := w, bias := β } : FieldNorm S (Rep G Id)).step)
    (x := x.tensor) (out := ⟨x.tensor.chans, junk⟩) hc hc
    (fun r n k b o q => normalize (NormTab.of T.size triv r) eps affine (w r.name n) (β r.name n) (fun o => x.tensor.get b (chanOffset Rep.size t.reprs k + o) q) o)
    (by
      intro r hr d f e1 e2 e3 e4
      have htab := nameTab_get hn hu (NormTab.of T.size triv) hr
      refine ⟨⟨f.n, f.size, fun b n o p => normalize (NormTab.of T.size triv r) m.eps m.affine (w r.name n) (β r.name n) (fun o => f.get b n o p) o⟩, ?_, rfl, e3, fun n k hnk b o q ho => ?_⟩
      · have e1' : d.toFields (List.count r.name (List.map Rep.name t.reprs)) (NormTab.of T.size triv r).size = .ok f := e1
        simp only [step, h7, h4, tabGet_ok.2 htab, bind, Except.bind, e1']
      · simp only [h2, h3]
        exact normalize_congr (hwf r hr) _ _ _ _ (fun o ho => e4 n k hnk b o q ho) ho)
  refine ⟨⟨res, t, x.coords⟩, ?_, rfl, rfl, f2, fun k r hk o ho b q => f3 k r hk b o q ho⟩
  unfold forward
  rw [← h6] at f1
  rw [if_pos (hx.trans h1.symm)]
  simp only [f1, bind, Except.bind]
  rw [h1]
  exact if_pos f2

/-- The statistics of a transformed field. -/
theorem variance_act (hT : T.Valid El op one) (ht : T.IsTrivial El triv) {r : Rep G Id} (hr : r.WF T El) {g : G} (hg : El g) (ho : IsOrthMat r.size (r.mat g)) {v w : ℕ → ℝ}
    (hw : ∀ o < r.size, w o = ∑ j ∈ range r.size, (r.mat g).get o j * v j) : variance (NormTab.of T.size triv r) w = variance (NormTab.of T.size triv r) v := by
  unfold variance
  congr 1
  show ∑ o ∈ range r.size, _ = ∑ o ∈ range r.size, _
  rw [← ho.norm fun o => v o - (NormTab.of T.size triv r).mean v o]
  refine sum_congr rfl fun o ho => ?_
  have ho := mem_range.1 ho
  rw [hw o ho, NormTab.mean_act hT ht hr hg hw, ← NormTab.mean_fixed hT ht hr hg v ho, ← sum_sub_distrib]
  congr 1
  exact sum_congr rfl fun j _ => by ring

theorem normalize_act (hT : T.Valid El op one) (ht : T.IsTrivial El triv) {r : Rep G Id} (hr : r.WF T El) {g : G} (hg : El g) (ho : IsOrthMat r.size (r.mat g)) (eps : ℝ) (affine : Bool) (a : ℝ)
    (β : ℕ → ℝ) {v w : ℕ → ℝ} (hw : ∀ o < r.size, w o = ∑ j ∈ range r.size, (r.mat g).get o j * v j) {o : ℕ} (hor : o < r.size) :
    normalize (NormTab.of T.size triv r) eps affine a β w o = ∑ j ∈ range r.size, (r.mat g).get o j * normalize (NormTab.of T.size triv r) eps affine a β v j := by
  unfold normalize
  rw [variance_act hT ht hr hg ho hw, hw o hor, NormTab.mean_act hT ht hr hg hw, ← NormTab.mean_fixed hT ht hr hg v hor, ← NormTab.shift_fixed hT ht hr hg affine β hor, ← sum_sub_distrib,
    sum_mul, ← sum_add_distrib]
  exact sum_congr rfl fun j _ => by ring

/-- **C57** (Missing: types with representations which are not orthogonal, see `C57_not_orthogonal_violated`.)  For each type of orthogonal representations with distinct names, all `eps > 0`, weights and biases, contents of the uninitialised memory, inputs and group elements, the module commutes with the action;
it computes at each position from the values at that position. -/
theorem C57_equivariant_partial (hT : T.Valid El op one) (ht : T.IsTrivial El triv) (t : FType S (Rep G Id)) (hwf : ∀ r ∈ t.reprs, r.WF T El) (hort : Orthogonal El t) (hn : NamesApart t.reprs)
    {uniq : List (Rep G Id)} (hnd : uniq.Nodup) (hu : ∀ r, r ∈ uniq ↔ r ∈ t.reprs) {eps : ℝ} (_heps : 0 < eps) {affine : Bool} {m : FieldNorm S (Rep G Id)} (hm : init T.size triv uniq t eps affine = .ok m)
    (w : String → ℕ → ℝ) (β : String → ℕ → ℕ → ℝ) (junk : B → ℕ → P → ℝ) :
    FibreEquivariant (B := B) (P := P) (C := C) El t t (forward junk { m with weight := w, bias := β }) ∧
      PositionLocal (B := B) (P := P) (C := C) Rep.size t (forward junk { m with weight := w, bias := β }) := by
  let rOf : ℕ → Rep G Id := fun k => (t.reprs[k]?).getD ⟨"", [], NpMat.eye 0, NpMat.eye 0, fun _ => NpMat.eye 0, ∅⟩
  let Φ : FTensor B P → ℕ → ℕ → B → P → ℝ := fun x k o b q => normalize (NormTab.of T.size triv (rOf k)) eps affine (w (rOf k).name ((labelled (t.reprs.map Rep.name) (rOf k).name).idxOf k))
      (β (rOf k).name ((labelled (t.reprs.map Rep.name) (rOf k).name).idxOf k)) (fun o => x.get b (chanOffset Rep.size t.reprs k + o) q) o
  have hf : ∀ x : GTensor B P S (Rep G Id) C, x.type = t → x.tensor.chans = t.size Rep.size → ∃ y, forward junk { m with weight := w, bias := β } x = .ok y ∧ y.type = t ∧ y.coords = x.coords ∧
      y.tensor.chans = t.size Rep.size ∧
      ∀ (k : ℕ) (r : Rep G Id), t.reprs[k]? = some r → ∀ o < r.size, ∀ b p, y.tensor.get b (chanOffset Rep.size t.reprs k + o) p = Φ x.tensor k o b p := by
    intro x hx hc
    obtain ⟨y, e1, e2, e3, e4, e5⟩ := forward_spec hwf hn hnd hu hm w β junk x hx hc
    refine ⟨y, e1, e2, e3, e4, fun k r hk o ho b q => ?_⟩
    rw [e5 k r hk o ho b q]
    simp only [Φ, rOf, hk, Option.getD_some]
  refine ⟨FibreEquivariant.of_fields hort.square hort.square Φ hf ?_, PositionLocal.of_fields Φ hf fun σ x k o b q => rfl⟩
  intro g hg x gx _ _ hact k r hk o ho b q
  have hr := hwf r (List.mem_of_getElem? hk)
  simp only [Φ, rOf, hk, Option.getD_some]
  exact normalize_act hT ht hr hg (hort r (List.mem_of_getElem? hk) g hg) _ _ _ _ (fun o ho => hact k r hk b o q ho) ho

/-- **C57** What is computed: for each representation `r` of the type there is a linear map `mean` with invariant values, which does not change under the action and fixes the invariant vectors (the projection on the
invariant part), such that each field `v` with representation `r` is mapped to `(v - mean v) * weight / sqrt(|v - mean v|² / size + eps) + bias` with an invariant vector `bias`; directly after the construction, `weight`
is 1 and `bias` is 0. -/
theorem C57_values (hT : T.Valid El op one) (ht : T.IsTrivial El triv) (hni : T.NoInvariants El triv) (t : FType S (Rep G Id)) (hwf : ∀ r ∈ t.reprs, r.WF T El) (hn : NamesApart t.reprs)
    {uniq : List (Rep G Id)} (hnd : uniq.Nodup) (hu : ∀ r, r ∈ uniq ↔ r ∈ t.reprs) {eps : ℝ} (_heps : 0 < eps) {affine : Bool} {m : FieldNorm S (Rep G Id)} (hm : init T.size triv uniq t eps affine = .ok m)
    (w : String → ℕ → ℝ) (β : String → ℕ → ℕ → ℝ) : ∃ (mean : Rep G Id → (ℕ → ℝ) → ℕ → ℝ) (weight : ℕ → ℝ) (bias : ℕ → ℕ → ℝ),
    (∀ r ∈ t.reprs, (∀ (v v' : ℕ → ℝ) (a : ℝ) (o : ℕ), mean r (fun i => a * v i + v' i) o = a * mean r v o + mean r v' o) ∧
      (∀ v g, El g → ∀ o < r.size, ∑ j ∈ range r.size, (r.mat g).get o j * mean r v j = mean r v o) ∧
      (∀ v g, El g → ∀ o < r.size, mean r (fun i => ∑ j ∈ range r.size, (r.mat g).get i j * v j) o = mean r v o) ∧
      ∀ v, (∀ g, El g → ∀ o < r.size, ∑ j ∈ range r.size, (r.mat g).get o j * v j = v o) → ∀ o < r.size, mean r v o = v o) ∧
    (∀ (k : ℕ) r, t.reprs[k]? = some r → ∀ g, El g → ∀ o < r.size, ∑ j ∈ range r.size, (r.mat g).get o j * bias k j = bias k o) ∧
    ((affine = false ∨ w = m.weight ∧ β = m.bias) → ∀ k o, weight k = 1 ∧ bias k o = 0) ∧
    ∀ (junk : B → ℕ → P → ℝ) (x : GTensor B P S (Rep G Id) C), x.type = t → x.tensor.chans = t.size Rep.size → ∃ y, forward junk { m with weight := w, bias := β } x = .ok y ∧ y.type = t ∧
      y.coords = x.coords ∧ y.tensor.chans = x.tensor.chans ∧ ∀ (k : ℕ) r, t.reprs[k]? = some r → ∀ b q,
        let v : ℕ → ℝ := fun o => x.tensor.get b (((t.reprs.take k).map Rep.size).sum + o) q
        ∀ o < r.size, y.tensor.get b (((t.reprs.take k).map Rep.size).sum + o) q =
          (v o - mean r v o) * weight k / Real.sqrt ((∑ i ∈ range r.size, (v i - mean r v i) ^ 2) / r.size + eps) + bias k o := by
  let rOf : ℕ → Rep G Id := fun k => (t.reprs[k]?).getD ⟨"", [], NpMat.eye 0, NpMat.eye 0, fun _ => NpMat.eye 0, ∅⟩
  refine ⟨fun r => (NormTab.of T.size triv r).mean, fun k => if affine then w (rOf k).name ((labelled (t.reprs.map Rep.name) (rOf k).name).idxOf k) else 1,
    fun k => (NormTab.of T.size triv (rOf k)).shift affine (β (rOf k).name ((labelled (t.reprs.map Rep.name) (rOf k).name).idxOf k)), fun r hr => ⟨?_, ?_, ?_, ?_⟩, ?_, ?_, ?_⟩
  · intro v v' a o
    simp only [NormTab.mean]
    split_ifs
    · rw [mul_sum, ← sum_add_distrib]
      exact sum_congr rfl fun j _ => by ring
    · simp
  · intro v g hg o ho
    exact NormTab.mean_fixed hT ht (hwf r hr) hg v ho
  · intro v g hg o ho
    exact NormTab.mean_act hT ht (hwf r hr) hg (fun _ _ => rfl) o
  · intro v hv o ho
    exact NormTab.mean_of_fixed hT ht hni (hwf r hr) hv ho
  · intro k r hk g hg o ho
    simp only [rOf, hk, Option.getD_some]
    exact NormTab.shift_fixed hT ht (hwf r (List.mem_of_getElem? hk)) hg affine _ ho
  · obtain ⟨-, -, -, -, -, -, -, h8, h9⟩ := init_ok hm
    rintro (h | ⟨rfl, rfl⟩) k o
    · simp [h, NormTab.shift]
    · simp [h8, h9, NormTab.shift]
  · intro junk x hx hc
    obtain ⟨y, e1, e2, e3, e4, e5⟩ := forward_spec hwf hn hnd hu hm w β junk x hx hc
    refine ⟨y, e1, e2, e3, e4.trans hc.symm, fun k r hk b q => ?_⟩
    intro v o ho
    have := e5 k r hk o ho b q
    simp only [rOf, hk, Option.getD_some]
    rw [mul_div_assoc]
    exact this

/-- **C57** For a representation which is not orthogonal (the irrep 1 of `C_4` in a stretched basis) the variance is not invariant, and the module does not commute with the action; the constructor accepts it. -/
theorem C57_not_orthogonal_violated {eps : ℝ} (heps : 0 < eps) (affine : Bool) : ∃ m, init (Cyclic.table 4).size 0 [stretchRep] (⟨(), [stretchRep]⟩ : FType Unit (Rep ℤ ℕ)) eps affine = .ok m ∧
    ¬ FibreEquivariant (B := Unit) (P := Unit) (C := Unit) (fun g => Cyclic.isElement 4 g = true) (⟨(), [stretchRep]⟩ : FType Unit (Rep ℤ ℕ)) ⟨(), [stretchRep]⟩ (forward (fun _ _ _ => 0) m) := by
  set t : FType Unit (Rep ℤ ℕ) := ⟨(), [stretchRep]⟩ with ht
  have hwf : ∀ r ∈ t.reprs, r.WF (Cyclic.table 4) fun g => Cyclic.isElement 4 g = true := by
    intro r hr
    simp only [ht, List.mem_singleton] at hr
    subst hr
    exact stretchRep_wf
  have hn : NamesApart t.reprs := by
    intro r hr r' hr' _
    simp only [ht, List.mem_singleton] at hr hr'
    rw [hr, hr']
  obtain ⟨tab, htab, -⟩ := runTable_spec (sz := Rep.size) t (fun r hr => (hwf r hr).pos) (t.reprs.map Rep.name) (by simp)
  have hm : init (Cyclic.table 4).size 0 [stretchRep] t eps affine = .ok ⟨t, eps, affine, t.reprs.map Rep.name, tab, [stretchRep].map Rep.name, [stretchRep].map fun r => (r.name, NormTab.of (Cyclic.table 4).size 0 r), fun _ _ => 1, fun _ _ _ => 0⟩ := by
    simp only [init, htab, bind, Except.bind]
  refine ⟨_, hm, fun h => ?_⟩
  have hsz : t.size Rep.size = 2 := by rw [FType.size_eq]; rfl
  have hsq := GatedNL.wf_square hwf
  let x : FTensor Unit Unit := ⟨2, fun _ c _ => if c = 0 then 1 else 0⟩
  obtain ⟨y, gx, gy, gy', e1, e2, e3, e4, e5, e6, e7, e8, e9⟩ := h ⟨x, t, ()⟩ rfl hsz.symm 1 (by decide)
  obtain ⟨gx', f1, f2, f3⟩ := transformFibers_act (P := Unit) hsq (g := 1) (by decide) x hsz.symm
  obtain rfl : gx = ⟨gx', t, ()⟩ := by
    simp only [GTensor.transformFibers, bind, Except.bind, f1] at e4
    rw [GTensor.mk', if_pos f2] at e4
    exact (Except.ok.inj e4).symm
  obtain ⟨gyt, k1, k2, k3⟩ := transformFibers_act (P := Unit) hsq (g := 1) (by decide) y.tensor e3
  have hgy' : gy'.tensor = gyt := by
    simp only [GTensor.transformFibers, e2, bind, Except.bind, k1] at e6
    rw [GTensor.mk', if_pos k2] at e6
    rw [← Except.ok.inj e6]
  obtain ⟨y', a1, a2, a3, a4, a5⟩ := forward_spec hwf hn (List.nodup_singleton _) (fun _ => Iff.rfl) hm (fun _ _ => 1) (fun _ _ _ => 0) (fun _ _ _ => 0) ⟨x, t, ()⟩ rfl hsz.symm
  obtain rfl : y = y' := Except.ok.inj (e1.symm.trans a1)
  obtain ⟨z', b1, b2, b3, b4, b5⟩ := forward_spec hwf hn (List.nodup_singleton _) (fun _ => Iff.rfl) hm (fun _ _ => 1) (fun _ _ _ => 0) (fun _ _ _ => 0) ⟨gx', t, ()⟩ rfl f2
  obtain rfl : gy = z' := Except.ok.inj (e5.symm.trans b1)
  have hz := e9.2 () 1 () (by rw [b4, hsz]; norm_num)
  have hoff : chanOffset Rep.size t.reprs 0 = 0 := rfl
  have hact : ∀ o < 2, gx'.get () o () = (stretchRep.mat 1).get o 0 := by
    intro o ho
    have := f3 0 stretchRep rfl () o () ho
    rw [hoff, zero_add] at this
    rw [this, stretchRep_size]
    simp [Finset.sum_range_succ, x]
  obtain ⟨s00, s01, s10, s11⟩ := stretchRep_one
  have hno : ∀ v : ℕ → ℝ, ∀ i, (NormTab.of (Cyclic.table 4).size 0 stretchRep).mean v i = 0 := fun v i => if_neg (by decide)
  have hsh : ∀ i, (NormTab.of (Cyclic.table 4).size 0 stretchRep).shift affine (fun _ => 0) i = 0 := fun i => if_neg (by rintro ⟨-, h⟩; revert h; decide)
  have hnm : ∀ v : ℕ → ℝ, ∀ o, normalize (NormTab.of (Cyclic.table 4).size 0 stretchRep) eps affine 1 (fun _ => 0) v o = v o * (1 / Real.sqrt ((v 0 ^ 2 + v 1 ^ 2) / 2 + eps)) := by
    intro v o
    unfold normalize variance
    simp only [hno, hsh, sub_zero, add_zero, ite_self]
    show v o * (1 / Real.sqrt ((∑ i ∈ range 2, v i ^ 2) / ((2 : ℕ) : ℝ) + eps)) = _
    simp [Finset.sum_range_succ]
  have l1 := b5 0 stretchRep rfl 1 (by decide) () ()
  rw [hnm, hoff] at l1
  simp only [zero_add] at l1
  rw [hact 0 (by norm_num), hact 1 (by norm_num), s00, s10] at l1
  have l2 := k3 0 stretchRep rfl () 1 () (by decide)
  rw [hoff, zero_add, stretchRep_size] at l2
  have l3 := a5 0 stretchRep rfl 0 (by decide) () ()
  rw [hnm, hoff] at l3
  simp only [zero_add, x] at l3
  rw [hgy', l2, l1] at hz
  simp only [Finset.sum_range_succ, Finset.sum_range_zero, s10, s11, l3, zero_add, zero_mul, add_zero] at hz
  have h1 : Real.sqrt (((0 : ℝ) ^ 2 + 2 ^ 2) / 2 + eps) = Real.sqrt (1 / 2 + eps) := by
    have p1 : 0 < Real.sqrt (((0 : ℝ) ^ 2 + 2 ^ 2) / 2 + eps) := Real.sqrt_pos.2 (by positivity)
    have p2 : 0 < Real.sqrt (1 / 2 + eps) := Real.sqrt_pos.2 (by positivity)
    norm_num at hz
    norm_num
    exact hz
  have h2 := congrArg (· ^ 2) h1
  rw [Real.sq_sqrt (by positivity), Real.sq_sqrt (by positivity)] at h2
  norm_num at h2

/-- Fields of the irreps 0 and 1 of `C_4`. -/
example : ∃ m, init (Cyclic.table 4).size 0 convDemo.reprs convDemo (1 / 100000) true = .ok m ∧ ∀ (w : String → ℕ → ℝ) (β : String → ℕ → ℕ → ℝ),
    FibreEquivariant (B := Unit) (P := Unit) (C := Unit) (fun g => Cyclic.isElement 4 g = true) convDemo convDemo (forward (fun _ _ _ => 7) { m with weight := w, bias := β }) := by
  obtain ⟨tab, htab, -⟩ := runTable_spec (sz := Rep.size) convDemo (fun r hr => (convDemo_wf r hr).pos) (convDemo.reprs.map Rep.name) (by simp)
  have hm : ∃ m, init (Cyclic.table 4).size 0 convDemo.reprs convDemo (1 / 100000) true = .ok m := ⟨_, by simp only [init, htab, bind, Except.bind]; rfl⟩
  obtain ⟨m, hm⟩ := hm
  exact ⟨m, hm, fun w β => (C57_equivariant_partial (Cyclic.table_valid 4 (by norm_num)) (Cyclic.trivial 4) convDemo convDemo_wf convDemo_orth convDemo_names.1 convDemo_names.2 (fun _ => Iff.rfl)
    (by norm_num) hm w β _).1⟩

end FieldNorm

end Escnn
