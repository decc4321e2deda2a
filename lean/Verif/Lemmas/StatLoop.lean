import Verif.Model.StatLoop
import Verif.Lemmas.LabelLoop
import Verif.Lemmas.Equivariant
import Verif.Spec.History

/-!
# The batch normalizations: the loop over the labels, and histories
-/

namespace Escnn

variable {B P S R L A : Type} [DecidableEq L] {sz : R → ℕ}

/-- The field `k` of a batch. -/
def fieldOf {G Id : Type} (t : FType S (Rep G Id)) (x : FTensor B P) (k : ℕ) : B → ℕ → P → ℝ := fun b o p => x.get b (chanOffset Rep.size t.reprs k + o) p

/-- The representation of field `k`. -/
def repOf {G Id : Type} (t : FType S (Rep G Id)) (k : ℕ) : Rep G Id := (t.reprs[k]?).getD ⟨"", [], NpMat.eye 0, NpMat.eye 0, fun _ => NpMat.eye 0, ∅⟩

theorem repOf_eq {G Id : Type} {t : FType S (Rep G Id)} {k : ℕ} {r : Rep G Id} (h : t.reprs[k]? = some r) : repOf t k = r := by rw [repOf, h]; rfl

theorem labelled_rep {M L : Type} [DecidableEq L] {rs : List M} {f : M → L} {l : L} {n k : ℕ} (h : (labelled (rs.map f) l)[n]? = some k) : ∃ r, rs[k]? = some r ∧ f r = l := by
  have hk := mem_labelled.1 (List.mem_of_getElem? h)
  rw [List.getElem?_map] at hk
  exact Option.map_eq_some_iff.1 hk

theorem statLoop_eq {F : L → A → FTensor B P → Except Err (A × FTensor B P)} {tab : List (L × Bool × List ℕ)} {x : FTensor B P} (new : L → A) (st : L → A) (ls : List L) (hnd : ls.Nodup) (out : FTensor B P)
    (hF : ∀ l ∈ ls, ∃ i d e, tabGet tab l = .ok i ∧ readIdx x i.1 i.2 = .ok d ∧ F l (st l) d = .ok (new l, e)) {res : FTensor B P}
    (h : groupedLoop (fun l d => do let e ← F l (st l) d; .ok e.2) tab tab x out ls = .ok res) :
    statLoop F tab x st out ls = .ok (fun l => if l ∈ ls then new l else st l, res) := by
  have gen : ∀ (ls : List L), ls.Nodup → ∀ (st' : L → A) (out : FTensor B P), (∀ l ∈ ls, st' l = st l) → (∀ l ∈ ls, ∃ i d e, tabGet tab l = .ok i ∧ readIdx x i.1 i.2 = .ok d ∧ F l (st l) d = .ok (new l, e)) →
      groupedLoop (fun l d => do let e ← F l (st l) d; .ok e.2) tab tab x out ls = .ok res → statLoop F tab x st' out ls = .ok (fun l => if l ∈ ls then new l else st' l, res) := by
    intro ls
    induction ls with
    | nil =>
      intro _ st' out _ _ h
      simp only [groupedLoop, Except.ok.injEq] at h
      subst h
      simp [statLoop]
    | cons l ls ih =>
      intro hnd st' out hst hF h
      obtain ⟨i, d, e, e1, e2, e3⟩ := hF l (by simp)
      rw [List.nodup_cons] at hnd
      simp only [groupedLoop, e1, e2, e3, bind, Except.bind] at h
      cases hw : writeIdx out i.1 i.2 e with
      | error er => simp [hw] at h
      | ok out' =>
        simp only [hw] at h
        have hst' : F l (st' l) d = .ok (new l, e) := by rw [hst l (by simp), e3]
        simp only [statLoop, e1, e2, hst', hw, bind, Except.bind]
        have hupd : ∀ l' ∈ ls, Function.update st' l (new l) l' = st l' := by
          intro l' hl'
          rw [Function.update_of_ne (by rintro rfl; exact hnd.1 hl'), hst l' (by simp [hl'])]
        have := ih hnd.2 (Function.update st' l (new l)) out' hupd (fun l' hl' => hF l' (by simp [hl'])) h
        rw [this]
        congr 2
        funext l'
        by_cases hl : l' = l
        · subst hl
          simp [hnd.1]
        · by_cases hm : l' ∈ ls <;> simp [hl, hm]
  exact gen ls hnd st out (fun _ _ => rfl) hF h

/-- The loop in terms of fields. -/
theorem statLoop_tab {t : FType S R} {labels : List L} (hl : labels.length = t.reprs.length) {s : L → ℕ}
    (hs : ∀ (k : ℕ) l r, labels[k]? = some l → t.reprs[k]? = some r → sz r = s l) {tab : List (L × Bool × List ℕ)} (ht : Tab sz t.reprs labels tab) {order : List L} (hnd : order.Nodup)
    (hmem : ∀ l, l ∈ order ↔ l ∈ labels) {F : L → A → FTensor B P → Except Err (A × FTensor B P)} {x out : FTensor B P} (hx : x.chans = t.size sz) (ho : out.chans = t.size sz)
    (st new : L → A) (φ : L → ℕ → ℕ → B → ℕ → P → ℝ)
    (hF : ∀ l ∈ labels, ∀ (d : FTensor B P) (f : FieldsT B P), d.toFields (labels.count l) (s l) = .ok f → f.n = labels.count l → f.size = s l →
      (∀ n k : ℕ, (labelled labels l)[n]? = some k → ∀ b o p, o < s l → f.get b n o p = x.get b (chanOffset sz t.reprs k + o) p) →
      ∃ e : FieldsT B P, F l (st l) d = .ok (new l, e.flat) ∧ e.n = f.n ∧ e.size = s l ∧ ∀ n k : ℕ, (labelled labels l)[n]? = some k → ∀ b o p, o < s l → e.get b n o p = φ l n k b o p) :
    ∃ res, statLoop F tab x st out order = .ok (fun l => if l ∈ labels then new l else st l, res) ∧ res.chans = t.size sz ∧
      ∀ (k : ℕ) l, labels[k]? = some l → ∀ b o p, o < s l → res.get b (chanOffset sz t.reprs k + o) p = φ l ((labelled labels l).idxOf k) k b o p := by
  obtain ⟨res, h1, h2, h3⟩ := labelLoop_tab hl hs ht hnd hmem (F := fun l d => do let e ← F l (st l) d; .ok e.2) hx ho φ (by
    intro l hlm d f e1 e2 e3 e4
    obtain ⟨e, g1, g2, g3, g4⟩ := hF l hlm d f e1 e2 e3 e4
    exact ⟨e, by simp only [g1, bind, Except.bind], g2, g3, g4⟩)
  refine ⟨res, ?_, h2, h3⟩
  rw [statLoop_eq new st order hnd out (fun l hlm => ?_) h1]
  · simp only [hmem]
  · obtain ⟨i, d, f, e1, e2, e3, e4, e5, e6⟩ := labelRead_tab (sz := sz) (t := t) hl hs ht hx ((hmem l).1 hlm)
    obtain ⟨e, g1, -⟩ := hF l ((hmem l).1 hlm) d f e3 e4 e5 e6
    exact ⟨i, d, e.flat, e1, e2, g1⟩

/-- The same for the tables of `runTable`. -/
theorem statLoop_run {t : FType S R} (hpos : ∀ r ∈ t.reprs, 0 < sz r) {labels : List L} (hl : labels.length = t.reprs.length) {s : L → ℕ}
    (hs : ∀ (k : ℕ) l r, labels[k]? = some l → t.reprs[k]? = some r → sz r = s l) {tab : List (L × Bool × List ℕ)} (htab : runTable sz t labels = .ok tab) {order : List L} (hnd : order.Nodup)
    (hmem : ∀ l, l ∈ order ↔ l ∈ labels) {F : L → A → FTensor B P → Except Err (A × FTensor B P)} {x out : FTensor B P} (hx : x.chans = t.size sz) (ho : out.chans = t.size sz)
    (st new : L → A) (φ : L → ℕ → ℕ → B → ℕ → P → ℝ)
    (hF : ∀ l ∈ labels, ∀ (d : FTensor B P) (f : FieldsT B P), d.toFields (labels.count l) (s l) = .ok f → f.n = labels.count l → f.size = s l →
      (∀ n k : ℕ, (labelled labels l)[n]? = some k → ∀ b o p, o < s l → f.get b n o p = x.get b (chanOffset sz t.reprs k + o) p) →
      ∃ e : FieldsT B P, F l (st l) d = .ok (new l, e.flat) ∧ e.n = f.n ∧ e.size = s l ∧ ∀ n k : ℕ, (labelled labels l)[n]? = some k → ∀ b o p, o < s l → e.get b n o p = φ l n k b o p) :
    ∃ res, statLoop F tab x st out order = .ok (fun l => if l ∈ labels then new l else st l, res) ∧ res.chans = t.size sz ∧
      ∀ (k : ℕ) l, labels[k]? = some l → ∀ b o p, o < s l → res.get b (chanOffset sz t.reprs k + o) p = φ l ((labelled labels l).idxOf k) k b o p := by
  obtain ⟨d, hd, ht⟩ := runTable_spec (sz := sz) t hpos labels hl
  rw [htab] at hd
  obtain rfl := Except.ok.inj hd
  exact statLoop_tab hl hs ht hnd hmem hx ho st new φ hF

/-- The loop which updates the buffers, in terms of fields. -/
theorem updLoop_tab {t : FType S R} {labels : List L} (hl : labels.length = t.reprs.length) {s : L → ℕ} (hs : ∀ (k : ℕ) l r, labels[k]? = some l → t.reprs[k]? = some r → sz r = s l)
    {tab : List (L × Bool × List ℕ)} (ht : Tab sz t.reprs labels tab) {order : List L} (hnd : order.Nodup) (hmem : ∀ l, l ∈ order ↔ l ∈ labels) {F : L → A → FTensor B P → Except Err A} {x : FTensor B P}
    (hx : x.chans = t.size sz) (st new : L → A)
    (hF : ∀ l ∈ labels, ∀ (d : FTensor B P) (f : FieldsT B P), d.toFields (labels.count l) (s l) = .ok f → f.n = labels.count l → f.size = s l →
      (∀ n k : ℕ, (labelled labels l)[n]? = some k → ∀ b o p, o < s l → f.get b n o p = x.get b (chanOffset sz t.reprs k + o) p) → F l (st l) d = .ok (new l)) :
    updLoop F tab x st order = .ok fun l => if l ∈ labels then new l else st l := by
  have gen : ∀ (ls : List L), ls.Nodup → (∀ l ∈ ls, l ∈ labels) → ∀ st' : L → A, (∀ l ∈ ls, st' l = st l) → updLoop F tab x st' ls = .ok fun l => if l ∈ ls then new l else st' l := by
    intro ls
    induction ls with
    | nil =>
      intro _ _ st' _
      simp [updLoop]
    | cons l ls ih =>
      intro hnd hsub st' hst
      rw [List.nodup_cons] at hnd
      obtain ⟨i, d, f, e1, e2, e3, e4, e5, e6⟩ := labelRead_tab (sz := sz) (t := t) hl hs ht hx (hsub l (by simp))
      have hF' : F l (st' l) d = .ok (new l) := by rw [hst l (by simp)]; exact hF l (hsub l (by simp)) d f e3 e4 e5 e6
      simp only [updLoop, e1, e2, hF', bind, Except.bind]
      rw [ih hnd.2 (fun l' hl' => hsub l' (by simp [hl'])) (Function.update st' l (new l)) fun l' hl' => by
        rw [Function.update_of_ne (by rintro rfl; exact hnd.1 hl'), hst l' (by simp [hl'])]]
      congr 1
      funext l'
      by_cases hl : l' = l
      · subst hl
        simp [hnd.1]
      · by_cases hm : l' ∈ ls <;> simp [hl, hm]
  rw [gen order hnd (fun l h => (hmem l).1 h) st fun _ _ => rfl]
  simp only [hmem]

/-- The loop over the names in terms of fields. -/
theorem nameStat_run {G Id : Type} {t : FType S (Rep G Id)} (hpos : ∀ r ∈ t.reprs, 0 < r.size) (hn : NamesApart t.reprs) {uniq : List (Rep G Id)} (hnd : uniq.Nodup) (hu : ∀ r, r ∈ uniq ↔ r ∈ t.reprs)
    {tab : List (String × Bool × List ℕ)} (htab : runTable Rep.size t (t.reprs.map Rep.name) = .ok tab) {F : String → A → FTensor B P → Except Err (A × FTensor B P)} {x out : FTensor B P}
    (hx : x.chans = t.size Rep.size) (ho : out.chans = t.size Rep.size) (st new : String → A) (φ : Rep G Id → ℕ → ℕ → B → ℕ → P → ℝ)
    (hF : ∀ r ∈ t.reprs, ∀ (d : FTensor B P) (f : FieldsT B P), d.toFields ((t.reprs.map Rep.name).count r.name) r.size = .ok f → f.n = (t.reprs.map Rep.name).count r.name → f.size = r.size →
      (∀ n k : ℕ, (labelled (t.reprs.map Rep.name) r.name)[n]? = some k → ∀ b o p, o < r.size → f.get b n o p = x.get b (chanOffset Rep.size t.reprs k + o) p) →
      ∃ e : FieldsT B P, F r.name (st r.name) d = .ok (new r.name, e.flat) ∧ e.n = f.n ∧ e.size = r.size ∧
        ∀ n k : ℕ, (labelled (t.reprs.map Rep.name) r.name)[n]? = some k → ∀ b o p, o < r.size → e.get b n o p = φ r n k b o p) :
    ∃ res, statLoop F tab x st out (uniq.map Rep.name) = .ok (fun l => if l ∈ t.reprs.map Rep.name then new l else st l, res) ∧ res.chans = t.size Rep.size ∧
      ∀ (k : ℕ) r, t.reprs[k]? = some r → ∀ b o p, o < r.size → res.get b (chanOffset Rep.size t.reprs k + o) p = φ r ((labelled (t.reprs.map Rep.name) r.name).idxOf k) k b o p := by
  obtain ⟨s, hs⟩ := nameSize hn
  let rOf : ℕ → Rep G Id := fun k => (t.reprs[k]?).getD ⟨"", [], NpMat.eye 0, NpMat.eye 0, fun _ => NpMat.eye 0, ∅⟩
  obtain ⟨res, f1, f2, f3⟩ := statLoop_run (sz := Rep.size) (t := t) hpos (labels := t.reprs.map Rep.name) (by simp) (s := s)
    (fun k l r hl hr => by
      rw [List.getElem?_map, hr] at hl
      obtain rfl : r.name = l := by simpa using hl
      exact (hs r (List.mem_of_getElem? hr)).symm) htab (order := uniq.map Rep.name)
    (hnd.map_on fun a ha b hb e => hn a ((hu a).1 ha) b ((hu b).1 hb) e)
    (fun l => by rw [List.mem_map, List.mem_map]; simp only [hu]) (F := F) (x := x) (out := out) hx ho st new
    (fun l n k b o q => φ (rOf k) n k b o q)
    (by
      intro l hl d f e1 e2 e3 e4
      obtain ⟨r, hr, rfl⟩ := List.mem_map.1 hl
      rw [hs r hr] at e1 e3 e4 ⊢
      obtain ⟨e, g1, g2, g3, g4⟩ := hF r hr d f e1 e2 e3 e4
      refine ⟨e, g1, g2, g3, fun n k hnk b o p ho => ?_⟩
      rw [g4 n k hnk b o p ho]
      simp [rOf, hn.labelled hr hnk])
  refine ⟨res, f1, f2, fun k r hk b o q ho => ?_⟩
  rw [f3 k r.name (by rw [List.getElem?_map, hk]; rfl) b o q (by rw [hs r (List.mem_of_getElem? hk)]; exact ho)]
  simp [rOf, hk]

/-- A history is invariant if each step is. -/
theorem HistoryEquivariant.of_inv {Par St G Id C : Type} {El : G → Prop} {t : FType S (Rep G Id)} {least : ℕ} {f : StatModule Par St S (Rep G Id) C} {st0 : St} (Inv : St → Prop) (h0 : Inv st0)
    (hstep : ∀ st, Inv st → StepEquivariant El t least f st)
    (hinv : ∀ st, Inv st → ∀ (m : MovedBatch Par C El t least) st' y, @f m.B m.P m.fB m.fP m.par m.junk st m.before.x = .ok (st', y) → Inv st') : HistoryEquivariant El t least f st0 := by
  intro H
  induction H generalizing st0 with
  | nil => exact ⟨st0, rfl, rfl, hstep st0 h0⟩
  | cons m H ih =>
    obtain ⟨st', y, y', gy, e1, e2, -⟩ := hstep st0 h0 m
    obtain ⟨st, f1, f2, f3⟩ := ih (hinv st0 h0 m st' y e1)
    refine ⟨st, ?_, ?_, f3⟩
    · rw [List.map_cons, StatModule.run]
      show (do let r ← @f m.B m.P m.fB m.fP m.par m.junk st0 m.before.x; f.run r.1 _) = _
      simp only [e1, bind, Except.bind]
      exact f1
    · rw [List.map_cons, StatModule.run]
      show (do let r ← @f m.B m.P' m.fB m.fP' m.par m.junk' st0 m.after.x; f.run r.1 _) = _
      simp only [e2, bind, Except.bind]
      exact f2

/-- A module with state is equivariant if it is field by field. -/
theorem HistoryEquivariant.of_fields {Par St G Id C : Type} {El : G → Prop} {t : FType S (Rep G Id)} (ht : t.Square El) {least : ℕ} {f : StatModule Par St S (Rep G Id) C} {st0 : St} (Inv : St → Prop) (h0 : Inv st0)
    (U : ∀ (B P : Type) [Fintype B] [Fintype P], Par → St → FTensor B P → St) (Φ : ∀ (B P : Type) [Fintype B] [Fintype P], Par → St → FTensor B P → ℕ → ℕ → B → P → ℝ)
    (hf : ∀ (B P : Type) [Fintype B] [Fintype P] (par : Par) (junk : B → ℕ → P → ℝ) (st : St) (x : GTensor B P S (Rep G Id) C), x.type = t → x.tensor.chans = t.size Rep.size →
      least ≤ Fintype.card B * Fintype.card P → ∃ y, f B P par junk st x = .ok (U B P par st x.tensor, y) ∧ y.type = t ∧ y.coords = x.coords ∧ y.tensor.chans = t.size Rep.size ∧
        ∀ (k : ℕ) (r : Rep G Id), t.reprs[k]? = some r → ∀ o < r.size, ∀ b p, y.tensor.get b (chanOffset Rep.size t.reprs k + o) p = Φ B P par st x.tensor k o b p)
    (hU : ∀ (B P P' : Type) [Fintype B] [Fintype P] [Fintype P'] (par : Par) (st : St) g, El g → ∀ (σ : P' ≃ P) (x gx : FTensor B P), FieldAct t g x gx →
      U B P' par st ⟨gx.chans, fun b c p => gx.get b c (σ p)⟩ = U B P par st x)
    (hΦ : ∀ (B P P' : Type) [Fintype B] [Fintype P] [Fintype P'] (par : Par) (st : St), Inv st → ∀ g, El g → ∀ (σ : P' ≃ P) (x gx : FTensor B P), FieldAct t g x gx →
      ∀ (k : ℕ) (r : Rep G Id), t.reprs[k]? = some r → ∀ o < r.size, ∀ b p, Φ B P' par st ⟨gx.chans, fun b c p => gx.get b c (σ p)⟩ k o b p =
        ∑ j ∈ Finset.range r.size, (r.mat g).get o j * Φ B P par st x k j b (σ p))
    (hInv : ∀ (B P : Type) [Fintype B] [Fintype P] (par : Par) (st : St) (x : FTensor B P), Inv st → Inv (U B P par st x)) : HistoryEquivariant El t least f st0 := by
  refine HistoryEquivariant.of_inv Inv h0 (fun st hst m => ?_) fun st hst m st' y h => ?_
  · obtain ⟨B, P, P', fB, fP, fP', par, junk, junk', x, co, co', chans, many, g, hg, gx, hgx, σ⟩ := m
    obtain ⟨gx', a1, a2, a3⟩ := transformFibers_act ht hg x chans
    obtain rfl : gx = gx' := Except.ok.inj (hgx.symm.trans a1)
    obtain ⟨y, e1, e2, e3, e4, e5⟩ := hf B P par junk st ⟨x, t, co⟩ rfl chans many
    obtain ⟨y', i1, i2, i3, i4, i5⟩ := hf B P' par junk' st ⟨⟨gx.chans, fun b c p => gx.get b c (σ p)⟩, t, co'⟩ rfl a2 (by rw [Fintype.card_congr σ]; exact many)
    obtain ⟨gy, c1, c2, c3⟩ := transformFibers_act ht hg y.tensor e4
    refine ⟨_, y, y', gy, e1, ?_, e2, i2, e3, i3, e4, c1, ?_⟩
    · rw [← hU B P P' par st g hg σ x gx a3]
      exact i1
    · refine ⟨by rw [i4]; exact c2.symm, fun b c p hc => ?_⟩
      rw [i4, FType.size_eq] at hc
      obtain ⟨k, r, o, hk, ho, rfl⟩ := exists_field hc
      rw [i5 k r hk o ho b p, hΦ B P P' par st hst g hg σ x gx a3 k r hk o ho b p]
      show _ = gy.get b _ (σ p)
      rw [c3 k r hk b o (σ p) ho]
      exact Finset.sum_congr rfl fun j hj => by rw [e5 k r hk j (Finset.mem_range.1 hj) b (σ p)]
  · obtain ⟨B, P, P', fB, fP, fP', par, junk, junk', x, co, co', chans, many, g, hg, gx, hgx, σ⟩ := m
    obtain ⟨z, e1, -⟩ := hf B P par junk st ⟨x, t, co⟩ rfl chans many
    have : (U B P par st x, z) = (st', y) := Except.ok.inj (e1.symm.trans h)
    rw [← (Prod.mk.inj this).1]
    exact hInv B P par st x hst

end Escnn
