import Verif.Lemmas.GroupedRun
import Verif.Lemmas.RunTable

/-!
# The modules which process the fields with the same label together
-/

namespace Escnn

variable {B P P' S R L : Type} [DecidableEq L] {sz : R → ℕ}

/-- The loop over the labels in terms of fields: `φ l n k b o p` is what is computed for entry `o` of the `n`-th field with label `l`, which is field `k` of the type. -/
theorem labelLoop_tab {t : FType S R} {labels : List L} (hl : labels.length = t.reprs.length) {s : L → ℕ}
    (hs : ∀ (k : ℕ) l r, labels[k]? = some l → t.reprs[k]? = some r → sz r = s l) {tab : List (L × Bool × List ℕ)} (ht : Tab sz t.reprs labels tab) {order : List L} (hnd : order.Nodup)
    (hmem : ∀ l, l ∈ order ↔ l ∈ labels) {F : L → FTensor B P → Except Err (FTensor B P)} {x out : FTensor B P} (hx : x.chans = t.size sz) (ho : out.chans = t.size sz)
    (φ : L → ℕ → ℕ → B → ℕ → P → ℝ)
    (hF : ∀ l ∈ labels, ∀ (d : FTensor B P) (f : FieldsT B P), d.toFields (labels.count l) (s l) = .ok f → f.n = labels.count l → f.size = s l →
      (∀ n k : ℕ, (labelled labels l)[n]? = some k → ∀ b o p, o < s l → f.get b n o p = x.get b (chanOffset sz t.reprs k + o) p) →
      ∃ e : FieldsT B P, F l d = .ok e.flat ∧ e.n = f.n ∧ e.size = s l ∧ ∀ n k : ℕ, (labelled labels l)[n]? = some k → ∀ b o p, o < s l → e.get b n o p = φ l n k b o p) :
    ∃ res, groupedLoop F tab tab x out order = .ok res ∧ res.chans = t.size sz ∧
      ∀ (k : ℕ) l, labels[k]? = some l → ∀ b o p, o < s l → res.get b (chanOffset sz t.reprs k + o) p = φ l ((labelled labels l).idxOf k) k b o p := by
  obtain ⟨res, h1, h2, h3⟩ := groupedLoop_run (x := x) (out := out) (F := F) (rs := t.reprs) (rs' := t.reprs)
    (sz := sz) (sz' := sz) (labels := labels) (ls := order) (tin := tab) (tout := tab) (s := s) (s' := s) φ
    hnd hmem hl hl hs hs ht ht (by rw [hx, FType.size_eq]) (by rw [ho, FType.size_eq])
    (by
      intro l hlm d hd
      obtain ⟨f, e1, e2, e3, e4⟩ := hd.toFields
      have e1' : d.toFields (labels.count l) (s l) = .ok f := by rw [← labelled_length]; exact e1
      obtain ⟨e, f1, f2, f3, f4⟩ := hF l hlm d f e1' (by rw [e2, labelled_length]) e3 e4
      refine ⟨e.flat, f1, ?_, fun n k hn b o p ho => ?_⟩
      · show e.n * e.size = _
        rw [f2, f3, e2]
      · rw [← f4 n k hn b o p ho]
        conv_lhs => rw [← f3]
        exact FieldsT.flat_get e b p (by rw [f3]; exact ho))
  exact ⟨res, h1, by rw [h2, FType.size_eq], h3⟩

/-- What is read for a label: the fields with this label. -/
theorem labelRead_tab {t : FType S R} {labels : List L} (hl : labels.length = t.reprs.length) {s : L → ℕ}
    (hs : ∀ (k : ℕ) l r, labels[k]? = some l → t.reprs[k]? = some r → sz r = s l) {tab : List (L × Bool × List ℕ)} (ht : Tab sz t.reprs labels tab) {x : FTensor B P} (hx : x.chans = t.size sz)
    {l : L} (hlm : l ∈ labels) :
    ∃ i d f, tabGet tab l = .ok i ∧ readIdx x i.1 i.2 = .ok d ∧ d.toFields (labels.count l) (s l) = .ok f ∧ f.n = labels.count l ∧ f.size = s l ∧
      ∀ n k : ℕ, (labelled labels l)[n]? = some k → ∀ b o p, o < s l → f.get b n o p = x.get b (chanOffset sz t.reprs k + o) p := by
  obtain ⟨c, idx, h1, h2⟩ := ht l hlm
  obtain ⟨d, e1, e2, e3⟩ := readIdx_ok (x := x) h2 fun i hi => by rw [hx, FType.size_eq]; exact labelIdx_lt hi
  have hlen := labelIdx_length hl l (s l) (sz := sz) (fun k r => hs k l r)
  have hH : Holds sz t.reprs labels (s l) x l d := ⟨by rw [e2, hlen], fun n k hn b o p ho => e3 b _ _ p (labelIdx_get hl l (s l) (fun k r => hs k l r) hn ho)⟩
  obtain ⟨f, f1, f2, f3, f4⟩ := hH.toFields
  exact ⟨(c, idx), d, f, tabGet_ok.2 h1, e1, by rw [← labelled_length]; exact f1, by rw [f2, labelled_length], f3, f4⟩

/-- The same for the tables of `runTable`. -/
theorem labelLoop_run {t : FType S R} (hpos : ∀ r ∈ t.reprs, 0 < sz r) {labels : List L} (hl : labels.length = t.reprs.length) {s : L → ℕ}
    (hs : ∀ (k : ℕ) l r, labels[k]? = some l → t.reprs[k]? = some r → sz r = s l) {tab : List (L × Bool × List ℕ)} (htab : runTable sz t labels = .ok tab) {order : List L} (hnd : order.Nodup)
    (hmem : ∀ l, l ∈ order ↔ l ∈ labels) {F : L → FTensor B P → Except Err (FTensor B P)} {x out : FTensor B P} (hx : x.chans = t.size sz) (ho : out.chans = t.size sz)
    (φ : L → ℕ → ℕ → B → ℕ → P → ℝ)
    (hF : ∀ l ∈ labels, ∀ (d : FTensor B P) (f : FieldsT B P), d.toFields (labels.count l) (s l) = .ok f → f.n = labels.count l → f.size = s l →
      (∀ n k : ℕ, (labelled labels l)[n]? = some k → ∀ b o p, o < s l → f.get b n o p = x.get b (chanOffset sz t.reprs k + o) p) →
      ∃ e : FieldsT B P, F l d = .ok e.flat ∧ e.n = f.n ∧ e.size = s l ∧ ∀ n k : ℕ, (labelled labels l)[n]? = some k → ∀ b o p, o < s l → e.get b n o p = φ l n k b o p) :
    ∃ res, groupedLoop F tab tab x out order = .ok res ∧ res.chans = t.size sz ∧
      ∀ (k : ℕ) l, labels[k]? = some l → ∀ b o p, o < s l → res.get b (chanOffset sz t.reprs k + o) p = φ l ((labelled labels l).idxOf k) k b o p := by
  obtain ⟨d, hd, ht⟩ := runTable_spec (sz := sz) t hpos labels hl
  rw [htab] at hd
  obtain rfl := Except.ok.inj hd
  exact labelLoop_tab hl hs ht hnd hmem hx ho φ hF

/-- The same for the tables of `runTable`. -/
theorem labelRead {t : FType S R} (hpos : ∀ r ∈ t.reprs, 0 < sz r) {labels : List L} (hl : labels.length = t.reprs.length) {s : L → ℕ}
    (hs : ∀ (k : ℕ) l r, labels[k]? = some l → t.reprs[k]? = some r → sz r = s l) {tab : List (L × Bool × List ℕ)} (htab : runTable sz t labels = .ok tab) {x : FTensor B P} (hx : x.chans = t.size sz)
    {l : L} (hlm : l ∈ labels) :
    ∃ i d f, tabGet tab l = .ok i ∧ readIdx x i.1 i.2 = .ok d ∧ d.toFields (labels.count l) (s l) = .ok f ∧ f.n = labels.count l ∧ f.size = s l ∧
      ∀ n k : ℕ, (labelled labels l)[n]? = some k → ∀ b o p, o < s l → f.get b n o p = x.get b (chanOffset sz t.reprs k + o) p := by
  obtain ⟨d, hd, ht⟩ := runTable_spec (sz := sz) t hpos labels hl
  rw [htab] at hd
  obtain rfl := Except.ok.inj hd
  exact labelRead_tab hl hs ht hx hlm

/-- Different representations of the type have different names. -/
def NamesApart {G Id : Type} (rs : List (Rep G Id)) : Prop := ∀ r ∈ rs, ∀ r' ∈ rs, r.name = r'.name → r = r'

/-- A dictionary keyed by names. -/
theorem nameTab_get {G Id V : Type} {rs uniq : List (Rep G Id)} (hn : NamesApart rs) (hu : ∀ r, r ∈ uniq ↔ r ∈ rs) (v : Rep G Id → V) {r : Rep G Id} (hr : r ∈ rs) :
    FType.lookupLast (uniq.map fun r => (r.name, v r)) r.name = some (v r) := by
  have key : ∀ L : List (Rep G Id), (∀ r ∈ L, r ∈ rs) → r ∈ L → FType.lookupLast (L.map fun r => (r.name, v r)) r.name = some (v r) := by
    intro L
    induction L using List.reverseRecOn with
    | nil => simp
    | append_singleton L a ih =>
      intro hL hrL
      rw [List.map_append, List.map_singleton, lookupLast_append]
      by_cases h : a.name = r.name
      · rw [if_pos h, hn a (hL a (by simp)) r hr h]
      · rw [if_neg h]
        refine ih (fun r hr => hL r (by simp [hr])) ?_
        rcases List.mem_append.1 hrL with h' | h'
        · exact h'
        · rw [List.mem_singleton] at h'
          exact absurd (by rw [h']) h
  exact key uniq (fun r h => (hu r).1 h) ((hu r).2 hr)

/-- The size which belongs to a name. -/
theorem nameSize {G Id : Type} {rs : List (Rep G Id)} (hn : NamesApart rs) : ∃ s : String → ℕ, ∀ r ∈ rs, s r.name = r.size := by
  classical
  refine ⟨fun l => if h : ∃ r ∈ rs, r.name = l then h.choose.size else 0, fun r hr => ?_⟩
  have h : ∃ r' ∈ rs, r'.name = r.name := ⟨r, hr, rfl⟩
  show (if h : ∃ r' ∈ rs, r'.name = r.name then h.choose.size else 0) = _
  rw [dif_pos h, hn h.choose h.choose_spec.1 r hr h.choose_spec.2]

theorem NamesApart.labelled {G Id : Type} {rs : List (Rep G Id)} (hn : NamesApart rs) {r : Rep G Id} (hr : r ∈ rs) {n k : ℕ} (h : (labelled (rs.map Rep.name) r.name)[n]? = some k) : rs[k]? = some r := by
  have hk := mem_labelled.1 (List.mem_of_getElem? h)
  rw [List.getElem?_map] at hk
  obtain ⟨r', hr', hrn⟩ := Option.map_eq_some_iff.1 hk
  obtain rfl := hn r' (List.mem_of_getElem? hr') r hr hrn
  exact hr'

/-- The loop over the names in terms of fields. -/
theorem nameLoop_run {G Id : Type} {t : FType S (Rep G Id)} (hpos : ∀ r ∈ t.reprs, 0 < r.size) (hn : NamesApart t.reprs) {uniq : List (Rep G Id)} (hnd : uniq.Nodup) (hu : ∀ r, r ∈ uniq ↔ r ∈ t.reprs)
    {tab : List (String × Bool × List ℕ)} (htab : runTable Rep.size t (t.reprs.map Rep.name) = .ok tab) {F : String → FTensor B P → Except Err (FTensor B P)} {x out : FTensor B P}
    (hx : x.chans = t.size Rep.size) (ho : out.chans = t.size Rep.size) (φ : Rep G Id → ℕ → ℕ → B → ℕ → P → ℝ)
    (hF : ∀ r ∈ t.reprs, ∀ (d : FTensor B P) (f : FieldsT B P), d.toFields ((t.reprs.map Rep.name).count r.name) r.size = .ok f → f.n = (t.reprs.map Rep.name).count r.name → f.size = r.size →
      (∀ n k : ℕ, (labelled (t.reprs.map Rep.name) r.name)[n]? = some k → ∀ b o p, o < r.size → f.get b n o p = x.get b (chanOffset Rep.size t.reprs k + o) p) →
      ∃ e : FieldsT B P, F r.name d = .ok e.flat ∧ e.n = f.n ∧ e.size = r.size ∧
        ∀ n k : ℕ, (labelled (t.reprs.map Rep.name) r.name)[n]? = some k → ∀ b o p, o < r.size → e.get b n o p = φ r n k b o p) :
    ∃ res, groupedLoop F tab tab x out (uniq.map Rep.name) = .ok res ∧ res.chans = t.size Rep.size ∧
      ∀ (k : ℕ) r, t.reprs[k]? = some r → ∀ b o p, o < r.size → res.get b (chanOffset Rep.size t.reprs k + o) p = φ r ((labelled (t.reprs.map Rep.name) r.name).idxOf k) k b o p := by
  obtain ⟨s, hs⟩ := nameSize hn
  let rOf : ℕ → Rep G Id := fun k => (t.reprs[k]?).getD ⟨"", [], NpMat.eye 0, NpMat.eye 0, fun _ => NpMat.eye 0, ∅⟩
  obtain ⟨res, f1, f2, f3⟩ := labelLoop_run (sz := Rep.size) (t := t) hpos (labels := t.reprs.map Rep.name) (by simp) (s := s)
    (fun k l r hl hr => by
      rw [List.getElem?_map, hr] at hl
      obtain rfl : r.name = l := by simpa using hl
      exact (hs r (List.mem_of_getElem? hr)).symm) htab (order := uniq.map Rep.name)
    (hnd.map_on fun a ha b hb e => hn a ((hu a).1 ha) b ((hu b).1 hb) e)
    (fun l => by rw [List.mem_map, List.mem_map]; simp only [hu]) (F := F) (x := x) (out := out) hx ho
    (fun l n k b o q => φ (rOf k) n k b o q)
    (by
      intro l hl d f e1 e2 e3 e4
      obtain ⟨r, hr, rfl⟩ := List.mem_map.1 hl
      rw [hs r hr] at e1 e3 e4 ⊢
      obtain ⟨e, g1, g2, g3, g4⟩ := hF r hr d f e1 e2 e3 e4
      refine ⟨e, g1, g2, g3, fun n k hnk b o p ho => ?_⟩
      rw [g4 n k hnk b o p ho]
      simp [rOf, hn.labelled hr hnk])
  refine ⟨res, f1, f2, fun k r hk b o q ho => ?_⟩
  rw [f3 k r.name (by rw [List.getElem?_map, hk]; rfl) b o q (by rw [hs r (List.mem_of_getElem? hk)]; exact ho)]
  simp [rOf, hk]

/-- What is read for a name. -/
theorem nameRead {G Id : Type} {t : FType S (Rep G Id)} (hpos : ∀ r ∈ t.reprs, 0 < r.size) (hn : NamesApart t.reprs) {tab : List (String × Bool × List ℕ)}
    (htab : runTable Rep.size t (t.reprs.map Rep.name) = .ok tab) {x : FTensor B P} (hx : x.chans = t.size Rep.size) {r : Rep G Id} (hr : r ∈ t.reprs) :
    ∃ i d f, tabGet tab r.name = .ok i ∧ readIdx x i.1 i.2 = .ok d ∧ d.toFields ((t.reprs.map Rep.name).count r.name) r.size = .ok f ∧ f.n = (t.reprs.map Rep.name).count r.name ∧ f.size = r.size ∧
      ∀ n k : ℕ, (labelled (t.reprs.map Rep.name) r.name)[n]? = some k → ∀ b o p, o < r.size → f.get b n o p = x.get b (chanOffset Rep.size t.reprs k + o) p := by
  obtain ⟨s, hs⟩ := nameSize hn
  have := labelRead (sz := Rep.size) (t := t) hpos (labels := t.reprs.map Rep.name) (by simp) (s := s)
    (fun k l r hl hr => by
      rw [List.getElem?_map, hr] at hl
      obtain rfl : r.name = l := by simpa using hl
      exact (hs r (List.mem_of_getElem? hr)).symm) htab hx (List.mem_map_of_mem hr)
  rwa [hs r hr] at this

end Escnn
