import Verif.Lemmas.Gated
import Verif.Lemmas.Equivariant
import Verif.Lemmas.Fixtures
import Verif.Spec.Invariants
import Verif.Props.C49_Norm
import Verif.Props.C47_Shapes

/-!
# C50: gated nonlinearities are equivariant
-/

namespace Escnn

variable {B P S G Id C : Type} {El : G → Prop}

/-- The representation is the number 1 for each element. -/
def ActsTrivially (El : G → Prop) (r : Rep G Id) : Prop := r.size = 1 ∧ ∀ g, El g → (r.mat g).rows = 1 ∧ (r.mat g).cols = 1 ∧ (r.mat g).get 0 0 = 1

/-- `is_trivial` implies that the matrices are the number 1. -/
theorem Rep.isTrivial_mat [DecidableEq Id] {op : G → G → G} {one : G} {T : IrrepTable G Id} (hT : T.Valid El op one) {triv : Id} {r : Rep G Id} (ht : T.IsTrivial El triv) (hr : r.WF T El)
    (h : r.isTrivial triv = true) : ActsTrivially El r := by
  classical
  simp only [Rep.isTrivial, decide_eq_true_eq] at h
  obtain ⟨h1, h2⟩ := h
  have hs : r.size = 1 := by rw [← hr.size, h1]; simp [ht.size]
  refine ⟨hs, fun g hg => ?_⟩
  have hcr : r.cob.rows = 1 := hs
  have hcc : r.cob.cols = 1 := by rw [h2.2.1]; exact hcr
  have hc : r.cob.get 0 0 = 1 := by rw [h2.2.2 0 0 (by omega) (by omega)]; simp [NpMat.eye]
  have hm := hr.mat g hg
  have hi := hr.inv
  have hO := hT triv ht.ok
  have hrows : (T.mat triv g).rows = 1 := (hO.rows g hg).trans ht.size
  have hcols : (T.mat triv g).cols = 1 := (hO.cols g hg).trans ht.size
  rw [h1] at hm
  have hr1 : (r.mat g).rows = 1 := hm.1.trans hcr
  have hic : r.cobInv.rows = 1 ∧ r.cobInv.cols = 1 ∧ r.cobInv.get 0 0 = 1 := by
    obtain ⟨i1, i2, i3, i4, -⟩ := hi
    refine ⟨i2.trans hcr, i3.trans hcr, ?_⟩
    have := i4.2.2 0 0 (by simp [NpMat.mul, hcr]) (by simp [NpMat.mul, i3, hcr])
    simpa [NpMat.mul, NpMat.eye, hcc, hc] using this
  have hc1 : (r.mat g).cols = 1 := hm.2.1.trans hic.2.1
  refine ⟨hr1, hc1, ?_⟩
  have h3 := hm.2.2 0 0 (by omega) (by omega)
  simp only [List.map_cons, List.map_nil, NpMat.mul, NpMat.blockDiag, NpMat.diag2, NpMat.zeros, Nat.add_zero, hcols, hcc, hrows, Finset.sum_range_one, hc, hic.2.2, ht.mat g hg, zero_lt_one, and_self, if_true, mul_one] at h3
  exact h3

namespace GatedNL

theorem checkField_ok [DecidableEq Id] {triv : Id} {e : String × Rep G Id} {u : Unit} (h : checkField triv e = .ok u) :
    (e.1 = "gate" ∧ e.2.isTrivial triv = true) ∨ (e.1 = "gated" ∧ "gated" ∈ e.2.nonlin) := by
  unfold checkField at h
  split_ifs at h with h1 h2 h3 h4
  · exact .inl ⟨h1, h2⟩
  · exact .inr ⟨h3, h4⟩

theorem gateLabels_get {R L : Type} {lab : R → L} {gates : List String} {rs : List R} {k : ℕ} {g : String} {r : R} (h1 : gates[k]? = some g) (h2 : rs[k]? = some r) :
    (gateLabels lab gates rs)[k]? = some (if g = "gate" then none else some (lab r)) := by
  rw [gateLabels, List.getElem?_zipWith, h1, h2]

/-- What a constructed module satisfies. -/
structure Facts (t : FType S (Rep G Id)) (gs : List String) (drop : Bool) (m : GatedNL S (Rep G Id)) : Prop where
  inType : m.inType = t
  drop_eq : m.drop = drop
  len : gs.length = t.reprs.length
  kind : ∀ (k : ℕ) g, gs[k]? = some g → g = "gate" ∨ g = "gated"
  count : gs.count "gate" = gs.count "gated"
  labels : m.labels = gateLabels Rep.size gs t.reprs
  out : m.outType.reprs = keptFields m.labels t.reprs drop
  some_gate : none ∈ m.labels
  nodup : m.order.Nodup
  order : ∀ l, l ∈ m.order ↔ some l ∈ m.labels
  tables : gatedTables Rep.size t.reprs m.labels drop = .ok (m.tin, m.tout)

theorem forall₂_unique {α β : Type} {f : α → Option β} {A : List α} {C D : List β} (h : List.Forall₂ (fun a c => f a = some c) A C) (h' : List.Forall₂ (fun a c => f a = some c) A D) : C = D := by
  induction h generalizing D with
  | nil => cases h'; rfl
  | cons hab _ ih =>
    cases h' with
    | cons hab' h2 =>
      rw [hab] at hab'
      rw [Option.some.inj hab', ih h2]

theorem facts [DecidableEq Id] {triv : Id} {bias : ℕ → ℝ} {t : FType S (Rep G Id)} {gates : Option (List String)} {drop : Bool} {m : GatedNL S (Rep G Id)} (h : init triv bias t gates drop = .ok m) :
    ∃ gs, defaultGates t.len gates = .ok gs ∧ Facts t gs drop m ∧ m.bias = bias ∧ (∀ (k : ℕ) r, gs[k]? = some "gate" → t.reprs[k]? = some r → r.isTrivial triv = true) ∧
      ∀ (k : ℕ) r, gs[k]? = some "gated" → t.reprs[k]? = some r → "gated" ∈ r.nonlin := by
  unfold init at h
  obtain ⟨gs, hgs, h⟩ := bind_ok h
  refine ⟨gs, hgs, ?_⟩
  split at h
  · cases h
  rename_i hlen
  rw [not_not] at hlen
  have hlen : gs.length = t.reprs.length := hlen
  obtain ⟨u, hu, h⟩ := bind_ok h
  split at h
  · cases h
  rename_i hcount
  rw [not_not] at hcount
  obtain ⟨out, hout, h⟩ := bind_ok h
  obtain ⟨tabs, htabs, h⟩ := bind_ok h
  split at h
  swap
  · cases h
  rename_i hnone
  obtain rfl := Except.ok.inj h
  rw [mapE_ok_iff] at hu
  have hcheck : ∀ (k : ℕ) g r, gs[k]? = some g → t.reprs[k]? = some r → (g = "gate" ∧ r.isTrivial triv = true) ∨ (g = "gated" ∧ "gated" ∈ r.nonlin) := by
    intro k g r hg hr
    obtain ⟨c, -, hc⟩ := forall₂_get hu (k := k) (a := (g, r)) (List.getElem?_zip_eq_some.2 ⟨hg, hr⟩)
    exact checkField_ok hc
  have hkind : ∀ (k : ℕ) g, gs[k]? = some g → g = "gate" ∨ g = "gated" := by
    intro k g hg
    have hk : k < t.reprs.length := by rw [← hlen]; exact (List.getElem?_eq_some_iff.1 hg).1
    rcases hcheck k g _ hg (List.getElem?_eq_getElem hk) with h | h
    · exact .inl h.1
    · exact .inr h.1
  have hll : (gateLabels Rep.size gs t.reprs).length = t.reprs.length := by simp [gateLabels, hlen]
  refine ⟨⟨rfl, rfl, hlen, hkind, hcount, rfl, ?_, hnone, ?_, ?_, htabs⟩, rfl, ?_, ?_⟩
  · unfold gatedOut at hout
    cases drop with
    | false =>
      rw [if_neg (by simp)] at hout
      obtain rfl := Except.ok.inj hout
      exact (zip_filter_true hll).1.symm
    | true =>
      rw [if_pos rfl, indexSelect_nat] at hout
      refine forall₂_unique hout.2.2 ?_
      have := (kept_fields (rs := t.reprs) hll true).1
      have e : keptPos (gateLabels Rep.size gs t.reprs) true = (List.range gs.length).filter fun i => gs[i]? = some "gated" := by
        rw [keptPos, hll, ← hlen]
        refine List.filter_congr fun k hk => ?_
        have hk1 := List.mem_range.1 hk
        have hk2 : k < t.reprs.length := by omega
        rw [gateLabels_get (List.getElem?_eq_getElem hk1) (List.getElem?_eq_getElem hk2), List.getElem?_eq_getElem hk1]
        rcases hkind k _ (List.getElem?_eq_getElem hk1) with h | h <;> simp [h]
      rw [e] at this
      exact this
  · exact (order_spec _).1
  · intro l
    rw [(order_spec _).2, List.mem_filterMap]
    simp
  · intro k r hg hr
    rcases hcheck k _ r hg hr with h | h
    · exact h.2
    · exact absurd h.1 (by decide)
  · intro k r hg hr
    rcases hcheck k _ r hg hr with h | h
    · exact absurd h.1 (by decide)
    · exact h.2

end GatedNL

theorem nfieldsOf_filter {M : Type} [DecidableEq M] (A : List M) {q : M → Bool} (l : M) (h : q l = true) : nfieldsOf (A.filter q) l = nfieldsOf A l := by
  rw [nfieldsOf, nfieldsOf, List.count_filter h]

/-- The number of fields of the labels of `ls`. -/
theorem nfields_sum {L R : Type} [DecidableEq L] {labels : List (Option L)} {rs : List R} (h : labels.length = rs.length) {order : List L} (hnd : order.Nodup) (hmem : ∀ l, l ∈ order ↔ some l ∈ labels) :
    ((order.map some).map fun l => nfieldsOf labels l).sum = (keptPos labels true).length := by
  classical
  set A := labels.filter Option.isSome with hA
  have h1 : (order.map some).Perm A.dedup := by
    refine (List.perm_ext_iff_of_nodup (hnd.map (Option.some_injective _)) (List.nodup_dedup _)).2 fun l => ?_
    rw [List.mem_dedup, hA, List.mem_filter]
    constructor
    · intro hl
      obtain ⟨l, hl', rfl⟩ := List.mem_map.1 hl
      exact ⟨(hmem l).1 hl', rfl⟩
    · rintro ⟨h1, h2⟩
      obtain ⟨l, rfl⟩ := Option.isSome_iff_exists.1 h2
      exact List.mem_map_of_mem ((hmem l).2 h1)
  have h2 : ∀ l ∈ order.map some, nfieldsOf labels l = nfieldsOf A l := by
    intro l hl
    obtain ⟨l, hl, rfl⟩ := List.mem_map.1 hl
    exact (nfieldsOf_filter _ _ rfl).symm
  rw [List.map_congr_left h2, (h1.map _).sum_eq]
  have h3 : (A.dedup.map fun l => nfieldsOf A l).sum = A.length := List.sum_map_count_dedup_eq_length A
  rw [h3]
  have h4 := (kept_forall (rs := rs) h true).length_eq
  rw [h4]
  have h5 := congrArg List.length (show ((labels.zip rs).filter fun e => e.1.isSome || !true).map Prod.fst = labels.filter fun a => a.isSome || !true by
    conv_rhs => rw [← List.map_fst_zip (l₁ := labels) (l₂ := rs) (by omega), List.filter_map]
    rfl)
  rw [List.length_map] at h5
  rw [h5, hA]
  congr 1
  exact List.filter_congr fun a _ => by simp

namespace GatedNL

/-- The number of the gate of field `k`; for a gate, its own number. -/
def gateNum {R : Type} (m : GatedNL S R) (k : ℕ) : ℕ :=
  match m.labels.getD k none with
  | none => (labelled m.labels none).idxOf k
  | some l => orderIdx m.labels (m.order.map some) (some l) k

/-- The position of the gate of field `k`. -/
def gateOf {R : Type} (m : GatedNL S R) (k : ℕ) : ℕ := (labelled m.labels none).getD (m.gateNum k) 0

section
variable {t : FType S (Rep G Id)} {gs : List String} {drop : Bool} {m : GatedNL S (Rep G Id)}

theorem Facts.labels_len (F : Facts t gs drop m) : m.labels.length = t.reprs.length := by rw [F.labels]; simp [gateLabels, F.len]

theorem Facts.label_gate (F : Facts t gs drop m) {k : ℕ} : m.labels[k]? = some none ↔ gs[k]? = some "gate" := by
  rw [F.labels, gateLabels, List.getElem?_zipWith]
  constructor
  · intro h
    split at h
    · rename_i g r hg hr
      split_ifs at h with hgate
      · rw [hg, hgate]
      · simp at h
    · cases h
  · intro h
    have hk : k < t.reprs.length := by rw [← F.len]; exact (List.getElem?_eq_some_iff.1 h).1
    rw [h, List.getElem?_eq_getElem hk]
    rfl

theorem Facts.label_gated (F : Facts t gs drop m) {k : ℕ} {r : Rep G Id} (hr : t.reprs[k]? = some r) (h : gs[k]? = some "gated") : m.labels[k]? = some (some r.size) := by
  rw [F.labels, gateLabels_get h hr]
  rfl

theorem Facts.label_some (F : Facts t gs drop m) {k l : ℕ} {r : Rep G Id} (hr : t.reprs[k]? = some r) (h : m.labels[k]? = some (some l)) : gs[k]? = some "gated" ∧ l = r.size := by
  rw [F.labels, gateLabels, List.getElem?_zipWith, hr] at h
  split at h
  · rename_i g r' hg hr'
    split_ifs at h with hgate
    · simp at h
    · rcases F.kind k g hg with h1 | h1
      · exact absurd h1 hgate
      · cases hr'
        simp at h
        exact ⟨by rw [hg, h1], h.symm⟩
  · cases h

theorem Facts.gates_eq (F : Facts t gs drop m) : labelled m.labels none = (List.range gs.length).filter fun k => gs[k]? = some "gate" := by
  rw [labelled, F.labels_len, F.len]
  exact List.filter_congr fun k _ => by simp [F.label_gate]

theorem Facts.kept_eq (F : Facts t gs drop m) (d : Bool) : keptPos m.labels d = (List.range gs.length).filter fun k => gs[k]? = some "gated" || !d := by
  rw [keptPos, F.labels_len, F.len]
  refine List.filter_congr fun k hk => ?_
  have hk2 := List.mem_range.1 hk
  have hk1 : k < gs.length := by rw [F.len]; exact hk2
  rcases F.kind k _ (List.getElem?_eq_getElem hk1) with h | h
  · have : gs[k]? = some "gate" := by rw [List.getElem?_eq_getElem hk1, h]
    rw [F.label_gate.2 this, this]
    rfl
  · have : gs[k]? = some "gated" := by rw [List.getElem?_eq_getElem hk1, h]
    rw [F.label_gated (List.getElem?_eq_getElem hk2) this, this]
    simp

theorem Facts.count_eq (F : Facts t gs drop m) : (labelled m.labels none).length = (keptPos m.labels true).length := by
  have h1 : labelled m.labels none = labelled gs "gate" := F.gates_eq
  have h2 : keptPos m.labels true = labelled gs "gated" := by rw [F.kept_eq, labelled]; exact List.filter_congr fun k _ => by simp
  rw [h1, h2, labelled_length, labelled_length, F.count]

theorem Facts.gateNum_lt (F : Facts t gs drop m) {k : ℕ} (hk : gs[k]? = some "gated") : m.gateNum k < (labelled m.labels none).length := by
  have hk2 : k < t.reprs.length := by rw [← F.len]; exact (List.getElem?_eq_some_iff.1 hk).1
  have hl := F.label_gated (List.getElem?_eq_getElem hk2) hk
  rw [F.count_eq, ← nfields_sum F.labels_len F.nodup F.order]
  have : m.labels.getD k none = some (t.reprs[k]).size := by simp [List.getD, hl]
  rw [gateNum, this]
  exact orderIdx_lt (List.mem_map_of_mem ((F.order _).2 (List.mem_of_getElem? hl))) hl

theorem Facts.gateNum_inj (F : Facts t gs drop m) {k k' : ℕ} (hk : gs[k]? = some "gated") (hk' : gs[k']? = some "gated") (e : m.gateNum k = m.gateNum k') : k = k' := by
  have hk2 : k < t.reprs.length := by rw [← F.len]; exact (List.getElem?_eq_some_iff.1 hk).1
  have hk2' : k' < t.reprs.length := by rw [← F.len]; exact (List.getElem?_eq_some_iff.1 hk').1
  have hl := F.label_gated (List.getElem?_eq_getElem hk2) hk
  have hl' := F.label_gated (List.getElem?_eq_getElem hk2') hk'
  have h1 : m.labels.getD k none = some (t.reprs[k]).size := by simp [List.getD, hl]
  have h2 : m.labels.getD k' none = some (t.reprs[k']).size := by simp [List.getD, hl']
  rw [gateNum, gateNum, h1, h2] at e
  exact orderIdx_inj (List.mem_map_of_mem ((F.order _).2 (List.mem_of_getElem? hl))) (List.mem_map_of_mem ((F.order _).2 (List.mem_of_getElem? hl'))) hl hl' e

theorem Facts.gateOf_get (F : Facts t gs drop m) {k : ℕ} (hk : gs[k]? = some "gated") : (labelled m.labels none)[m.gateNum k]? = some (m.gateOf k) := by
  simp [gateOf, List.getD, F.gateNum_lt hk]

/-- What the forward pass computes. -/
theorem forward_spec (junk : B → ℕ → P → ℝ) (F : Facts t gs drop m) (hpos : ∀ r ∈ t.reprs, 0 < r.size) (h1 : ∀ (k : ℕ) r, gs[k]? = some "gate" → t.reprs[k]? = some r → r.size = 1)
    (x : GTensor B P S (Rep G Id) C) (hx : x.type = t) (hc : x.tensor.chans = t.size Rep.size) :
    ∃ y, forward junk m x = .ok y ∧ y.type = m.outType ∧ y.coords = x.coords ∧ y.tensor.chans = m.outType.size Rep.size ∧
      ∀ (k' k : ℕ) r, (keptPos m.labels drop)[k']? = some k → t.reprs[k]? = some r → ∀ b o p, o < r.size →
        y.tensor.get b (chanOffset Rep.size m.outType.reprs k' + o) p =
          if gs[k]? = some "gate" then torchSigmoid (x.tensor.get b (chanOffset Rep.size t.reprs k + o) p - m.bias (m.gateNum k))
          else x.tensor.get b (chanOffset Rep.size t.reprs k + o) p * torchSigmoid (x.tensor.get b (chanOffset Rep.size t.reprs (m.gateOf k)) p - m.bias (m.gateNum k)) := by
  obtain ⟨tabs, ht, htin, htout⟩ := gatedTables_spec (sz := Rep.size) hpos m.labels F.labels_len drop
  obtain rfl : tabs = (m.tin, m.tout) := Except.ok.inj (ht.symm.trans F.tables)
  simp only at htin htout
  rw [FType.size_eq] at hc
  have hgate : ∀ (k : ℕ) r, m.labels[k]? = some none → t.reprs[k]? = some r → r.size = 1 := fun k r hk hr => h1 k r (F.label_gate.1 hk) hr
  obtain ⟨c, idx, d, a1, a2, a3, a4, a5⟩ := readGates (x := x.tensor) F.labels_len hgate F.some_gate htin hc
  have hout : m.outType.size Rep.size = ((keptFields m.labels t.reprs drop).map Rep.size).sum := by rw [FType.size_eq, F.out]
  have hstep : ∃ out : FTensor B P, gatesOut m.drop ⟨m.outType.size Rep.size, junk⟩ (c, idx) (gateValues 1 m.bias d) = .ok out ∧
      out.chans = ((keptFields m.labels t.reprs drop).map Rep.size).sum ∧
      ∀ (k' k : ℕ) r, (keptPos m.labels drop)[k']? = some k → m.labels[k]? = some none → t.reprs[k]? = some r → ∀ b o p, o < r.size →
        out.get b (chanOffset Rep.size (keptFields m.labels t.reprs drop) k' + o) p = torchSigmoid (x.tensor.get b (chanOffset Rep.size t.reprs k + o) p - m.bias (m.gateNum k)) := by
    rw [F.drop_eq]
    cases hd : drop with
    | true =>
      refine ⟨_, if_pos rfl, by rw [← hd]; exact hout, fun k' k r hk' hk => ?_⟩
      have := List.mem_of_getElem? hk'
      rw [keptPos, List.mem_filter] at this
      simp [hk] at this
    | false =>
      obtain ⟨e1, e2, e3⟩ := zip_filter_true (labels := m.labels) (rs := t.reprs) F.labels_len
      have hch : (gateValues 1 m.bias d).chans = (labelIdx Rep.size t.reprs m.labels none).length := by
        rw [labelIdx_length F.labels_len none 1 hgate]
        exact a4
      have hsz : m.outType.size Rep.size = (t.reprs.map Rep.size).sum := by rw [hout, hd, e1]
      obtain ⟨out, f1, f2, f3, -⟩ := writeIdx_ok (out := (⟨m.outType.size Rep.size, junk⟩ : FTensor B P)) (d := gateValues 1 m.bias d) a2
        (fun i hi => by show i < m.outType.size Rep.size; rw [hsz]; exact labelIdx_lt hi) (labelIdx_nodup F.labels_len none) hch
      refine ⟨out, by rw [gatesOut, if_neg (by simp)]; exact f1, by rw [f2, ← hd]; exact hout, fun k' k r hk' hk hr b o p ho => ?_⟩
      rw [e3] at hk'
      obtain rfl : k' = k := by
        obtain ⟨q1, q2⟩ := List.getElem?_eq_some_iff.1 hk'
        simpa using q2
      have hr1 := hgate k' r hk hr
      obtain rfl : o = 0 := by omega
      have hkm : k' ∈ labelled m.labels none := mem_labelled.2 hk
      have hn : (labelled m.labels none)[(labelled m.labels none).idxOf k']? = some k' := by
        rw [List.getElem?_eq_getElem (List.idxOf_lt_length_of_mem hkm), List.getElem_idxOf]
      have q := f3 b _ _ p (labelIdx_get F.labels_len none 1 hgate hn (o := 0) one_pos)
      rw [e1, q]
      simp only [gateValues]
      rw [a5 _ _ hn b 0 p one_pos, Nat.div_one]
      have : m.labels.getD k' none = none := by simp [List.getD, hk]
      rw [gateNum, this]
      simp
  obtain ⟨out, o1, o2, o3⟩ := hstep
  obtain ⟨res, g1, g2, g3, g4⟩ := gatedLoop_spec (sz := Rep.size) (rs := t.reprs) (labels := m.labels) (order := m.order) (Q := 1) (sub := id) (drop := drop) (tin := m.tin) (tout := m.tout)
    F.labels_len one_pos (fun k l r hk hr => by rw [one_mul]; exact (F.label_some hr hk).2.symm)
    (fun l hl => by
      obtain ⟨k, hk⟩ := List.mem_iff_getElem?.1 ((F.order l).1 hl)
      have hk2 : k < t.reprs.length := by rw [← F.labels_len]; exact (List.getElem?_eq_some_iff.1 hk).1
      rw [(F.label_some (List.getElem?_eq_getElem hk2) hk).2]
      exact hpos _ (List.getElem_mem hk2))
    F.nodup F.order htin htout (x := x.tensor) (out := out) (gates := gateValues 1 m.bias d) hc o2
  refine ⟨⟨res, m.outType, x.coords⟩, ?_, rfl, rfl, by rw [hout]; exact g2, fun k' k r hk' hr b o p ho => ?_⟩
  · rw [forward, if_pos (by rw [F.inType]; exact hx)]
    simp only [bind, Except.bind, a1, a3, o1, g1]
    exact if_pos (g2.trans hout.symm)
  · simp only [F.out]
    have hkg : k < gs.length := by rw [F.len]; exact (List.getElem?_eq_some_iff.1 hr).1
    rcases F.kind k _ (List.getElem?_eq_getElem hkg) with h | h
    · have hg : gs[k]? = some "gate" := by rw [List.getElem?_eq_getElem hkg, h]
      rw [if_pos hg, g4 k' k r hk' (F.label_gate.2 hg) hr b o p ho]
      exact o3 k' k r hk' (F.label_gate.2 hg) hr b o p ho
    · have hg : gs[k]? = some "gated" := by rw [List.getElem?_eq_getElem hkg, h]
      have hl := F.label_gated hr hg
      rw [if_neg (by rw [hg]; decide), g3 k' k r.size hk' hl b o p (by rw [one_mul]; exact ho)]
      have hnum : orderIdx m.labels (m.order.map some) (some r.size) k = m.gateNum k := by
        have : m.labels.getD k none = some r.size := by simp [List.getD, hl]
        rw [gateNum, this]
      have hgo := F.gateOf_get hg
      rw [hnum, Nat.mul_one, id, Nat.div_eq_of_lt ho, Nat.add_zero]
      simp only [gateValues]
      have := a5 _ _ hgo b 0 p one_pos
      rw [Nat.mul_one, Nat.add_zero] at this
      rw [this, Nat.div_one, Nat.add_zero]

end

/-- **C50** Each gated field is multiplied with the sigmoid of its own gate minus a bias of its own: `gateOf` is a bijection from the gated fields to the gates, and no two gated fields share the entry `num` of the bias.
The output consists of the gated fields, in their order, or of all the fields, where the gates are replaced by their sigmoids. -/
theorem C50_gates [DecidableEq Id] {op : G → G → G} {one : G} {T : IrrepTable G Id} (hT : T.Valid El op one) {triv : Id} (htriv : T.IsTrivial El triv) (t : FType S (Rep G Id)) (hwf : ∀ r ∈ t.reprs, r.WF T El)
    {bias : ℕ → ℝ} {gs : List String} {drop : Bool} {m : GatedNL S (Rep G Id)} (hm : init triv bias t (some gs) drop = .ok m) (junk : B → ℕ → P → ℝ) :
    ∃ gateOf num : ℕ → ℕ, (∀ k : ℕ, gs[k]? = some "gated" → gs[gateOf k]? = some "gate" ∧ num k < gs.count "gate" ∧ num (gateOf k) = num k) ∧
      (∀ kg : ℕ, gs[kg]? = some "gate" → ∃! k : ℕ, gs[k]? = some "gated" ∧ gateOf k = kg) ∧
      (∀ k k' : ℕ, gs[k]? = some "gated" → gs[k']? = some "gated" → num k = num k' → k = k') ∧
      ∀ x : GTensor B P S (Rep G Id) C, x.type = t → x.tensor.chans = t.size Rep.size →
        ∃ y, forward junk m x = .ok y ∧ y.type = m.outType ∧ y.coords = x.coords ∧ y.tensor.chans = m.outType.size Rep.size ∧
          List.Forall₂ (fun (k : ℕ) r => t.reprs[k]? = some r) ((List.range gs.length).filter fun k => gs[k]? = some "gated" || !drop) m.outType.reprs ∧
          ∀ (k' k : ℕ) r, ((List.range gs.length).filter fun k => gs[k]? = some "gated" || !drop)[k']? = some k → t.reprs[k]? = some r → ∀ b o p, o < r.size →
            y.tensor.get b (((m.outType.reprs.take k').map Rep.size).sum + o) p =
              if gs[k]? = some "gate" then torchSigmoid (x.tensor.get b (((t.reprs.take k).map Rep.size).sum + o) p - bias (num k))
              else x.tensor.get b (((t.reprs.take k).map Rep.size).sum + o) p * torchSigmoid (x.tensor.get b ((t.reprs.take (gateOf k)).map Rep.size).sum p - bias (num k)) := by
  obtain ⟨gs', hgs, F, hb, htr, -⟩ := facts hm
  obtain rfl : gs = gs' := Except.ok.inj hgs
  have hpos : ∀ r ∈ t.reprs, 0 < r.size := fun r hr => (hwf r hr).pos
  have h1 : ∀ (k : ℕ) r, gs[k]? = some "gate" → t.reprs[k]? = some r → r.size = 1 := fun k r hk hr => (Rep.isTrivial_mat hT htriv (hwf r (List.mem_of_getElem? hr)) (htr k r hk hr)).1
  have hgl : labelled m.labels none = labelled gs "gate" := F.gates_eq
  have hgate : ∀ k : ℕ, gs[k]? = some "gated" → gs[m.gateOf k]? = some "gate" := fun k hk => by
    have := List.mem_of_getElem? (F.gateOf_get hk)
    rw [hgl, mem_labelled] at this
    exact this
  have hinj : ∀ k k' : ℕ, gs[k]? = some "gated" → gs[k']? = some "gated" → m.gateOf k = m.gateOf k' → k = k' := by
    intro k k' hk hk' e
    refine F.gateNum_inj hk hk' ?_
    have q := F.gateOf_get hk
    rw [e, ← F.gateOf_get hk'] at q
    exact (List.getElem?_inj (F.gateNum_lt hk) (labelled_nodup _ _)).1 q
  refine ⟨m.gateOf, m.gateNum, fun k hk => ⟨hgate k hk, ?_, ?_⟩, fun kg hkg => ?_, fun k k' => F.gateNum_inj, fun x hx hc => ?_⟩
  · rw [← labelled_length, ← hgl]
    exact F.gateNum_lt hk
  · have hl : m.labels.getD (m.gateOf k) none = none := by simp [List.getD, F.label_gate.2 (hgate k hk)]
    conv_lhs => rw [gateNum, hl]
    obtain ⟨q1, q2⟩ := List.getElem?_eq_some_iff.1 (F.gateOf_get hk)
    have := (labelled_nodup m.labels none).idxOf_getElem _ q1
    rw [q2] at this
    exact this
  · have himg : ((labelled gs "gated").toFinset.image m.gateOf) = (labelled gs "gate").toFinset := by
      refine Finset.eq_of_subset_of_card_le ?_ ?_
      · intro j hj
        obtain ⟨k, hk, rfl⟩ := Finset.mem_image.1 hj
        rw [List.mem_toFinset, mem_labelled] at hk ⊢
        exact hgate k hk
      · rw [Finset.card_image_of_injOn, List.toFinset_card_of_nodup (labelled_nodup _ _), List.toFinset_card_of_nodup (labelled_nodup _ _), labelled_length, labelled_length, F.count]
        intro k hk k' hk' e
        rw [Finset.mem_coe, List.mem_toFinset, mem_labelled] at hk hk'
        exact hinj k k' hk hk' e
    have : kg ∈ (labelled gs "gated").toFinset.image m.gateOf := by rw [himg, List.mem_toFinset, mem_labelled]; exact hkg
    obtain ⟨k, hk, e⟩ := Finset.mem_image.1 this
    rw [List.mem_toFinset, mem_labelled] at hk
    exact ⟨k, ⟨hk, e⟩, fun k' hk' => hinj k' k hk'.1 hk (hk'.2.trans e.symm)⟩
  · obtain ⟨y, e1, e2, e3, e4, e5⟩ := forward_spec (C := C) junk F hpos h1 x hx hc
    rw [F.kept_eq] at e5
    refine ⟨y, e1, e2, e3, e4, ?_, fun k' k r hk' hr b o p ho => ?_⟩
    · rw [F.out, ← F.kept_eq]
      exact (kept_fields F.labels_len drop).1
    · rw [← hb]
      exact e5 k' k r hk' hr b o p ho

theorem wf_square {T : IrrepTable G Id} {t : FType S (Rep G Id)} (hwf : ∀ r ∈ t.reprs, r.WF T El) : t.Square El := by
  intro r hr g hg
  have h := hwf r hr
  exact ⟨(h.mat g hg).1, (h.mat g hg).2.1.trans h.inv.2.2.1⟩

/-- **C50** For each type and choice of gates accepted by the constructor, each bias, content of the uninitialised memory, input and group element, the module commutes with the action; it computes at each position
from the values at that position. -/
theorem C50_equivariant [DecidableEq Id] {op : G → G → G} {one : G} {T : IrrepTable G Id} (hT : T.Valid El op one) {triv : Id} (htriv : T.IsTrivial El triv) (t : FType S (Rep G Id)) (hwf : ∀ r ∈ t.reprs, r.WF T El)
    {bias : ℕ → ℝ} {gates : Option (List String)} {drop : Bool} {m : GatedNL S (Rep G Id)} (hm : init triv bias t gates drop = .ok m) (junk : B → ℕ → P → ℝ) :
    FibreEquivariant (B := B) (P := P) (C := C) El t m.outType (forward junk m) ∧ PositionLocal (B := B) (P := P) (C := C) Rep.size t (forward junk m) := by
  obtain ⟨gs, -, F, hb, htr, -⟩ := facts hm
  have hpos : ∀ r ∈ t.reprs, 0 < r.size := fun r hr => (hwf r hr).pos
  have h1 : ∀ (k : ℕ) r, gs[k]? = some "gate" → t.reprs[k]? = some r → ActsTrivially El r := fun k r hk hr => Rep.isTrivial_mat hT htriv (hwf r (List.mem_of_getElem? hr)) (htr k r hk hr)
  have hfld := (kept_fields (rs := t.reprs) F.labels_len drop).1
  have hpick : ∀ (k' : ℕ) r, m.outType.reprs[k']? = some r → ∃ k, (keptPos m.labels drop)[k']? = some k ∧ t.reprs[k]? = some r := by
    intro k' r hk'
    rw [F.out] at hk'
    have h1 := (List.getElem?_eq_some_iff.1 hk').1
    rw [← hfld.length_eq] at h1
    obtain ⟨r', e1, e2⟩ := forall₂_get hfld (List.getElem?_eq_getElem h1)
    rw [hk'] at e1
    obtain rfl := Option.some.inj e1
    exact ⟨_, List.getElem?_eq_getElem h1, e2⟩
  have hwf' : ∀ r ∈ m.outType.reprs, r.WF T El := by
    intro r hr
    obtain ⟨k', hk'⟩ := List.mem_iff_getElem?.1 hr
    obtain ⟨k, -, hk⟩ := hpick k' r hk'
    exact hwf r (List.mem_of_getElem? hk)
  let Φ : FTensor B P → ℕ → ℕ → B → P → ℝ := fun x k' o b p =>
    match (keptPos m.labels drop)[k']? with
    | none => 0
    | some k => if gs[k]? = some "gate" then torchSigmoid (x.get b (chanOffset Rep.size t.reprs k + o) p - m.bias (m.gateNum k))
          else x.get b (chanOffset Rep.size t.reprs k + o) p * torchSigmoid (x.get b (chanOffset Rep.size t.reprs (m.gateOf k)) p - m.bias (m.gateNum k))
  have hf : ∀ x : GTensor B P S (Rep G Id) C, x.type = t → x.tensor.chans = t.size Rep.size → ∃ y, forward junk m x = .ok y ∧ y.type = m.outType ∧ y.coords = x.coords ∧
      y.tensor.chans = m.outType.size Rep.size ∧
      ∀ (k : ℕ) (r : Rep G Id), m.outType.reprs[k]? = some r → ∀ o < r.size, ∀ b p, y.tensor.get b (chanOffset Rep.size m.outType.reprs k + o) p = Φ x.tensor k o b p := by
    intro x hx hc
    obtain ⟨y, e1, e2, e3, e4, e5⟩ := forward_spec (C := C) junk F hpos (fun k r hk hr => (h1 k r hk hr).1) x hx hc
    refine ⟨y, e1, e2, e3, e4, fun k' r hk' o ho b p => ?_⟩
    obtain ⟨k, hk, hr⟩ := hpick k' r hk'
    simp only [Φ, hk]
    exact e5 k' k r hk hr b o p ho
  refine ⟨FibreEquivariant.of_fields (wf_square hwf) (wf_square hwf') Φ hf ?_, PositionLocal.of_fields Φ hf ?_⟩
  · intro g hg x gx _ _ hact k' r hk' o ho b p
    obtain ⟨k, hk, hr⟩ := hpick k' r hk'
    simp only [Φ, hk]
    have hgate : ∀ (k : ℕ) r, gs[k]? = some "gate" → t.reprs[k]? = some r → gx.get b (chanOffset Rep.size t.reprs k) p = x.get b (chanOffset Rep.size t.reprs k) p := by
      intro k r hk hr
      obtain ⟨q1, q2⟩ := h1 k r hk hr
      have := hact k r hr b 0 p (by rw [q1]; exact one_pos)
      rw [q1, Finset.sum_range_one, (q2 g hg).2.2, one_mul, Nat.add_zero] at this
      exact this
    by_cases hg' : gs[k]? = some "gate"
    · obtain ⟨q1, q2⟩ := h1 k r hg' hr
      obtain rfl : o = 0 := by omega
      simp only [if_pos hg', q1, Finset.sum_range_one, (q2 g hg).2.2, one_mul, Nat.add_zero, hgate k r hg' hr]
    · have hk2 : k < gs.length := by rw [F.len]; exact (List.getElem?_eq_some_iff.1 hr).1
      have hgd : gs[k]? = some "gated" := by
        rcases F.kind k _ (List.getElem?_eq_getElem hk2) with h | h
        · exact absurd (by rw [List.getElem?_eq_getElem hk2, h]) hg'
        · rw [List.getElem?_eq_getElem hk2, h]
      have hgo : gs[m.gateOf k]? = some "gate" := by
        have := List.mem_of_getElem? (F.gateOf_get hgd)
        rw [F.gates_eq] at this
        simpa using (List.mem_filter.1 this).2
      have hk3 : m.gateOf k < t.reprs.length := by rw [← F.len]; exact (List.getElem?_eq_some_iff.1 hgo).1
      simp only [if_neg hg', hgate _ _ hgo (List.getElem?_eq_getElem hk3), hact k r hr b o p ho, Finset.sum_mul]
      exact Finset.sum_congr rfl fun j _ => by ring
  · intro σ x k o b p
    simp only [Φ]

end GatedNL

namespace GatedNL2

variable {tg t : FType S (Rep G Id)} {m : GatedNL2 S (Rep G Id)} {bias : ℕ → ℝ} {triv : Id}

theorem init_ok [DecidableEq Id] [DecidableEq S] (h : init triv bias tg t = .ok m) : m.gateType = tg ∧ m.inType = t ∧ m.bias = bias ∧ tg.gspace = t.gspace ∧
    (∀ r ∈ tg.reprs, r.isTrivial triv = true) ∧ (∀ r ∈ t.reprs, "gated" ∈ r.nonlin) ∧ tg.reprs.length = t.reprs.length ∧
    m.order.Nodup ∧ (∀ s, s ∈ m.order ↔ s ∈ t.reprs.map Rep.size) ∧ runTable Rep.size t (t.reprs.map Rep.size) = .ok m.table := by
  unfold init at h
  split_ifs at h with h1 h2 h3 h4
  rw [not_not] at h1 h4
  obtain ⟨table, ht, h⟩ := bind_ok h
  obtain rfl := Except.ok.inj h
  exact ⟨rfl, rfl, rfl, h1, h2, h3, h4, (order_spec _).1, (order_spec _).2, ht⟩

/-- The number of the gate of field `k`. -/
def gateNum (m : GatedNL2 S (Rep G Id)) (k : ℕ) : ℕ := orderIdx (m.inType.reprs.map Rep.size) m.order ((m.inType.reprs.map Rep.size).getD k 0) k

/-- What the forward pass computes. -/
theorem forward_spec [DecidableEq Id] [DecidableEq S] (h : init triv bias tg t = .ok m) (hpos : ∀ r ∈ t.reprs, 0 < r.size) (junk : B → ℕ → P → ℝ) (g x : GTensor B P S (Rep G Id) C)
    (hg : g.type = tg) (hx : x.type = t) (hcoord : g.coords = x.coords) (hc : x.tensor.chans = t.size Rep.size) :
    ∃ y, forward junk m g x = .ok y ∧ y.type = t ∧ y.coords = x.coords ∧ y.tensor.chans = t.size Rep.size ∧
      ∀ (k : ℕ) r, t.reprs[k]? = some r → ∀ b o p, o < r.size → y.tensor.get b (chanOffset Rep.size t.reprs k + o) p =
        x.tensor.get b (chanOffset Rep.size t.reprs k + o) p * torchSigmoid (g.tensor.get b (m.gateNum k) p - bias (m.gateNum k)) := by
  obtain ⟨h1, h2, h3, -, -, -, -, hnd, hmem, htab⟩ := init_ok h
  obtain ⟨tab, ht, hT⟩ := runTable_spec t hpos (t.reprs.map Rep.size) (by simp)
  obtain rfl : tab = m.table := Except.ok.inj (ht.symm.trans htab)
  have hsz : ∀ (k : ℕ) l r, (t.reprs.map Rep.size)[k]? = some l → t.reprs[k]? = some r → r.size = l := by
    intro k l r hl hr
    rw [List.getElem?_map, hr] at hl
    exact Option.some.inj hl
  rw [FType.size_eq] at hc
  obtain ⟨res, e1, e2, e3⟩ := groupedLoop_run (sz := Rep.size) (sz' := Rep.size) (rs := t.reprs) (rs' := t.reprs) (labels := t.reprs.map Rep.size) (ls := m.order) (s := id) (s' := id)
    (tin := m.table) (tout := m.table) (x := x.tensor) (out := (⟨m.inType.size Rep.size, junk⟩ : FTensor B P)) (F := m.step (gateValues 1 m.bias g.tensor))
    (fun l n k b o p => x.tensor.get b (chanOffset Rep.size t.reprs k + o) p * torchSigmoid (g.tensor.get b (nextOf (t.reprs.map Rep.size) m.order l + n) p - bias (nextOf (t.reprs.map Rep.size) m.order l + n)))
    hnd hmem (by simp) (by simp) (fun k l r hl hr => hsz k l r hl hr) (fun k l r hl hr => hsz k l r hl hr) hT hT hc (by rw [h2, FType.size_eq])
    (fun l hl d hd => by
      obtain ⟨f, f1, f2, f3, f4⟩ := hd.toFields
      rw [id] at f1
      refine ⟨_, by
        simp only [step, h2, bind, Except.bind]
        rw [← labelled_length, f1], ?_, fun n k hn b o p ho => ?_⟩
      · show f.n * f.size = _
        rw [f2, f3]
      · have ho' : o < f.size := by rw [f3]; exact ho
        have := FieldsT.flat_get (⟨f.n, f.size, fun b i o p => f.get b i o p * (gateValues 1 m.bias g.tensor).get b (nextOf (t.reprs.map Rep.size) m.order l + i) p⟩ : FieldsT B P) b (n := n) p ho'
        rw [show n * id l = n * f.size by rw [f3]]
        refine this.trans ?_
        simp only [gateValues, Nat.div_one, h3]
        rw [f4 n k hn b o p ho])
  refine ⟨⟨res, m.inType, x.coords⟩, ?_, h2, rfl, by rw [FType.size_eq]; exact e2, fun k r hr b o p ho => ?_⟩
  · rw [forward, if_pos ⟨hg.trans h1.symm, hx.trans h2.symm, hcoord⟩]
    simp only [bind, Except.bind, e1]
    exact if_pos (by rw [e2, h2, FType.size_eq])
  · have hl : (t.reprs.map Rep.size)[k]? = some r.size := by rw [List.getElem?_map, hr]; rfl
    rw [e3 k r.size hl b o p ho]
    have : m.gateNum k = nextOf (t.reprs.map Rep.size) m.order r.size + (labelled (t.reprs.map Rep.size) r.size).idxOf k := by
      rw [gateNum, h2, List.getD, hl]
      rfl
    rw [this]

theorem gateNum_lt [DecidableEq Id] [DecidableEq S] (h : init triv bias tg t = .ok m) {k : ℕ} (hk : k < t.reprs.length) : m.gateNum k < t.reprs.length := by
  obtain ⟨-, h2, -, -, -, -, -, hnd, hmem, -⟩ := init_ok h
  have hl : (t.reprs.map Rep.size)[k]? = some (t.reprs[k].size) := by rw [List.getElem?_map, List.getElem?_eq_getElem hk]; rfl
  have h3 := order_sum _ _ hnd hmem
  rw [List.length_map] at h3
  rw [gateNum, h2, List.getD, hl]
  conv_rhs => rw [← h3]
  exact orderIdx_lt ((hmem _).2 (List.mem_of_getElem? hl)) hl

theorem gateNum_inj [DecidableEq Id] [DecidableEq S] (h : init triv bias tg t = .ok m) {k k' : ℕ} (hk : k < t.reprs.length) (hk' : k' < t.reprs.length) (e : m.gateNum k = m.gateNum k') : k = k' := by
  obtain ⟨-, h2, -, -, -, -, -, hnd, hmem, -⟩ := init_ok h
  have hl : (t.reprs.map Rep.size)[k]? = some (t.reprs[k].size) := by rw [List.getElem?_map, List.getElem?_eq_getElem hk]; rfl
  have hl' : (t.reprs.map Rep.size)[k']? = some (t.reprs[k'].size) := by rw [List.getElem?_map, List.getElem?_eq_getElem hk']; rfl
  rw [gateNum, gateNum, h2, List.getD, hl, List.getD, hl'] at e
  exact orderIdx_inj ((hmem _).2 (List.mem_of_getElem? hl)) ((hmem _).2 (List.mem_of_getElem? hl')) hl hl' e

/-- **C50** The module with the gates in another input: it multiplies each field with the sigmoid of a gate of its own (`num` is a bijection of the fields and the gates) and commutes with the action
of the group on both inputs. -/
theorem C50_two_inputs [DecidableEq Id] [DecidableEq S] {op : G → G → G} {one : G} {T : IrrepTable G Id} (hT : T.Valid El op one) (htriv : T.IsTrivial El triv)
    (hwg : ∀ r ∈ tg.reprs, r.WF T El) (hwf : ∀ r ∈ t.reprs, r.WF T El) (h : init triv bias tg t = .ok m) (junk : B → ℕ → P → ℝ) :
    ∃ num : ℕ → ℕ, (∀ k < t.reprs.length, num k < tg.reprs.length) ∧ (∀ k < t.reprs.length, ∀ k' < t.reprs.length, num k = num k' → k = k') ∧
      ∀ g x : GTensor B P S (Rep G Id) C, g.type = tg → x.type = t → g.coords = x.coords → g.tensor.chans = tg.size Rep.size → x.tensor.chans = t.size Rep.size →
        ∃ y, forward junk m g x = .ok y ∧ y.type = t ∧ y.coords = x.coords ∧ y.tensor.chans = t.size Rep.size ∧
          (∀ (k : ℕ) r, t.reprs[k]? = some r → ∀ b o p, o < r.size → y.tensor.get b (((t.reprs.take k).map Rep.size).sum + o) p =
            x.tensor.get b (((t.reprs.take k).map Rep.size).sum + o) p * torchSigmoid (g.tensor.get b (num k) p - bias (num k))) ∧
          ∀ a, El a → ∃ ga xa ya ya', g.transformFibers a = .ok ga ∧ x.transformFibers a = .ok xa ∧ forward junk m ga xa = .ok ya ∧ y.transformFibers a = .ok ya' ∧
            ya.type = ya'.type ∧ ya.coords = ya'.coords ∧ ya.tensor ≈ ya'.tensor := by
  obtain ⟨h1, h2, h3, -, ht, -, hlen, -, -, -⟩ := init_ok h
  have hpos : ∀ r ∈ t.reprs, 0 < r.size := fun r hr => (hwf r hr).pos
  refine ⟨m.gateNum, fun k hk => by rw [hlen]; exact gateNum_lt h hk, fun k hk k' hk' e => gateNum_inj h hk hk' e, fun g x hg hx hco hgc hxc => ?_⟩
  obtain ⟨y, y1, y2, y3, y4, y5⟩ := forward_spec h hpos junk g x hg hx hco hxc
  refine ⟨y, y1, y2, y3, y4, y5, fun a ha => ?_⟩
  obtain ⟨ga, a1, a2, a3⟩ := transformFibers_act (GatedNL.wf_square hwg) ha g.tensor hgc
  obtain ⟨xa, b1, b2, b3⟩ := transformFibers_act (GatedNL.wf_square hwf) ha x.tensor hxc
  obtain ⟨ya', c1, c2, c3⟩ := transformFibers_act (GatedNL.wf_square hwf) ha y.tensor y4
  obtain ⟨ya, d1, d2, d3, d4, d5⟩ := forward_spec h hpos junk (⟨ga, tg, g.coords⟩ : GTensor B P S (Rep G Id) C) (⟨xa, t, x.coords⟩ : GTensor B P S (Rep G Id) C) rfl rfl hco b2
  refine ⟨⟨ga, tg, g.coords⟩, ⟨xa, t, x.coords⟩, ya, ⟨ya', t, y.coords⟩, ?_, ?_, d1, ?_, d2, by rw [d3, y3], d4.trans c2.symm, ?_⟩
  · rw [GTensor.transformFibers, hg]
    simp only [bind, Except.bind, a1]
    exact if_pos a2
  · rw [GTensor.transformFibers, hx]
    simp only [bind, Except.bind, b1]
    exact if_pos b2
  · rw [GTensor.transformFibers, y2]
    simp only [bind, Except.bind, c1]
    exact if_pos c2
  · intro b c p hcc
    rw [d4, FType.size_eq] at hcc
    obtain ⟨k, r, o, hk, ho, rfl⟩ := exists_field hcc
    have hkl := (List.getElem?_eq_some_iff.1 hk).1
    have hq : m.gateNum k < tg.reprs.length := by rw [hlen]; exact gateNum_lt h hkl
    -- the gates do not change
    have hgate : ga.get b (m.gateNum k) p = g.tensor.get b (m.gateNum k) p := by
      have hone : ∀ r ∈ tg.reprs, r.size = 1 := fun r hr => (Rep.isTrivial_mat hT htriv (hwg r hr) (ht r hr)).1
      have hoff : chanOffset Rep.size tg.reprs (m.gateNum k) = m.gateNum k := by
        have : (tg.reprs.take (m.gateNum k)).map Rep.size = List.replicate (m.gateNum k) 1 := by
          rw [List.eq_replicate_iff]
          refine ⟨by simp; omega, fun z hz => ?_⟩
          obtain ⟨r', hr', rfl⟩ := List.mem_map.1 hz
          exact hone r' (List.mem_of_mem_take hr')
        rw [chanOffset, this]
        simp
      obtain ⟨q1, q2⟩ := Rep.isTrivial_mat hT htriv (hwg _ (List.getElem_mem hq)) (ht _ (List.getElem_mem hq))
      have := a3 _ _ (List.getElem?_eq_getElem hq) b 0 p (by rw [q1]; exact one_pos)
      rw [q1, Finset.sum_range_one, (q2 a ha).2.2, one_mul, Nat.add_zero, hoff] at this
      exact this
    rw [d5 k r hk b o p ho, c3 k r hk b o p ho, b3 k r hk b o p ho]
    simp only
    rw [hgate, Finset.sum_mul]
    refine Finset.sum_congr rfl fun j hj => ?_
    rw [y5 k r hk b j p (Finset.mem_range.1 hj)]
    ring

end GatedNL2

end Escnn
