import Verif.Model.NormNonlin
import Verif.Lemmas.GroupedRun
import Verif.Lemmas.Equivariant
import Verif.Lemmas.Fixtures

/-!
# C49: norm nonlinearities are equivariant for orthogonal representations
-/

namespace Escnn

/-- Every representation of the type acts by orthogonal matrices. -/
def Orthogonal {S G Id : Type} (El : G → Prop) (t : FType S (Rep G Id)) : Prop := ∀ r ∈ t.reprs, ∀ g, El g → IsOrthMat r.size (r.mat g)

theorem Orthogonal.square {S G Id : Type} {El : G → Prop} {t : FType S (Rep G Id)} (h : Orthogonal El t) : t.Square El := fun r hr g hg => ⟨(h r hr g hg).1, (h r hr g hg).2.1⟩

/-- The norm of a field does not change under the action. -/
theorem FieldAct.norm {B P S G Id : Type} {El : G → Prop} {t : FType S (Rep G Id)} (h : Orthogonal El t) {g : G} (hg : El g) {x gx : FTensor B P} (hact : FieldAct t g x gx)
    {k : ℕ} {r : Rep G Id} (hk : t.reprs[k]? = some r) (b : B) (p : P) :
    fieldNormOf r.size (fun o => gx.get b (chanOffset Rep.size t.reprs k + o) p) = fieldNormOf r.size (fun o => x.get b (chanOffset Rep.size t.reprs k + o) p) := by
  unfold fieldNormOf
  rw [← (h r (List.mem_of_getElem? hk) g hg).norm fun o => x.get b (chanOffset Rep.size t.reprs k + o) p]
  congr 1
  refine Finset.sum_congr rfl fun o ho => ?_
  simp only [hact k r hk b o p (Finset.mem_range.1 ho)]

/-- The sorted list of the labels. -/
theorem order_spec (labels : List ℕ) : ((keysInOrder labels).mergeSort (fun a b => decide (a ≤ b))).Nodup ∧
    ∀ l, l ∈ (keysInOrder labels).mergeSort (fun a b => decide (a ≤ b)) ↔ l ∈ labels := by
  have hp := List.mergeSort_perm (keysInOrder labels) (fun a b => decide (a ≤ b))
  exact ⟨hp.symm.nodup (keysInOrder_nodup labels), fun l => by rw [hp.mem_iff, mem_keysInOrder]⟩

theorem order_sum (labels ls : List ℕ) (hn : ls.Nodup) (hm : ∀ l, l ∈ ls ↔ l ∈ labels) : (ls.map fun l => labels.count l).sum = labels.length := by
  have h1 : ls.Perm labels.dedup := (List.perm_ext_iff_of_nodup hn (List.nodup_dedup _)).2 fun l => by rw [hm, List.mem_dedup]
  rw [(h1.map _).sum_eq, List.sum_map_count_dedup_eq_length]

namespace NormNL

variable {B P S G Id C : Type} {El : G → Prop}

theorem init_ok {t : FType S (Rep G Id)} {function : String} {bias : Bool} {m : NormNL S (Rep G Id)} (h : init t function bias = .ok m) :
    m.inType = t ∧ m.sizes = t.reprs.map Rep.size ∧ runTable Rep.size t (t.reprs.map Rep.size) = .ok m.table ∧ m.order.Nodup ∧ (∀ s, s ∈ m.order ↔ s ∈ m.sizes) ∧
      functionOf function bias = .ok m.function ∧ m.eps = 1 / 10 ^ 10 ∧ (m.logBias = if bias then some fun _ => 0 else none) ∧ ∀ r ∈ t.reprs, "norm" ∈ r.nonlin := by
  unfold init at h
  split at h
  · rename_i hn
    cases hf : functionOf function bias with
    | error e => rw [hf] at h; cases h
    | ok f =>
      cases ht : runTable Rep.size t (t.reprs.map Rep.size) with
      | error e => rw [hf, ht] at h; cases h
      | ok tab =>
        rw [hf, ht] at h
        obtain rfl := Except.ok.inj h
        exact ⟨rfl, rfl, rfl, (order_spec _).1, (order_spec _).2, rfl, rfl, rfl, hn⟩
  · cases h

/-- The number of the bias used by field `k`. -/
def biasOf {R : Type} (m : NormNL S R) (s k : ℕ) : ℕ := m.nextBias s + (labelled m.sizes s).idxOf k

/-- What the forward pass computes. -/
theorem forward_spec (junk : B → ℕ → P → ℝ) {m : NormNL S (Rep G Id)} (hpos : ∀ r ∈ m.inType.reprs, 0 < r.size) (hsz : m.sizes = m.inType.reprs.map Rep.size)
    (htab : runTable Rep.size m.inType (m.inType.reprs.map Rep.size) = .ok m.table) (hnd : m.order.Nodup) (hmem : ∀ s, s ∈ m.order ↔ s ∈ m.sizes)
    (x : GTensor B P S (Rep G Id) C) (hx : x.type = m.inType) (hc : x.tensor.chans = m.inType.size Rep.size) :
    ∃ y, forward junk m x = .ok y ∧ y.type = m.inType ∧ y.coords = x.coords ∧ y.tensor.chans = m.inType.size Rep.size ∧
      ∀ (k : ℕ) (r : Rep G Id), m.inType.reprs[k]? = some r → ∀ o < r.size, ∀ b p, y.tensor.get b (chanOffset Rep.size m.inType.reprs k + o) p =
        x.tensor.get b (chanOffset Rep.size m.inType.reprs k + o) p * m.multiplier (m.biasOf r.size k) (fieldNormOf r.size fun o => x.tensor.get b (chanOffset Rep.size m.inType.reprs k + o) p) := by
  obtain ⟨d, hd, ht⟩ := runTable_spec (sz := Rep.size) m.inType hpos (m.inType.reprs.map Rep.size) (by simp)
  rw [htab] at hd
  obtain rfl := Except.ok.inj hd
  have hlab : ∀ (k : ℕ) (l : ℕ) (r : Rep G Id), (m.inType.reprs.map Rep.size)[k]? = some l → m.inType.reprs[k]? = some r → r.size = l := by
    intro k l r h1 h2
    rw [List.getElem?_map, h2] at h1
    simpa using h1
  obtain ⟨res, h1, h2, h3⟩ := groupedLoop_run (x := x.tensor) (out := ⟨x.tensor.chans, junk⟩) (F := m.step) (rs := m.inType.reprs) (rs' := m.inType.reprs)
    (sz := Rep.size) (sz' := Rep.size) (labels := m.inType.reprs.map Rep.size) (ls := m.order) (tin := m.table) (tout := m.table) (s := id) (s' := id)
    (fun s n k b _ p => m.multiplier (m.nextBias s + n) (fieldNormOf s fun o => x.tensor.get b (chanOffset Rep.size m.inType.reprs k + o) p))
    hnd (fun s => by rw [hmem, hsz]) (by simp) (by simp) (fun k l r => hlab k l r) (fun k l r => hlab k l r) ht ht (by rw [hc, FType.size_eq]) (by rw [hc, FType.size_eq])
    (by
      intro s hs d hd
      obtain ⟨f, e1, e2, e3, e4⟩ := hd.toFields
      have e3 : f.size = s := e3
      have e1' : d.toFields (m.sizes.count s) s = .ok f := by rw [hsz, ← labelled_length]; exact e1
      refine ⟨(⟨f.n, f.size, fun b n _ p => m.multiplier (m.nextBias s + n) (fieldNormOf s fun o => f.get b n o p)⟩ : FieldsT B P).flat, ?_, ?_, fun n k hn b o p ho => ?_⟩
      · simp only [step, bind, Except.bind, e1']
      · simp only [FieldsT.flat, e2, e3, id]
      · have := FieldsT.flat_get (⟨f.n, f.size, fun b n _ p => m.multiplier (m.nextBias s + n) (fieldNormOf s fun o => f.get b n o p)⟩ : FieldsT B P) b (n := n) (o := o) p (by rw [e3]; exact ho)
        simp only [e3] at this
        simp only [id] at ho ⊢
        rw [show (FieldsT.flat _) = (⟨f.n, s, fun b n _ p => m.multiplier (m.nextBias s + n) (fieldNormOf s fun o => f.get b n o p)⟩ : FieldsT B P).flat by rw [e3], this]
        congr 1
        unfold fieldNormOf
        congr 1
        exact Finset.sum_congr rfl fun o' ho' => by simp only [e4 n k hn b o' p (Finset.mem_range.1 ho')])
  refine ⟨⟨⟨x.tensor.chans, fun b c p => x.tensor.get b c p * res.get b c p⟩, m.inType, x.coords⟩, ?_, rfl, rfl, hc, fun k r hk o ho b p => ?_⟩
  · rw [forward, if_pos hx]
    simp only [bind, Except.bind, h1]
    exact if_pos hc
  · simp only
    rw [h3 k r.size (by rw [List.getElem?_map, hk]; rfl) b o p ho, biasOf, hsz]

/-- **C49** For each type of orthogonal representations, function, biases, `eps`, content of the uninitialised memory, input and group element, the module commutes with the action; it computes at each position
from the values at that position. -/
theorem C49_equivariant (t : FType S (Rep G Id)) (horth : Orthogonal El t) (hpos : ∀ r ∈ t.reprs, 0 < r.size) {function : String} {bias : Bool} {m : NormNL S (Rep G Id)}
    (hm : init t function bias = .ok m) (f : ℝ → ℝ) (lb : Option (ℕ → ℝ)) (eps : ℝ) (junk : B → ℕ → P → ℝ) :
    FibreEquivariant (B := B) (P := P) (C := C) El t t (forward junk { m with function := f, logBias := lb, eps := eps }) ∧
    PositionLocal (B := B) (P := P) (C := C) Rep.size t (forward junk { m with function := f, logBias := lb, eps := eps }) := by
  obtain ⟨h1, h2, h3, h4, h5, -⟩ := init_ok hm
  subst h1
  set m' : NormNL S (Rep G Id) := { m with function := f, logBias := lb, eps := eps } with hm'
  have hf := fun x hx hc => forward_spec (C := C) junk (m := m') hpos h2 h3 h4 h5 x hx hc
  constructor
  · refine FibreEquivariant.of_fields horth.square horth.square (fun x k o b p => x.get b (chanOffset Rep.size m.inType.reprs k + o) p *
      match m.inType.reprs[k]? with
      | some r => m'.multiplier (m'.biasOf r.size k) (fieldNormOf r.size fun o => x.get b (chanOffset Rep.size m.inType.reprs k + o) p)
      | none => 0) (fun x hx hc => ?_) ?_
    · obtain ⟨y, e1, e2, e3, e4, e5⟩ := hf x hx hc
      refine ⟨y, e1, e2, e3, e4, fun k r hk o ho b p => ?_⟩
      rw [hk]
      exact e5 k r hk o ho b p
    · intro g hg x gx _ _ hact k r hk o ho b p
      simp only [hk]
      rw [hact.norm horth hg hk, hact k r hk b o p ho, Finset.sum_mul]
      exact Finset.sum_congr rfl fun j _ => by ring
  · refine PositionLocal.of_fields (sz := Rep.size) (inT := m.inType) (outT := m.inType) (fun x k o b p => x.get b (chanOffset Rep.size m.inType.reprs k + o) p *
      match m.inType.reprs[k]? with
      | some r => m'.multiplier (m'.biasOf r.size k) (fieldNormOf r.size fun o => x.get b (chanOffset Rep.size m.inType.reprs k + o) p)
      | none => 0) (fun x hx hc => ?_) (fun _ _ _ _ _ _ => rfl)
    obtain ⟨y, e1, e2, e3, e4, e5⟩ := hf x hx hc
    refine ⟨y, e1, e2, e3, e4, fun k r hk o ho b p => ?_⟩
    rw [hk]
    exact e5 k r hk o ho b p

/-- Each field has a bias of its own. -/
theorem biasOf_lt {R : Type} (m : NormNL S R) (hnd : m.order.Nodup) (hmem : ∀ s, s ∈ m.order ↔ s ∈ m.sizes) {s s' k k' : ℕ} (hk : m.sizes[k]? = some s) (hk' : m.sizes[k']? = some s') :
    m.biasOf s k < m.sizes.length ∧ (m.biasOf s k = m.biasOf s' k' → k = k') := by
  have hlt : ∀ {s k : ℕ}, m.sizes[k]? = some s → (labelled m.sizes s).idxOf k < m.sizes.count s := by
    intro s k hk
    rw [← labelled_length]
    exact List.idxOf_lt_length_of_mem (mem_labelled.2 hk)
  have hsplit : ∀ {s : ℕ}, s ∈ m.order → ∃ pre q, m.order = pre ++ s :: q ∧ s ∉ pre ∧ m.nextBias s = (pre.map fun s' => m.sizes.count s').sum := by
    intro s hs
    obtain ⟨pre, q, h1, h2⟩ := List.eq_append_cons_of_mem hs
    refine ⟨pre, q, h1, h2, ?_⟩
    rw [nextBias, h1, List.takeWhile_append_of_pos (fun a ha => by simpa using fun e : a = s => h2 (e ▸ ha)), List.takeWhile_cons_of_neg (by simp), List.append_nil]
  have hsm : ∀ {s k : ℕ}, m.sizes[k]? = some s → s ∈ m.order := fun hk => (hmem _).2 (List.mem_of_getElem? hk)
  constructor
  · obtain ⟨pre, q, hq, -, hn⟩ := hsplit (hsm hk)
    have h1 := order_sum m.sizes m.order hnd hmem
    rw [hq, List.map_append, List.sum_append, List.map_cons, List.sum_cons] at h1
    have h2 := hlt hk
    unfold biasOf
    omega
  · intro e
    obtain ⟨pre, q, hq, hp, hn⟩ := hsplit (hsm hk)
    obtain ⟨pre', q', hq', hp', hn'⟩ := hsplit (hsm hk')
    have h1 := hlt hk
    have h2 := hlt hk'
    unfold biasOf at e
    rcases List.append_eq_append_iff.1 (hq.symm.trans hq') with ⟨w, hw1, hw2⟩ | ⟨w, hw1, hw2⟩
    · cases w with
      | nil =>
        simp only [List.append_nil, List.nil_append, List.cons.injEq] at hw1 hw2
        obtain ⟨rfl, -⟩ := hw2
        subst hw1
        exact (List.idxOf_inj (mem_labelled.2 hk)).1 (by omega)
      | cons a w =>
        obtain ⟨rfl, -⟩ := List.cons.inj hw2
        rw [hw1] at hn'
        simp only [List.map_append, List.sum_append, List.map_cons, List.sum_cons] at hn'
        omega
    · cases w with
      | nil =>
        simp only [List.append_nil, List.nil_append, List.cons.injEq] at hw1 hw2
        obtain ⟨rfl, -⟩ := hw2
        subst hw1
        exact (List.idxOf_inj (mem_labelled.2 hk)).1 (by omega)
      | cons a w =>
        obtain ⟨rfl, -⟩ := List.cons.inj hw2
        rw [hw1] at hn
        simp only [List.map_append, List.sum_append, List.map_cons, List.sum_cons] at hn
        omega

/-- **C49** Each field is multiplied by a function of its norm: 0 if the norm is at most `eps`, else the new norm `f(norm - bias)` over the norm (at least `eps`).  `bias` is the exponential of an entry of `log_bias`
which no other field uses. -/
theorem C49_rescales (t : FType S (Rep G Id)) (hpos : ∀ r ∈ t.reprs, 0 < r.size) {function : String} {bias : Bool} {m : NormNL S (Rep G Id)}
    (hm : init t function bias = .ok m) (f : ℝ → ℝ) (lb : Option (ℕ → ℝ)) (eps : ℝ) (junk : B → ℕ → P → ℝ) :
    ∃ idx : ℕ → ℕ, (∀ k < t.reprs.length, idx k < t.reprs.length ∧ ∀ k' < t.reprs.length, idx k = idx k' → k = k') ∧
    ∀ x : GTensor B P S (Rep G Id) C, x.type = t → x.tensor.chans = t.size Rep.size →
      ∃ y, forward junk { m with function := f, logBias := lb, eps := eps } x = .ok y ∧ y.type = t ∧ y.coords = x.coords ∧ y.tensor.chans = x.tensor.chans ∧
        ∀ (k : ℕ) (r : Rep G Id), t.reprs[k]? = some r → ∀ b p (norm : ℝ), norm = Real.sqrt (∑ o ∈ Finset.range r.size, x.tensor.get b (((t.reprs.take k).map Rep.size).sum + o) p ^ 2) → ∀ o < r.size,
          y.tensor.get b (((t.reprs.take k).map Rep.size).sum + o) p = x.tensor.get b (((t.reprs.take k).map Rep.size).sum + o) p *
            if norm ≤ eps then 0 else (match lb with | some l => f (norm - Real.exp (l (idx k))) | none => f norm) / max norm eps := by
  obtain ⟨h1, h2, h3, h4, h5, -⟩ := init_ok hm
  subst h1
  set m' : NormNL S (Rep G Id) := { m with function := f, logBias := lb, eps := eps } with hm'
  refine ⟨fun k => m'.biasOf (m'.sizes.getD k 0) k, fun k hk => ?_, fun x hx hc => ?_⟩
  · have hlen : m'.sizes.length = m.inType.reprs.length := by show m.sizes.length = _; rw [h2]; simp
    have hg : ∀ k < m.inType.reprs.length, m'.sizes[k]? = some (m'.sizes.getD k 0) := by
      intro k hk
      have : k < m'.sizes.length := by rw [hlen]; exact hk
      simp [List.getD, this]
    refine ⟨?_, fun k' hk' => ?_⟩
    · rw [← hlen]; exact (biasOf_lt m' h4 h5 (hg k hk) (hg k hk)).1
    · exact (biasOf_lt m' h4 h5 (hg k hk) (hg k' hk')).2
  · obtain ⟨y, e1, e2, e3, e4, e5⟩ := forward_spec (C := C) junk (m := m') hpos h2 h3 h4 h5 x hx hc
    refine ⟨y, e1, e2, e3, e4.trans hc.symm, fun k r hk b p norm hn o ho => ?_⟩
    have hsk : m'.sizes.getD k 0 = r.size := by
      show m.sizes.getD k 0 = _
      rw [h2]
      simp [List.getD, hk]
    have := e5 k r hk o ho b p
    unfold chanOffset at this
    rw [show m'.inType = m.inType from rfl] at this
    rw [this]
    simp only [hsk]
    congr 1
    unfold multiplier fieldNormOf
    rw [← hn]
    rfl

/-- **C49** The constructor. -/
theorem C49_init (t : FType S (Rep G Id)) (hpos : ∀ r ∈ t.reprs, 0 < r.size) (function : String) (bias : Bool) :
    (∃ m, init t function bias = .ok m) ↔
      (∀ r ∈ t.reprs, "norm" ∈ r.nonlin) ∧ (function ∈ ["n_relu", "n_sigmoid", "n_softplus"] ∨ function = "squash" ∧ bias = false) := by
  obtain ⟨tab, ht, -⟩ := runTable_spec (sz := Rep.size) t hpos (t.reprs.map Rep.size) (by simp)
  have hfun : (∃ f, functionOf function bias = .ok f) ↔ (function ∈ ["n_relu", "n_sigmoid", "n_softplus"] ∨ function = "squash" ∧ bias = false) := by
    unfold functionOf
    split_ifs with h1 h2 h3 h4 h5
    · simp [h1]
    · simp [h2]
    · simp [h3]
    · simp [h4, h5]
    · simp [h4, h5]
    · simp [h1, h2, h3, h4]
  rw [← hfun]
  unfold init
  split
  · rename_i hn
    rw [ht]
    cases hf : functionOf function bias with
    | error e => simp [bind, Except.bind]
    | ok f =>
      simp only [bind, Except.bind, Except.ok.injEq, exists_eq', and_true, true_iff]
      exact hn
  · rename_i hn
    simp only [reduceCtorEq, exists_false, false_iff, not_and]
    exact fun h => absurd h hn

/-- Fields of different sizes, one of them with a sign, and a bias. -/
example (junk : Unit → ℕ → Unit → ℝ) (lb : ℕ → ℝ) : ∃ m, init (⟨(), [swapRep, signRep, swapRep]⟩ : FType Unit (Rep Bool Unit)) "n_relu" true = .ok m ∧
    FibreEquivariant (B := Unit) (P := Unit) (C := Unit) (fun _ : Bool => True) ⟨(), [swapRep, signRep, swapRep]⟩ ⟨(), [swapRep, signRep, swapRep]⟩ (forward junk { m with logBias := some lb }) := by
  have hmem : ∀ r ∈ [swapRep, signRep, swapRep], r = swapRep ∨ r = signRep := by intro r hr; simp at hr; tauto
  obtain ⟨m, hm⟩ := (C49_init (⟨(), [swapRep, signRep, swapRep]⟩ : FType Unit (Rep Bool Unit)) (by
    intro r hr
    rcases hmem r hr with rfl | rfl
    · exact two_pos
    · exact one_pos) "n_relu" true).2 ⟨by
      intro r hr
      rcases hmem r hr with rfl | rfl <;> simp [swapRep, signRep], by simp⟩
  refine ⟨m, hm, ?_⟩
  have := (C49_equivariant (El := fun _ : Bool => True) (C := Unit) (⟨(), [swapRep, signRep, swapRep]⟩ : FType Unit (Rep Bool Unit)) (by
    intro r hr g _
    rcases hmem r hr with rfl | rfl
    · exact (swapRep_perm g).orth
    · exact (signRep_signed g).orth) (by
    intro r hr
    rcases hmem r hr with rfl | rfl
    · exact two_pos
    · exact one_pos) hm m.function (some lb) m.eps junk).1
  exact this

end NormNL

end Escnn
