import Verif.Model.DeltaInit
import Mathlib.Algebra.BigOperators.Field
import Mathlib.Algebra.BigOperators.Ring.Finset
import Mathlib.Data.List.Perm.Subperm
import Mathlib.Tactic.Linarith
import Mathlib.Tactic.Ring
import Mathlib.Tactic.FieldSimp
import Mathlib.Tactic.Positivity

/-!
# C91: `deltaorthonormal_init`
-/

namespace Escnn

namespace DeltaInit

variable {I : Type} [DecidableEq I] {L : List (Attr I)} {rvs : I → ℕ → ℕ → ℕ → ℝ} {randn : I → ℕ → ℕ → ℝ} {t : List ℝ} {len : ℕ}

/-- The weight `p` maps the irrep `k` at the input position `ip` to the same irrep at the output position `op`, and its filter is at the centre. -/
def Hit (L : List (Attr I)) (k : I) (ip op p : ℕ) : Prop := ∃ a, L[p]? = some a ∧ a.inIrrep = k ∧ a.outIrrep = k ∧ a.radius.getD 0 = 0 ∧ a.inPos = ip ∧ a.outPos = op

theorem mem_keysOf {α : Type} [DecidableEq α] {l : List α} {x : α} : x ∈ keysOf l ↔ x ∈ l := by simp [keysOf]

theorem nodup_keysOf {α : Type} [DecidableEq α] (l : List α) : (keysOf l).Nodup := by
  rw [keysOf, List.nodup_reverse]
  exact List.nodup_dedup _

theorem mem_count {k : I} {ip op p : ℕ} : p ∈ count L k (ip, op) ↔ Hit L k ip op p := by
  unfold count Hit
  rw [List.mem_filter, List.mem_range]
  constructor
  · rintro ⟨h, h2⟩
    rw [List.getElem?_eq_getElem h] at h2
    simp only [Attr.counts, Bool.and_eq_true, decide_eq_true_eq, Prod.mk.injEq] at h2
    exact ⟨L[p], List.getElem?_eq_getElem h, h2.2.1, by rw [← h2.1.1, h2.2.1], h2.1.2, h2.2.2.1, h2.2.2.2⟩
  · rintro ⟨a, ha, h1, h2, h3, h4, h5⟩
    refine ⟨(List.getElem?_eq_some_iff.1 ha).1, ?_⟩
    rw [ha]
    simp only [Attr.counts, Bool.and_eq_true, decide_eq_true_eq, Prod.mk.injEq]
    exact ⟨⟨by rw [h1, h2], h3⟩, h1, h4, h5⟩

theorem nodup_count (k : I) (q : ℕ × ℕ) : (count L k q).Nodup := List.nodup_range.filter _

theorem mem_keys {k : I} {ip op : ℕ} : (ip, op) ∈ keys L k ↔ ∃ p, Hit L k ip op p := by
  unfold keys Hit
  rw [mem_keysOf, List.mem_map]
  constructor
  · rintro ⟨a, ha, he⟩
    rw [List.mem_filter] at ha
    simp only [Attr.counts, Bool.and_eq_true, decide_eq_true_eq] at ha
    obtain ⟨p, hp, hpa⟩ := List.mem_iff_getElem.1 ha.1
    rw [Prod.mk.injEq] at he
    exact ⟨p, a, by rw [List.getElem?_eq_getElem hp, hpa], ha.2.2, by rw [← ha.2.1.1, ha.2.2], ha.2.1.2, he.1, he.2⟩
  · rintro ⟨p, a, ha, h1, h2, h3, h4, h5⟩
    refine ⟨a, ?_, by rw [h4, h5]⟩
    rw [List.mem_filter]
    simp only [Attr.counts, Bool.and_eq_true, decide_eq_true_eq]
    exact ⟨List.mem_of_getElem? ha, ⟨by rw [h1, h2], h3⟩, h1⟩

theorem mem_ins {k : I} {ip : ℕ} : ip ∈ ins L k ↔ ∃ op p, Hit L k ip op p := by
  rw [ins, mem_keysOf, List.mem_map]
  constructor
  · rintro ⟨⟨a, b⟩, h, rfl⟩; exact ⟨b, mem_keys.1 h⟩
  · rintro ⟨b, h⟩; exact ⟨_, mem_keys.2 h, rfl⟩

theorem mem_outs {k : I} {op : ℕ} : op ∈ outs L k ↔ ∃ ip p, Hit L k ip op p := by
  rw [outs, mem_keysOf, List.mem_map]
  constructor
  · rintro ⟨⟨a, b⟩, h, rfl⟩; exact ⟨a, mem_keys.1 h⟩
  · rintro ⟨b, h⟩; exact ⟨_, mem_keys.2 h, rfl⟩

theorem mem_irreps {k : I} {ip op p : ℕ} (h : Hit L k ip op p) : k ∈ irreps L := by
  obtain ⟨a, ha, h1, h2, h3, -⟩ := h
  rw [irreps, mem_keysOf, List.mem_map]
  refine ⟨a, ?_, h1⟩
  rw [List.mem_filter]
  simp only [Attr.counts, decide_eq_true_eq]
  exact ⟨List.mem_of_getElem? ha, by rw [h1, h2], h3⟩

theorem zip_iff {α : Type} [DecidableEq α] {l : List α} (h : l.Nodup) {x : α × ℕ} : x ∈ l.zipIdx ↔ x.1 ∈ l ∧ x.2 = l.idxOf x.1 := by
  rw [List.mem_zipIdx_iff_getElem?]
  constructor
  · intro hx
    obtain ⟨hlt, he⟩ := List.getElem?_eq_some_iff.1 hx
    exact ⟨List.mem_of_getElem? hx, by rw [← he, h.idxOf_getElem]⟩
  · rintro ⟨h1, h2⟩
    rw [h2, List.getElem?_eq_getElem (List.idxOf_lt_length_iff.2 h1), List.getElem_idxOf]

/-- The value of a weight. -/
noncomputable def value (rvs : I → ℕ → ℕ → ℕ → ℝ) (randn : I → ℕ → ℕ → ℝ) (L : List (Attr I)) (k : I) (ip op p : ℕ) : ℝ :=
  weight randn L k ((outs L k).idxOf op) ((count L k (ip, op)).idxOf p) * mixing rvs L k ((outs L k).idxOf op) ((ins L k).idxOf ip)

theorem mem_assigns {k : I} {q : ℕ × ℝ} : q ∈ assigns rvs randn L k ↔ ∃ ip op, Hit L k ip op q.1 ∧ q.2 = value rvs randn L k ip op q.1 := by
  unfold assigns
  simp only [List.mem_flatMap, List.mem_map, zip_iff (nodup_count k _), zip_iff (nodup_keysOf _), ins, outs]
  constructor
  · rintro ⟨x, ⟨hx, hx2⟩, y, ⟨hy, hy2⟩, z, ⟨hz, hz2⟩, rfl⟩
    refine ⟨x.1, y.1, mem_count.1 hz, ?_⟩
    rw [value, ins, outs, hx2, hy2, hz2]
  · rintro ⟨ip, op, h, hv⟩
    exact ⟨(ip, _), ⟨mem_ins.2 ⟨op, _, h⟩, rfl⟩, (op, _), ⟨mem_outs.2 ⟨ip, _, h⟩, rfl⟩, (q.1, _), ⟨mem_count.2 h, rfl⟩, Prod.ext rfl hv.symm⟩

theorem fold_set (A : List (ℕ × ℝ)) : ∀ t : List ℝ, (A.foldl (fun t q => t.set q.1 q.2) t).length = t.length ∧ ∀ p v, (∀ q ∈ A, q.1 = p → q.2 = v) →
    ((∃ q ∈ A, q.1 = p) → p < t.length → (A.foldl (fun t q => t.set q.1 q.2) t)[p]? = some v) ∧
    ((∀ q ∈ A, q.1 ≠ p) → (A.foldl (fun t q => t.set q.1 q.2) t)[p]? = t[p]?) := by
  induction A with
  | nil => exact fun t => ⟨rfl, fun p v _ => ⟨fun ⟨q, hq, _⟩ => absurd hq (by simp), fun _ => rfl⟩⟩
  | cons a A ih =>
    intro t
    rw [List.foldl_cons]
    obtain ⟨h1, h2⟩ := ih (t.set a.1 a.2)
    rw [List.length_set] at h1 h2
    refine ⟨h1, fun p v hv => ?_⟩
    obtain ⟨h3, h4⟩ := h2 p v fun q hq => hv q (List.mem_cons_of_mem _ hq)
    refine ⟨fun hex hp => ?_, fun hne => ?_⟩
    · by_cases hA : ∃ q ∈ A, q.1 = p
      · exact h3 hA hp
      · push Not at hA
        rw [h4 hA]
        obtain ⟨q, hq, hqp⟩ := hex
        rcases List.mem_cons.1 hq with rfl | hq
        · rw [hqp, List.getElem?_set_self hp, hv q (by simp) hqp]
        · exact absurd hqp (hA q hq)
    · rw [h4 fun q hq => hne q (List.mem_cons_of_mem _ hq), List.getElem?_set_ne (hne a (by simp))]

theorem result (h : deltaInit rvs randn L len = .ok t) : len = L.length ∧ (∀ k ∈ irreps L, gridOk L k = true) ∧
    t = ((irreps L).flatMap (assigns rvs randn L)).foldl (fun t q => t.set q.1 q.2) (List.replicate len 0) := by
  unfold deltaInit at h
  split_ifs at h with h1 h2
  push Not at h1 h2
  exact ⟨h1, fun k hk => by simpa using h2 k hk, (Except.ok.inj h).symm⟩

theorem hit_unique {k k' : I} {ip op ip' op' p : ℕ} (h : Hit L k ip op p) (h' : Hit L k' ip' op' p) : k = k' ∧ ip = ip' ∧ op = op' := by
  obtain ⟨a, ha, h1, -, -, h4, h5⟩ := h
  obtain ⟨b, hb, g1, -, -, g4, g5⟩ := h'
  obtain rfl : a = b := Option.some.inj (ha.symm.trans hb)
  exact ⟨h1.symm.trans g1, h4.symm.trans g4, h5.symm.trans g5⟩

theorem value_of (h : deltaInit rvs randn L len = .ok t) {k : I} {ip op p : ℕ} (hp : Hit L k ip op p) : t[p]? = some (value rvs randn L k ip op p) := by
  obtain ⟨rfl, -, rfl⟩ := result h
  refine ((fold_set _ _).2 p _ fun q hq hqp => ?_).1 ?_ ?_
  · obtain ⟨k', hk', hq⟩ := List.mem_flatMap.1 hq
    obtain ⟨ip', op', h1, h2⟩ := mem_assigns.1 hq
    rw [hqp] at h1 h2
    obtain ⟨rfl, rfl, rfl⟩ := hit_unique hp h1
    exact h2
  · exact ⟨(p, value rvs randn L k ip op p), List.mem_flatMap.2 ⟨k, mem_irreps hp, mem_assigns.2 ⟨ip, op, hp, rfl⟩⟩, rfl⟩
  · obtain ⟨a, ha, -⟩ := hp
    rw [List.length_replicate]
    exact (List.getElem?_eq_some_iff.1 ha).1

/-- **C91** The length of the tensor has to be the dimension of the basis; every weight whose filter maps an irrep to another one, or is not at the centre, becomes 0. -/
theorem C91_zero (h : deltaInit rvs randn L len = .ok t) : len = L.length ∧ t.length = L.length ∧
    ∀ (p : ℕ) (a : Attr I), L[p]? = some a → (a.inIrrep ≠ a.outIrrep ∨ ∃ r, a.radius = some r ∧ r ≠ 0) → t[p]? = some 0 := by
  obtain ⟨rfl, -, rfl⟩ := result h
  refine ⟨rfl, by rw [(fold_set _ _).1, List.length_replicate], fun p a ha hn => ?_⟩
  have hno : ∀ q ∈ (irreps L).flatMap (assigns rvs randn L), q.1 ≠ p := fun q hq hqp => by
    obtain ⟨k', hk', hq⟩ := List.mem_flatMap.1 hq
    obtain ⟨ip', op', ⟨b, hb, h1, h2, h3, -⟩, -⟩ := mem_assigns.1 hq
    rw [hqp] at hb
    obtain rfl : a = b := Option.some.inj (ha.symm.trans hb)
    rcases hn with hn | ⟨r, hr, hr0⟩
    · exact hn (h1.trans h2.symm)
    · rw [hr] at h3; exact hr0 h3
  rw [((fold_set _ _).2 p 0 fun q hq hqp => absurd hqp (hno q hq)).2 hno, List.getElem?_replicate, if_pos (List.getElem?_eq_some_iff.1 ha).1]

theorem same_iff {l : List ℕ} {n : ℕ} (h : sameContent l = true) (hn : l.head? = some n) : ∀ x ∈ l, x = n := by
  intro x hx
  have := List.all_eq_true.1 h x hx
  rw [hn] at this
  simpa using this

theorem grid_full {k : I} (hg : gridOk L k = true) {ip op : ℕ} (hi : ip ∈ ins L k) (ho : op ∈ outs L k) : ∃ p, Hit L k ip op p := by
  rw [gridOk] at hg
  simp only [Bool.and_eq_true, decide_eq_true_eq] at hg
  obtain ⟨⟨⟨⟨-, g2⟩, -⟩, g4⟩, -⟩ := hg
  have hl := same_iff g2 g4 _ (List.mem_map_of_mem hi)
  have hnd : (((keys L k).filter fun q => q.1 = ip).map Prod.snd).Nodup := by
    refine List.Nodup.map_on (fun x hx y hy hxy => ?_) ((nodup_keysOf _).filter _)
    simp only [List.mem_filter, decide_eq_true_eq] at hx hy
    exact Prod.ext (hx.2.trans hy.2.symm) hxy
  have hsub : ((keys L k).filter fun q => q.1 = ip).map Prod.snd ⊆ outs L k := fun x hx => by
    obtain ⟨q, hq, rfl⟩ := List.mem_map.1 hx
    rw [outs, mem_keysOf]
    exact List.mem_map_of_mem (List.mem_filter.1 hq).1
  have hp := (hnd.subperm hsub).perm_of_length_le (by rw [List.length_map, hl])
  obtain ⟨⟨a, b⟩, hq, rfl⟩ := List.mem_map.1 (hp.mem_iff.2 ho)
  simp only [List.mem_filter, decide_eq_true_eq] at hq
  rw [← hq.2]
  exact mem_keys.1 hq.1

theorem length_count {k : I} (hg : gridOk L k = true) {ip op p : ℕ} (h : Hit L k ip op p) : (count L k (ip, op)).length = width L k := by
  rw [gridOk] at hg
  simp only [Bool.and_eq_true, decide_eq_true_eq] at hg
  have hm := List.mem_map_of_mem (f := fun q => (count L k q).length) (mem_keys.2 ⟨p, h⟩)
  obtain ⟨n, hn⟩ : ∃ n, ((keys L k).map fun q => (count L k q).length).head? = some n := by
    cases hc : (keys L k).map fun q => (count L k q).length with
    | nil => rw [hc] at hm; simp at hm
    | cons x l => exact ⟨x, rfl⟩
  rw [width, hn]
  exact same_iff hg.1.1.1.1 hn _ hm

/-- The `j`-th weight which maps the irrep `k` at `ip` to the same irrep at `op` at the centre. -/
noncomputable def nth (L : List (Attr I)) (k : I) (ip op j : ℕ) : ℕ := open Classical in (((List.range L.length).filter fun p => Hit L k ip op p)[j]?).getD 0

/-- The input positions of the irrep. -/
noncomputable def inputs (L : List (Attr I)) (k : I) : Finset ℕ := open Classical in (L.map Attr.inPos).toFinset.filter fun ip => ∃ op p, Hit L k ip op p

/-- The output positions of the irrep. -/
noncomputable def outputs (L : List (Attr I)) (k : I) : Finset ℕ := open Classical in (L.map Attr.outPos).toFinset.filter fun op => ∃ ip p, Hit L k ip op p

open Classical in
theorem filter_count (k : I) (ip op : ℕ) : ((List.range L.length).filter fun p => Hit L k ip op p) = count L k (ip, op) := by
  unfold count
  refine List.filter_congr fun p hp => ?_
  rw [Bool.eq_iff_iff, decide_eq_true_eq, ← mem_count, count, List.mem_filter]
  exact and_iff_right hp

theorem inputs_eq (k : I) : inputs L k = (ins L k).toFinset := by
  classical
  ext ip
  rw [inputs, Finset.mem_filter, List.mem_toFinset, List.mem_toFinset, mem_ins, and_iff_right_iff_imp]
  rintro ⟨op, p, a, ha, -, -, -, h4, -⟩
  exact List.mem_map.2 ⟨a, List.mem_of_getElem? ha, h4⟩

theorem outputs_eq (k : I) : outputs L k = (outs L k).toFinset := by
  classical
  ext op
  rw [outputs, Finset.mem_filter, List.mem_toFinset, List.mem_toFinset, mem_outs, and_iff_right_iff_imp]
  rintro ⟨ip, p, a, ha, -, -, -, -, h5⟩
  exact List.mem_map.2 ⟨a, List.mem_of_getElem? ha, h5⟩

theorem value_nth (h : deltaInit rvs randn L len = .ok t) {k : I} {ip op : ℕ} (hi : ip ∈ inputs L k) (ho : op ∈ outputs L k) {j : ℕ} (hj : j < width L k) :
    t.getD (nth L k ip op j) 0 = weight randn L k ((outs L k).idxOf op) j * mixing rvs L k ((outs L k).idxOf op) ((ins L k).idxOf ip) := by
  rw [inputs_eq, List.mem_toFinset] at hi
  rw [outputs_eq, List.mem_toFinset] at ho
  obtain ⟨op', p', hk⟩ := mem_ins.1 hi
  have hg := (result h).2.1 k (mem_irreps hk)
  obtain ⟨p, hp⟩ := grid_full hg hi ho
  have hl := length_count hg hp
  have hj' : j < (count L k (ip, op)).length := by rw [hl]; exact hj
  have hn : nth L k ip op j = (count L k (ip, op))[j] := by rw [nth, filter_count, List.getElem?_eq_getElem hj', Option.getD_some]
  have hh : Hit L k ip op (nth L k ip op j) := by rw [hn]; exact mem_count.1 (List.getElem_mem hj')
  rw [List.getD_eq_getElem?_getD, value_of h hh, Option.getD_some, value, hn, (nodup_count k _).idxOf_getElem]

theorem weight_norm (hz : ∀ k o, randn k o 0 ≠ 0) {k : I} (hw : 0 < width L k) (o : ℕ) : ∑ j ∈ Finset.range (width L k), weight randn L k o j ^ 2 = 1 := by
  have hpos : 0 < ∑ j ∈ Finset.range (width L k), (randn k o j * 5) ^ 2 := by
    refine Finset.sum_pos' (fun j _ => by positivity) ⟨0, Finset.mem_range.2 hw, ?_⟩
    have := hz k o
    positivity
  simp only [weight, div_pow, Real.sq_sqrt hpos.le]
  rw [← Finset.sum_div, div_self hpos.ne']

theorem sum_idx {l : List ℕ} (h : l.Nodup) (f : ℕ → ℝ) : ∑ x ∈ l.toFinset, f (l.idxOf x) = ∑ i ∈ Finset.range l.length, f i := by
  refine Finset.sum_bij (fun x _ => l.idxOf x) (fun x hx => ?_) (fun x hx y hy hxy => ?_) (fun i hi => ?_) fun _ _ => rfl
  · exact Finset.mem_range.2 (List.idxOf_lt_length_iff.2 (List.mem_toFinset.1 hx))
  · exact (List.idxOf_inj (List.mem_toFinset.1 hx)).1 hxy
  · rw [Finset.mem_range] at hi
    exact ⟨l[i], List.mem_toFinset.2 (List.getElem_mem hi), h.idxOf_getElem i hi⟩

theorem width_pos {k : I} (hg : gridOk L k = true) {ip op p : ℕ} (h : Hit L k ip op p) : 0 < width L k := by
  rw [← length_count hg h]
  exact List.length_pos_of_mem (mem_count.2 h)

open Classical in
/-- **C91** If an irrep has at least as many output as input positions, the map given by its weights at the centre has orthonormal columns: the contract of `ortho_group.rvs` is that the columns of the square matrix are orthonormal; no
`torch.randn` is zero. -/
theorem C91_columns (h : deltaInit rvs randn L len = .ok t) (hz : ∀ k o, randn k o 0 ≠ 0)
    (hr : ∀ k n, 1 < n → ∀ i < n, ∀ i' < n, ∑ o ∈ Finset.range n, rvs k n o i * rvs k n o i' = if i = i' then 1 else 0)
    {k : I} (hle : (inputs L k).card ≤ (outputs L k).card) {ip ip' : ℕ} (hi : ip ∈ inputs L k) (hi' : ip' ∈ inputs L k) :
    ∃ s, 0 < s ∧ (∀ op ∈ outputs L k, ((Finset.range L.length).filter fun p => Hit L k ip op p).card = s) ∧
      ∑ op ∈ outputs L k, ∑ j ∈ Finset.range s, t.getD (nth L k ip op j) 0 * t.getD (nth L k ip' op j) 0 = if ip = ip' then 1 else 0 := by
  have mi : ip ∈ ins L k := by rwa [inputs_eq, List.mem_toFinset] at hi
  have mi' : ip' ∈ ins L k := by rwa [inputs_eq, List.mem_toFinset] at hi'
  obtain ⟨op₀, p₀, hk⟩ := mem_ins.1 mi
  have hg := (result h).2.1 k (mem_irreps hk)
  have hw := width_pos hg hk
  have ndi : (ins L k).Nodup := nodup_keysOf _
  have ndo : (outs L k).Nodup := nodup_keysOf _
  have hci : (inputs L k).card = (ins L k).length := by rw [inputs_eq, List.toFinset_card_of_nodup ndi]
  have hco : (outputs L k).card = (outs L k).length := by rw [outputs_eq, List.toFinset_card_of_nodup ndo]
  rw [hci, hco] at hle
  refine ⟨width L k, hw, fun op ho => ?_, ?_⟩
  · rw [outputs_eq, List.mem_toFinset] at ho
    obtain ⟨p, hp⟩ := grid_full hg mi ho
    rw [← length_count hg hp, ← List.toFinset_card_of_nodup (nodup_count k (ip, op))]
    congr 1
    ext q
    rw [Finset.mem_filter, List.mem_toFinset, mem_count, and_iff_right_iff_imp, Finset.mem_range]
    exact fun ⟨a, ha, _⟩ => (List.getElem?_eq_some_iff.1 ha).1
  · have e : ∀ op ∈ outputs L k, ∑ j ∈ Finset.range (width L k), t.getD (nth L k ip op j) 0 * t.getD (nth L k ip' op j) 0 =
        mixing rvs L k ((outs L k).idxOf op) ((ins L k).idxOf ip) * mixing rvs L k ((outs L k).idxOf op) ((ins L k).idxOf ip') := fun op ho => by
      rw [Finset.sum_congr rfl fun j hj => by rw [value_nth h hi ho (Finset.mem_range.1 hj), value_nth h hi' ho (Finset.mem_range.1 hj)]]
      rw [← one_mul (mixing rvs L k _ _ * _), ← weight_norm hz hw ((outs L k).idxOf op), Finset.sum_mul]
      exact Finset.sum_congr rfl fun j _ => by ring
    rw [Finset.sum_congr rfl e, outputs_eq, sum_idx ndo fun o => mixing rvs L k o ((ins L k).idxOf ip) * mixing rvs L k o ((ins L k).idxOf ip')]
    have l1 := List.idxOf_lt_length_iff.2 mi
    have l2 := List.idxOf_lt_length_iff.2 mi'
    have hinj : (ins L k).idxOf ip = (ins L k).idxOf ip' ↔ ip = ip' := List.idxOf_inj mi
    unfold mixing
    rw [max_eq_left hle, max_eq_right hle]
    by_cases h1 : 1 < (outs L k).length
    · simp only [gt_iff_lt, if_pos h1]
      rw [hr k _ h1 _ (by omega) _ (by omega)]
      simp only [hinj]
    · have ho1 : (outs L k).length = 1 := by omega
      have : ip = ip' := hinj.1 (by omega)
      simp [ho1, this]

open Classical in
/-- **C91** If an irrep has at least as many input as output positions, the map has orthonormal rows. -/
theorem C91_rows (h : deltaInit rvs randn L len = .ok t) (hz : ∀ k o, randn k o 0 ≠ 0)
    (hr : ∀ k n, 1 < n → ∀ o < n, ∀ o' < n, ∑ i ∈ Finset.range n, rvs k n o i * rvs k n o' i = if o = o' then 1 else 0)
    {k : I} (hle : (outputs L k).card ≤ (inputs L k).card) {op op' : ℕ} (ho : op ∈ outputs L k) (ho' : op' ∈ outputs L k) :
    ∃ s, 0 < s ∧ (∀ ip ∈ inputs L k, ((Finset.range L.length).filter fun p => Hit L k ip op p).card = s) ∧
      ∑ ip ∈ inputs L k, ∑ j ∈ Finset.range s, t.getD (nth L k ip op j) 0 * t.getD (nth L k ip op' j) 0 = if op = op' then 1 else 0 := by
  have mo : op ∈ outs L k := by rwa [outputs_eq, List.mem_toFinset] at ho
  have mo' : op' ∈ outs L k := by rwa [outputs_eq, List.mem_toFinset] at ho'
  obtain ⟨ip₀, p₀, hk⟩ := mem_outs.1 mo
  have hg := (result h).2.1 k (mem_irreps hk)
  have hw := width_pos hg hk
  have ndi : (ins L k).Nodup := nodup_keysOf _
  have ndo : (outs L k).Nodup := nodup_keysOf _
  have hci : (inputs L k).card = (ins L k).length := by rw [inputs_eq, List.toFinset_card_of_nodup ndi]
  have hco : (outputs L k).card = (outs L k).length := by rw [outputs_eq, List.toFinset_card_of_nodup ndo]
  rw [hci, hco] at hle
  refine ⟨width L k, hw, fun ip hi => ?_, ?_⟩
  · rw [inputs_eq, List.mem_toFinset] at hi
    obtain ⟨p, hp⟩ := grid_full hg hi mo
    rw [← length_count hg hp, ← List.toFinset_card_of_nodup (nodup_count k (ip, op))]
    congr 1
    ext q
    rw [Finset.mem_filter, List.mem_toFinset, mem_count, and_iff_right_iff_imp, Finset.mem_range]
    exact fun ⟨a, ha, _⟩ => (List.getElem?_eq_some_iff.1 ha).1
  · have e : ∀ ip ∈ inputs L k, ∑ j ∈ Finset.range (width L k), t.getD (nth L k ip op j) 0 * t.getD (nth L k ip op' j) 0 =
        (∑ j ∈ Finset.range (width L k), weight randn L k ((outs L k).idxOf op) j * weight randn L k ((outs L k).idxOf op') j) *
        (mixing rvs L k ((outs L k).idxOf op) ((ins L k).idxOf ip) * mixing rvs L k ((outs L k).idxOf op') ((ins L k).idxOf ip)) := fun ip hi => by
      rw [Finset.sum_mul]
      exact Finset.sum_congr rfl fun j hj => by rw [value_nth h hi ho (Finset.mem_range.1 hj), value_nth h hi ho' (Finset.mem_range.1 hj)]; ring
    rw [Finset.sum_congr rfl e, ← Finset.mul_sum, inputs_eq, sum_idx ndi fun i => mixing rvs L k ((outs L k).idxOf op) i * mixing rvs L k ((outs L k).idxOf op') i]
    have l1 := List.idxOf_lt_length_iff.2 mo
    have l2 := List.idxOf_lt_length_iff.2 mo'
    have hinj : (outs L k).idxOf op = (outs L k).idxOf op' ↔ op = op' := List.idxOf_inj mo
    have hone := weight_norm (L := L) hz hw ((outs L k).idxOf op)
    unfold mixing
    rw [max_eq_right hle, max_eq_left hle]
    by_cases h1 : 1 < (ins L k).length
    · simp only [gt_iff_lt, if_pos h1]
      rw [hr k _ h1 _ (by omega) _ (by omega)]
      by_cases he : op = op'
      · subst he
        simp only [if_true, mul_one, ← pow_two, hone, one_pow]
      · rw [if_neg (fun hc => he (hinj.1 hc)), if_neg he, mul_zero]
    · have hi1 : (ins L k).length = 1 := by
        have : 0 < (outs L k).length := by omega
        omega
      obtain rfl : op = op' := hinj.1 (by omega)
      simp only [gt_iff_lt, if_neg h1, hi1, Finset.sum_range_one, if_true, ← pow_two, hone]
      norm_num

open Classical in
theorem card_hit (k : I) (ip op : ℕ) : ((Finset.range L.length).filter fun p => Hit L k ip op p).card = (count L k (ip, op)).length := by
  rw [← List.toFinset_card_of_nodup (nodup_count k (ip, op))]
  congr 1
  ext q
  rw [Finset.mem_filter, List.mem_toFinset, mem_count, and_iff_right_iff_imp, Finset.mem_range]
  exact fun ⟨a, ha, _⟩ => (List.getElem?_eq_some_iff.1 ha).1

theorem same_of {l : List ℕ} {n : ℕ} (h : ∀ x ∈ l, x = n) : sameContent l = true := by
  refine List.all_eq_true.2 fun x hx => ?_
  cases l with
  | nil => simp at hx
  | cons y l => simp [h x hx, h y (by simp)]

theorem head_of {l : List ℕ} {n : ℕ} (h : ∀ x ∈ l, x = n) (hne : l ≠ []) : l.head? = some n := by
  cases l with
  | nil => exact absurd rfl hne
  | cons y l => rw [List.head?_cons, h y (by simp)]

open Classical in
/-- **C91** The initialisation succeeds exactly if the tensor has the right length and, for every irrep, each of its input positions is mapped to each of its output positions by the same positive number of weights at the centre; otherwise
`AssertionError` is raised. -/
theorem C91_success : ((∃ t, deltaInit rvs randn L len = .ok t) ↔ len = L.length ∧ ∀ k : I, ∃ s, 0 < s ∧ ∀ ip ∈ inputs L k, ∀ op ∈ outputs L k, ((Finset.range L.length).filter fun p => Hit L k ip op p).card = s) ∧
    ((¬ ∃ t, deltaInit rvs randn L len = .ok t) → deltaInit rvs randn L len = .error .assertion) := by
  refine ⟨⟨fun ⟨t, h⟩ => ⟨(result h).1, fun k => ?_⟩, fun ⟨h1, h2⟩ => ?_⟩, fun hn => ?_⟩
  · by_cases hk : ∃ ip op p, Hit L k ip op p
    · obtain ⟨ip₀, op₀, p₀, hk⟩ := hk
      have hg := (result h).2.1 k (mem_irreps hk)
      refine ⟨width L k, width_pos hg hk, fun ip hi op ho => ?_⟩
      rw [inputs_eq, List.mem_toFinset] at hi
      rw [outputs_eq, List.mem_toFinset] at ho
      obtain ⟨p, hp⟩ := grid_full hg hi ho
      rw [card_hit, length_count hg hp]
    · refine ⟨1, one_pos, fun ip hi => ?_⟩
      rw [inputs_eq, List.mem_toFinset] at hi
      obtain ⟨op, p, hp⟩ := mem_ins.1 hi
      exact absurd ⟨ip, op, p, hp⟩ hk
  · suffices hno : ¬ ∃ k ∈ irreps L, gridOk L k = false from ⟨_, by rw [deltaInit, if_neg (by simpa using h1), if_neg hno]⟩
    rintro ⟨k, hk, hg⟩
    refine absurd hg ?_
    rw [Bool.not_eq_false]
    obtain ⟨s, hs, hG⟩ := h2 k
    have full : ∀ {ip op}, ip ∈ ins L k → op ∈ outs L k → (count L k (ip, op)).length = s ∧ (ip, op) ∈ keys L k := fun {ip op} hi ho => by
      have hc := hG ip (by rw [inputs_eq, List.mem_toFinset]; exact hi) op (by rw [outputs_eq, List.mem_toFinset]; exact ho)
      rw [card_hit] at hc
      obtain ⟨p, hp⟩ := List.exists_mem_of_length_pos (l := count L k (ip, op)) (by omega)
      exact ⟨hc, mem_keys.2 ⟨p, mem_count.1 hp⟩⟩
    have kin : ∀ {q}, q ∈ keys L k → q.1 ∈ ins L k ∧ q.2 ∈ outs L k := fun {q} hq => by
      obtain ⟨a, b⟩ := q
      obtain ⟨p, hp⟩ := mem_keys.1 hq
      exact ⟨mem_ins.2 ⟨b, p, hp⟩, mem_outs.2 ⟨a, p, hp⟩⟩
    obtain ⟨ip₀, op₀, h0⟩ : ∃ ip op, (ip, op) ∈ keys L k := by
      rw [irreps, mem_keysOf, List.mem_map] at hk
      obtain ⟨a, ha, rfl⟩ := hk
      refine ⟨a.inPos, a.outPos, ?_⟩
      rw [keys, mem_keysOf, List.mem_map]
      refine ⟨a, ?_, rfl⟩
      rw [List.mem_filter] at ha ⊢
      exact ⟨ha.1, by simp [ha.2]⟩
    have c1 : ∀ x ∈ (keys L k).map fun q => (count L k q).length, x = s := fun x hx => by
      obtain ⟨⟨a, b⟩, hq, rfl⟩ := List.mem_map.1 hx
      exact (full (kin hq).1 (kin hq).2).1
    have c2 : ∀ x ∈ inC L k, x = (outs L k).length := fun x hx => by
      obtain ⟨ip, hi, rfl⟩ := List.mem_map.1 hx
      rw [← List.length_map (f := Prod.snd) (as := (keys L k).filter fun q => q.1 = ip)]
      refine List.Perm.length_eq ((List.perm_ext_iff_of_nodup ?_ (nodup_keysOf _)).2 fun op => ⟨fun h => ?_, fun h => ?_⟩)
      · refine List.Nodup.map_on (fun x hx y hy hxy => ?_) ((nodup_keysOf _).filter _)
        simp only [List.mem_filter, decide_eq_true_eq] at hx hy
        exact Prod.ext (hx.2.trans hy.2.symm) hxy
      · obtain ⟨q, hq, rfl⟩ := List.mem_map.1 h
        exact (kin (List.mem_filter.1 hq).1).2
      · exact List.mem_map.2 ⟨(ip, op), List.mem_filter.2 ⟨(full hi h).2, by simp⟩, rfl⟩
    have c3 : ∀ x ∈ outC L k, x = (ins L k).length := fun x hx => by
      obtain ⟨op, ho, rfl⟩ := List.mem_map.1 hx
      rw [← List.length_map (f := Prod.fst) (as := (keys L k).filter fun q => q.2 = op)]
      refine List.Perm.length_eq ((List.perm_ext_iff_of_nodup ?_ (nodup_keysOf _)).2 fun ip => ⟨fun h => ?_, fun h => ?_⟩)
      · refine List.Nodup.map_on (fun x hx y hy hxy => ?_) ((nodup_keysOf _).filter _)
        simp only [List.mem_filter, decide_eq_true_eq] at hx hy
        exact Prod.ext hxy (hx.2.trans hy.2.symm)
      · obtain ⟨q, hq, rfl⟩ := List.mem_map.1 h
        exact (kin (List.mem_filter.1 hq).1).1
      · exact List.mem_map.2 ⟨(ip, op), List.mem_filter.2 ⟨(full h ho).2, by simp⟩, rfl⟩
    have n2 : inC L k ≠ [] := by
      rw [inC, Ne, List.map_eq_nil_iff]
      exact List.ne_nil_of_mem (kin h0).1
    have n3 : outC L k ≠ [] := by
      rw [outC, Ne, List.map_eq_nil_iff]
      exact List.ne_nil_of_mem (kin h0).2
    rw [gridOk, same_of c1, same_of c2, same_of c3, head_of c2 n2, head_of c3 n3]
    simp
  · unfold deltaInit at hn ⊢
    split_ifs at hn ⊢ with h1 h2
    · rfl
    · rfl
    · exact absurd ⟨_, rfl⟩ hn

open Classical in
/-- **C91** An irrep with one input and one output position: the factor `W` is always `-1` (`torch.randint(0, 1, …)` never returns `1`), so that the weights are minus the normalised noise. -/
theorem C91_single (h : deltaInit rvs randn L len = .ok t) {k : I} {ip op : ℕ} (hi : inputs L k = {ip}) (ho : outputs L k = {op}) :
    ∃ s, 0 < s ∧ ((Finset.range L.length).filter fun p => Hit L k ip op p).card = s ∧ ∀ j < s, t.getD (nth L k ip op j) 0 = -(randn k 0 j * 5 / √(∑ j ∈ Finset.range s, (randn k 0 j * 5) ^ 2)) := by
  have hci : (ins L k).length = 1 := by rw [← List.toFinset_card_of_nodup (show (ins L k).Nodup from nodup_keysOf _), ← inputs_eq, hi, Finset.card_singleton]
  have hco : (outs L k).length = 1 := by rw [← List.toFinset_card_of_nodup (show (outs L k).Nodup from nodup_keysOf _), ← outputs_eq, ho, Finset.card_singleton]
  have mo : op ∈ outs L k := by rw [← List.mem_toFinset, ← outputs_eq, ho]; exact Finset.mem_singleton_self _
  have mi : ip ∈ ins L k := by rw [← List.mem_toFinset, ← inputs_eq, hi]; exact Finset.mem_singleton_self _
  obtain ⟨op₀, p₀, hk⟩ := mem_ins.1 mi
  have hg := (result h).2.1 k (mem_irreps hk)
  obtain ⟨p, hp⟩ := grid_full hg mi mo
  refine ⟨width L k, width_pos hg hk, by rw [card_hit, length_count hg hp], fun j hj => ?_⟩
  have h0 : (outs L k).idxOf op = 0 := by have := List.idxOf_lt_length_iff.2 mo; omega
  rw [value_nth h (by rw [hi]; exact Finset.mem_singleton_self _) (by rw [ho]; exact Finset.mem_singleton_self _) hj, h0, mixing, hci, hco]
  norm_num [weight]

/-- One input and two output positions of an irrep, and a filter which maps it to another irrep. -/
def sample : List (Attr ℕ) := [⟨0, 0, 0, 0, none⟩, ⟨0, 0, 0, 1, some 0⟩, ⟨0, 1, 0, 2, none⟩]

theorem sample_hit {k ip op p : ℕ} : Hit sample k ip op p ↔ k = 0 ∧ ip = 0 ∧ op = p ∧ p < 2 := by
  unfold Hit sample
  match p with
  | 0 => simp; omega
  | 1 => simp; omega
  | 2 => simp; omega
  | n + 3 => simp

/-- The initialisation succeeds for it, and the contracts of `C91_columns` are met by the identity matrices and constant noise. -/
example : (∃ t, deltaInit (fun _ _ o i => if o = i then (1 : ℝ) else 0) (fun _ _ _ => 1) sample 3 = .ok t ∧ t[2]? = some 0) ∧ 0 ∈ inputs sample 0 ∧ (inputs sample 0).card ≤ (outputs sample 0).card ∧
    ∀ n, ∀ i < n, ∀ i' < n, ∑ o ∈ Finset.range n, (if o = i then (1 : ℝ) else 0) * (if o = i' then 1 else 0) = if i = i' then 1 else 0 := by
  classical
  have hin : inputs sample 0 = {0} := by
    ext x
    simp only [inputs, Finset.mem_filter, sample_hit, Finset.mem_singleton, List.mem_toFinset]
    exact ⟨fun h => h.2.choose_spec.choose_spec.2.1, fun h => ⟨by simp [sample, h], 0, 0, trivial, h, rfl, by norm_num⟩⟩
  have hout : outputs sample 0 = {0, 1} := by
    ext x
    simp only [outputs, Finset.mem_filter, sample_hit, Finset.mem_singleton, Finset.mem_insert, List.mem_toFinset]
    constructor
    · rintro ⟨-, -, p, -, -, rfl, h⟩; omega
    · rintro (rfl | rfl)
      · exact ⟨by simp [sample], 0, 0, trivial, rfl, rfl, by norm_num⟩
      · exact ⟨by simp [sample], 0, 1, trivial, rfl, rfl, by norm_num⟩
  refine ⟨?_, by rw [hin]; exact Finset.mem_singleton_self _, by rw [hin, hout]; decide, fun n i hi i' hi' => ?_⟩
  · have hG : ∀ k ip, ip ∈ inputs sample k → ∀ op ∈ outputs sample k, ((Finset.range sample.length).filter fun p => Hit sample k ip op p).card = 1 := fun k ip hi op ho => by
      simp only [inputs, outputs, Finset.mem_filter, sample_hit] at hi ho
      obtain ⟨-, -, -, rfl, rfl, -⟩ := hi
      obtain ⟨-, -, p, -, -, rfl, hp⟩ := ho
      rw [Finset.card_eq_one]
      refine ⟨op, ?_⟩
      ext q
      rw [Finset.mem_filter, Finset.mem_range, sample_hit, Finset.mem_singleton, show sample.length = 3 from rfl]
      exact ⟨fun h => h.2.2.2.1.symm, fun h => ⟨by omega, rfl, rfl, h.symm, by omega⟩⟩
    obtain ⟨t, ht⟩ := (C91_success (rvs := fun _ _ o i => if o = i then (1 : ℝ) else 0) (randn := fun _ _ _ => 1) (L := sample) (len := 3)).1.2 ⟨rfl, fun k => ⟨1, one_pos, hG k⟩⟩
    exact ⟨t, ht, (C91_zero ht).2.2 2 _ rfl (.inl (by norm_num))⟩
  · simp [hi', eq_comm]

end DeltaInit

end Escnn
