import Verif.Model.Sampler
import Verif.Lemmas.Expansion
import Verif.Lemmas.Kron

/-!
# The loops of `BlocksBasisSampler`
-/

namespace Escnn

namespace Sampler

variable {R X A : Type}

theorem flat_eq (e : Expanded) (hi : 0 < e.i) (hj : 0 < e.ic) (p a l : ℕ) (hl : l < e.ic * e.i) :
    e.flat p (a * (e.ic * e.i) + l) = e.get p (a / e.o) (a % e.o) (l / e.i) (l % e.i) := by
  have h1 : (a * (e.ic * e.i) + l) / e.i = a * e.ic + l / e.i := by
    rw [← Nat.mul_assoc, Nat.add_comm, Nat.add_mul_div_right _ _ hi, Nat.add_comm]
  have h2 : l / e.i < e.ic := Nat.div_lt_of_lt_mul (by rw [Nat.mul_comm]; exact hl)
  have h3 : (a * e.ic + l / e.i) / e.ic = a := by rw [Nat.add_comm, Nat.add_mul_div_right _ _ hj, Nat.div_eq_of_lt h2, Nat.zero_add]
  have h4 : (a * e.ic + l / e.i) % e.ic = l / e.i := by rw [Nat.add_comm, Nat.add_mul_mod_self_right, Nat.mod_eq_of_lt h2]
  have h5 : (a * (e.ic * e.i) + l) % e.i = l % e.i := by rw [← Nat.mul_assoc, Nat.add_comm, Nat.add_mul_mod_self_right]
  unfold Expanded.flat
  rw [h1, h3, h4, h5]

theorem mem_mesh {O I : List ℕ} {r c : ℕ} : (r, c) ∈ mesh O I ↔ r ∈ O ∧ c ∈ I := by
  simp only [mesh, List.mem_flatMap, List.mem_map, Prod.mk.injEq]
  constructor
  · rintro ⟨o, ho, i, hi, rfl, rfl⟩; exact ⟨ho, hi⟩
  · rintro ⟨h1, h2⟩; exact ⟨r, h1, c, h2, rfl, rfl⟩

theorem mesh_length (O I : List ℕ) : (mesh O I).length = O.length * I.length := by
  rw [mesh, flatMap_length_uniform O _ I.length (by simp)]

theorem idxOf_map_pair (r c : ℕ) (I : List ℕ) : (I.map fun i => (r, i)).idxOf (r, c) = I.idxOf c := by
  induction I with
  | nil => rfl
  | cons i I ih =>
    rw [List.map_cons, List.idxOf_cons, List.idxOf_cons, ih]
    by_cases h : i = c
    · simp [h]
    · have : ((r, i) == (r, c)) = false := by simp [h]
      have h' : (i == c) = false := by simp [h]
      rw [this, h']

theorem idxOf_mesh {O I : List ℕ} {r c : ℕ} (hr : r ∈ O) (hc : c ∈ I) : (mesh O I).idxOf (r, c) = O.idxOf r * I.length + I.idxOf c := by
  induction O with
  | nil => simp at hr
  | cons o O ih =>
    have e : mesh (o :: O) I = (I.map fun i => (o, i)) ++ mesh O I := rfl
    rw [e]
    by_cases h : o = r
    · subst h
      rw [List.idxOf_append_of_mem (List.mem_map.2 ⟨c, hc, rfl⟩), idxOf_map_pair]
      simp
    · have hm : (r, c) ∉ I.map fun i => (o, i) := by
        rw [List.mem_map]
        rintro ⟨i, -, he⟩
        exact h (Prod.mk.inj he).1
      rw [List.idxOf_append_of_notMem hm, ih ((List.mem_cons.1 hr).resolve_left fun h' => h h'.symm), List.length_map, List.idxOf_cons]
      have : (o == r) = false := by simp [h]
      rw [this]
      simp only [cond_false]
      ring

theorem idxOf_range' {a n r : ℕ} (h : r ∈ List.range' a n) : (List.range' a n).idxOf r = r - a := by
  rw [List.mem_range'_1] at h
  have hl : r - a < (List.range' a n).length := by simp; omega
  have hg : (List.range' a n)[r - a] = r := by simp; omega
  have := List.Nodup.idxOf_getElem (List.nodup_range' (s := a) (n := n)) (r - a) hl
  rwa [hg] at this

/-- The flag and the stored indices of a pair with the input channels `I` and the output channels `O`. -/
def Entry (c : Bool) (ii oi I O : List ℕ) : Prop :=
  (c = true ∧ ∃ a n a' n', I = List.range' a n ∧ O = List.range' a' n' ∧ ii = [a, a + n, n] ∧ oi = [a', a' + n', n']) ∨
  (c = false ∧ ¬ ((∃ a n, I = List.range' a n) ∧ ∃ a n, O = List.range' a n) ∧ ii = I ∧ oi = O)

/-- What the constructor has stored for a pair. -/
structure PairData (m : Sampler X A) (p : String × String) (b : PBlock X A) (rg : ℕ × ℕ) (c : Bool) (ii oi I O : List ℕ) : Prop where
  blk : tabGet m.blocks p = .ok b
  rng : dictGet m.ranges p = .ok rg
  len : rg.2 - rg.1 = b.dim * (m.inCount p.1 * m.outCount p.2)
  isz : dictGet m.inSizes p.1 = .ok b.basis.inSize
  ipos : 0 < b.basis.inSize
  opos : 0 < b.basis.outSize
  cpos : 0 < m.inCount p.1
  dpos : 0 < m.outCount p.2
  ilen : I.length = m.inCount p.1 * b.basis.inSize
  olen : O.length = m.outCount p.2 * b.basis.outSize
  inodup : I.Nodup
  onodup : O.Nodup
  ilt : ∀ i ∈ I, i < m.inSize
  olt : ∀ o ∈ O, o < m.outSize
  cont : dictGet m.contiguous p = .ok c
  hii : tabGet m.inIdx p = .ok ii
  hoi : tabGet m.outIdx p = .ok oi
  entry : Entry c ii oi I O

/-- The entry of the block of a pair at the point `pt`, row `a` and column `l`. -/
noncomputable def blockEntry (m : Sampler X A) (w : ℕ → ℝ) (pts : List X) (p : String × String) (b : PBlock X A) (rg : ℕ × ℕ) (pt a l : ℕ) : ℝ :=
  ∑ k ∈ Finset.range b.dim, w (rg.1 + ((a / b.basis.outSize * m.inCount p.1 + l / b.basis.inSize) * b.dim + k)) * b.sample pts pt (a % b.basis.outSize) (l % b.basis.inSize) k

theorem PairData.contract {m : Sampler X A} {p : String × String} {b : PBlock X A} {rg : ℕ × ℕ} {c : Bool} {ii oi I O : List ℕ} (h : PairData m p b rg c ii oi I O) (w : ℕ → ℝ) (pts : List X) :
    ∃ e, m.contractBlock w pts p = .ok e ∧ e.S = pts.length ∧ e.oc = m.outCount p.2 ∧ e.o = b.basis.outSize ∧ e.ic = m.inCount p.1 ∧ e.i = b.basis.inSize ∧
      ∀ pt a l, l < I.length → e.flat pt (a * I.length + l) = m.blockEntry w pts p b rg pt a l := by
  refine ⟨_, by
    rw [contractBlock]
    simp only [bind, Except.bind]
    rw [h.blk, h.rng]
    simp only
    rw [if_neg (by rw [h.len]; simp only [ne_eq, not_not]; ring)], rfl, rfl, rfl, rfl, rfl, fun pt a l hl => ?_⟩
  rw [h.ilen] at hl ⊢
  exact flat_eq ⟨pts.length, m.outCount p.2, b.basis.outSize, m.inCount p.1, b.basis.inSize, _⟩ h.ipos h.cpos pt a l hl

/-- Writing a block to the filter. -/
theorem PairData.write {m : Sampler X A} {p : String × String} {b : PBlock X A} {rg : ℕ × ℕ} {c : Bool} {ii oi I O : List ℕ} (h : PairData m p b rg c ii oi I O) (w : ℕ → ℝ) (pts : List X) (hS : 0 < pts.length)
    (f : Filters) (hr : f.rows = m.outSize) (hc : f.cols = m.inSize) :
    ∃ e f', m.contractBlock w pts p = .ok e ∧ writeBlock f c oi ii e = .ok f' ∧ f'.S = f.S ∧ f'.rows = f.rows ∧ f'.cols = f.cols ∧
      ∀ pt r c, f'.get pt r c = if r ∈ O ∧ c ∈ I then m.blockEntry w pts p b rg pt (O.idxOf r) (I.idxOf c) else f.get pt r c := by
  obtain ⟨e, h1, h2, h3, h4, h5, h6, h7⟩ := h.contract w pts
  have hnum : e.oc * e.o * e.ic * e.i = O.length * I.length := by rw [h3, h4, h5, h6, h.olen, h.ilen]; ring
  rcases h.entry with ⟨rfl, a, n, a', n', hI, hO, rfl, rfl⟩ | ⟨rfl, -, rfl, rfl⟩
  · have hn : I.length = n := by rw [hI]; simp
    have hn' : O.length = n' := by rw [hO]; simp
    have hnpos : 0 < n := by rw [← hn, h.ilen]; exact Nat.mul_pos h.cpos h.ipos
    have hle : a + n ≤ m.inSize := by
      have := h.ilt (a + n - 1) (by rw [hI, List.mem_range'_1]; omega)
      omega
    have hnpos' : 0 < n' := by rw [← hn', h.olen]; exact Nat.mul_pos h.dpos h.opos
    have hle' : a' + n' ≤ m.outSize := by
      have := h.olt (a' + n' - 1) (by rw [hO, List.mem_range'_1]; omega)
      omega
    refine ⟨e, ⟨f.S, f.rows, f.cols, fun pt r c => if a' ≤ r ∧ r < a' + n' ∧ a ≤ c ∧ c < a + n then e.flat pt ((r - a') * n + (c - a)) else f.get pt r c⟩, h1, ?_, rfl, rfl, rfl, fun pt r c => ?_⟩
    · rw [writeBlock, if_pos rfl]
      have hre : e.reshape n' n = .ok ⟨e.S, n', n, fun p a b => e.flat p (a * n + b)⟩ := by
        rw [Expanded.reshape, if_pos (by rw [hnum, hn, hn'])]
      have hset : setBlock f a' (a' + n') a (a + n) ⟨e.S, n', n, fun p a b => e.flat p (a * n + b)⟩ = .ok ⟨f.S, f.rows, f.cols, fun pt r c => if a' ≤ r ∧ r < a' + n' ∧ a ≤ c ∧ c < a + n then e.flat pt ((r - a') * n + (c - a)) else f.get pt r c⟩ := by
        rw [setBlock, if_pos (by simp only; omega)]
      simp only [bind, Except.bind, show pyGet [a', a' + n', n'] 0 = .ok a' from rfl, show pyGet [a', a' + n', n'] 1 = .ok (a' + n') from rfl, show pyGet [a', a' + n', n'] 2 = .ok n' from rfl,
        show pyGet [a, a + n, n] 0 = .ok a from rfl, show pyGet [a, a + n, n] 1 = .ok (a + n) from rfl, show pyGet [a, a + n, n] 2 = .ok n from rfl]
      rw [hre]
      simp only
      rw [hset]
    · have hiff : (r ∈ O ∧ c ∈ I) ↔ (a' ≤ r ∧ r < a' + n' ∧ a ≤ c ∧ c < a + n) := by rw [hO, hI, List.mem_range'_1, List.mem_range'_1]; omega
      simp only
      by_cases hm : r ∈ O ∧ c ∈ I
      · rw [if_pos hm, if_pos (hiff.1 hm), ← h7 pt _ _ (List.idxOf_lt_length_of_mem hm.2), hn]
        obtain ⟨hm1, hm2⟩ := hm
        rw [hO] at hm1
        rw [hI] at hm2
        rw [hO, hI, idxOf_range' hm1, idxOf_range' hm2]
      · rw [if_neg hm, if_neg (fun hh => hm (hiff.2 hh))]
  · refine ⟨e, ⟨f.S, f.rows, f.cols, fun pt r c => if (r, c) ∈ mesh oi ii then e.flat pt ((mesh oi ii).idxOf (r, c)) else f.get pt r c⟩, h1, by
      rw [writeBlock, if_neg (by simp), scatterBlock, if_neg (by omega), if_neg (by rw [hnum, mesh_length]; simp), if_pos (by
        rw [List.all_eq_true]
        rintro ⟨r, c⟩ hm
        obtain ⟨hm1, hm2⟩ := mem_mesh.1 hm
        simp only [Bool.and_eq_true, decide_eq_true_eq]
        rw [hr, hc]
        exact ⟨h.olt _ hm1, h.ilt _ hm2⟩)], rfl, rfl, rfl, fun pt r c => ?_⟩
    simp only
    by_cases hm : r ∈ oi ∧ c ∈ ii
    · rw [if_pos hm, if_pos (mem_mesh.2 hm), idxOf_mesh hm.1 hm.2, h7 pt _ _ (List.idxOf_lt_length_of_mem hm.2)]
    · rw [if_neg hm, if_neg (fun hh => hm (mem_mesh.1 hh))]


/-- The features of a block. -/
theorem PairData.comp {m : Sampler X A} {p : String × String} {b : PBlock X A} {rg : ℕ × ℕ} {c : Bool} {ii oi I O : List ℕ} (h : PairData m p b rg c ii oi I O) (w : ℕ → ℝ) (pts : List X)
    (d : GFeats) (hg : d.groups = 1) (hS : d.S = pts.length) (hn : d.n = m.inCount p.1) (hi : d.i = b.basis.inSize) :
    ∃ y, m.computeOut w d pts p = .ok y ∧ y.S = d.S ∧ y.groups * y.n * y.i = O.length ∧ y.reshape O.length = .ok ⟨y.S, O.length, fun p c => y.get p (c / y.i / y.n) (c / y.i % y.n) (c % y.i)⟩ ∧
      ∀ pt j, j < O.length → y.get pt (j / y.i / y.n) (j / y.i % y.n) (j % y.i) = ∑ l ∈ Finset.range I.length, m.blockEntry w pts p b rg pt j l * d.get pt 0 (l / b.basis.inSize) (l % b.basis.inSize) := by
  have hcomp : ∃ y, m.computeOut w d pts p = .ok y ∧ y.S = d.S ∧ y.groups = 1 ∧ y.n = m.outCount p.2 ∧ y.i = b.basis.outSize ∧
      ∀ pt a o, y.get pt 0 a o = ∑ l ∈ Finset.range I.length, m.blockEntry w pts p b rg pt (a * b.basis.outSize + o) l * d.get pt 0 (l / b.basis.inSize) (l % b.basis.inSize) ∨ ¬ o < b.basis.outSize := by
    refine ⟨⟨d.S, 1, m.outCount p.2 / 1, b.basis.outSize, fun pt g a o => ∑ c ∈ Finset.range (m.inCount p.1), ∑ k ∈ Finset.range b.dim, ∑ i ∈ Finset.range b.basis.inSize,
        w (rg.1 + (((g * (m.outCount p.2 / 1) + a) * m.inCount p.1 + c) * b.dim + k)) * b.sample pts pt o i k * d.get pt g c i⟩, by
      rw [computeOut]
      simp only [bind, Except.bind]
      rw [h.blk, h.rng]
      simp only
      rw [hg, if_neg (by rw [h.len, Nat.div_one, ne_eq, not_not]; ring), if_neg (by rw [hi, hn, hS]; simp)], rfl, rfl, by simp, rfl, fun pt a o => ?_⟩
    by_cases ho : o < b.basis.outSize
    swap
    · exact .inr ho
    left
    simp only
    rw [h.ilen]
    have : ∀ l ∈ Finset.range (m.inCount p.1 * b.basis.inSize), m.blockEntry w pts p b rg pt (a * b.basis.outSize + o) l * d.get pt 0 (l / b.basis.inSize) (l % b.basis.inSize) =
        (fun c i => ∑ k ∈ Finset.range b.dim, w (rg.1 + ((a * m.inCount p.1 + c) * b.dim + k)) * b.sample pts pt o i k * d.get pt 0 c i) (l / b.basis.inSize) (l % b.basis.inSize) := by
      intro l hl
      simp only
      rw [blockEntry, Finset.sum_mul]
      have e1 : (a * b.basis.outSize + o) / b.basis.outSize = a := by rw [Nat.add_comm, Nat.add_mul_div_right _ _ h.opos, Nat.div_eq_of_lt ho, Nat.zero_add]
      have e2 : (a * b.basis.outSize + o) % b.basis.outSize = o := by rw [Nat.add_comm, Nat.add_mul_mod_self_right, Nat.mod_eq_of_lt ho]
      rw [e1, e2]
    rw [Finset.sum_congr rfl this, sum_range_mul' (m.inCount p.1) b.basis.inSize (fun c i => ∑ k ∈ Finset.range b.dim, w (rg.1 + ((a * m.inCount p.1 + c) * b.dim + k)) * b.sample pts pt o i k * d.get pt 0 c i)]
    refine Finset.sum_congr rfl fun c _ => ?_
    rw [Finset.sum_comm]
    simp only [Nat.div_one, zero_mul, zero_add]
  obtain ⟨y, y1, y2, y3, y4, y5, y6⟩ := hcomp
  have hnum : y.groups * y.n * y.i = O.length := by rw [y3, y4, y5, h.olen, Nat.one_mul]
  refine ⟨y, y1, y2, hnum, by rw [GFeats.reshape, if_pos (by rw [hnum])], ?_⟩
  intro pt j hj
  rw [h.olen] at hj
  have h1 : j / y.i < y.n := by rw [y4, y5]; exact Nat.div_lt_of_lt_mul (by rw [Nat.mul_comm]; exact hj)
  rw [Nat.div_eq_of_lt h1, Nat.mod_eq_of_lt h1, (y6 pt (j / y.i) (j % y.i)).resolve_right (not_not_intro (by rw [y5]; exact Nat.mod_lt _ h.opos)), y5, Nat.div_add_mod']

/-- Adding the features of a block to the output. -/
theorem PairData.add {m : Sampler X A} {p : String × String} {b : PBlock X A} {rg : ℕ × ℕ} {c : Bool} {ii oi I O : List ℕ} (h : PairData m p b rg c ii oi I O) (w : ℕ → ℝ) (pts : List X)
    (x : GIn) (hx : x.groups = 1) (hxS : x.S = pts.length) (hxc : x.cols = m.inSize) (out : Feats) (hout : out.cols = m.outSize) :
    ∃ d d' y out', x.read c ii = .ok d ∧ d.view (m.inCount p.1) b.basis.inSize = .ok d' ∧ m.computeOut w d' pts p = .ok y ∧ out.addTo c oi x.groups y = .ok out' ∧ out'.S = out.S ∧ out'.cols = out.cols ∧
      ∀ pt r, out'.get pt r = if r ∈ O then out.get pt r + ∑ l ∈ Finset.range I.length, m.blockEntry w pts p b rg pt (O.idxOf r) l * x.get pt 0 (I[l]?.getD 0) else out.get pt r := by
  have hread : ∃ d, x.read c ii = .ok d ∧ d.S = x.S ∧ d.groups = 1 ∧ d.cols = I.length ∧ ∀ pt l, l < I.length → d.get pt 0 l = x.get pt 0 (I[l]?.getD 0) := by
    rcases h.entry with ⟨rfl, a, n, a', n', hI, hO, rfl, rfl⟩ | ⟨rfl, -, rfl, rfl⟩
    · have hn : I.length = n := by rw [hI]; simp
      have hnpos : 0 < n := by rw [← hn, h.ilen]; exact Nat.mul_pos h.cpos h.ipos
      have hle : a + n ≤ m.inSize := by
        have := h.ilt (a + n - 1) (by rw [hI, List.mem_range'_1]; omega)
        omega
      refine ⟨⟨x.S, x.groups, min (a + n) x.cols - a, fun p g c => x.get p g (a + c)⟩, rfl, rfl, hx, by simp only; omega, fun pt l hl => ?_⟩
      rw [hI]
      simp only
      rw [List.getElem?_range' (by omega)]
      simp
    · exact ⟨⟨x.S, x.groups, ii.length, fun p g c => x.get p g (ii[c]?.getD 0)⟩, by rw [GIn.read, if_neg (by simp), if_pos (by simp only [List.all_eq_true, decide_eq_true_eq]; rw [hxc]; exact h.ilt)], rfl, hx, rfl, fun pt l hl => rfl⟩
  obtain ⟨d, d1, d2, d3, d4, d5⟩ := hread
  have hview : d.view (m.inCount p.1) b.basis.inSize = .ok ⟨d.S, d.groups, m.inCount p.1, b.basis.inSize, fun p g a c => d.get p g (a * b.basis.inSize + c)⟩ := by
    rw [GIn.view, if_pos (by rw [d4, h.ilen])]
  obtain ⟨d', hd'⟩ : ∃ d', d' = (⟨d.S, d.groups, m.inCount p.1, b.basis.inSize, fun p g a c => d.get p g (a * b.basis.inSize + c)⟩ : GFeats) := ⟨_, rfl⟩
  rw [← hd'] at hview
  obtain ⟨y, y1, y2, hnum, hre, hval'⟩ := h.comp w pts d' (by rw [hd']; exact d3) (by rw [hd']; simp only; rw [d2, hxS]) (by rw [hd']) (by rw [hd'])
  have hval : ∀ pt j, j < O.length → y.get pt (j / y.i / y.n) (j / y.i % y.n) (j % y.i) = ∑ l ∈ Finset.range I.length, m.blockEntry w pts p b rg pt j l * x.get pt 0 (I[l]?.getD 0) := by
    intro pt j hj
    rw [hval' pt j hj]
    refine Finset.sum_congr rfl fun l hl => ?_
    rw [hd']
    simp only
    rw [Nat.div_add_mod', d5 pt l (Finset.mem_range.1 hl)]
  refine ⟨d, d', y, ?_⟩
  rcases h.entry with ⟨rfl, a, n, a', n', hI, hO, rfl, rfl⟩ | ⟨rfl, -, rfl, rfl⟩
  · have hn' : O.length = n' := by rw [hO]; simp
    have hnpos' : 0 < n' := by rw [← hn', h.olen]; exact Nat.mul_pos h.dpos h.opos
    have hle' : a' + n' ≤ m.outSize := by
      have := h.olt (a' + n' - 1) (by rw [hO, List.mem_range'_1]; omega)
      omega
    refine ⟨⟨out.S, out.cols, fun p c => if a' ≤ c ∧ c < a' + n' then out.get p c + y.get p ((c - a') / y.i / y.n) ((c - a') / y.i % y.n) ((c - a') % y.i) else out.get p c⟩, d1, hview, y1, ?_, rfl, rfl, fun pt r => ?_⟩
    · rw [Feats.addTo, if_pos rfl]
      simp only [bind, Except.bind, show pyGet [a', a' + n', n'] 0 = .ok a' from rfl, show pyGet [a', a' + n', n'] 1 = .ok (a' + n') from rfl, show pyGet [a', a' + n', n'] 2 = .ok n' from rfl]
      rw [hx, Nat.one_mul, ← hn', hre]
      simp only
      rw [if_pos (by omega)]
    · have hiff : r ∈ O ↔ (a' ≤ r ∧ r < a' + n') := by rw [hO, List.mem_range'_1]
      simp only
      by_cases hm : r ∈ O
      · rw [if_pos hm, if_pos (hiff.1 hm), ← hval pt _ (List.idxOf_lt_length_of_mem hm)]
        rw [hO] at hm ⊢
        rw [idxOf_range' hm]
      · rw [if_neg hm, if_neg (fun hh => hm (hiff.2 hh))]
  · refine ⟨⟨out.S, out.cols, fun p c => if c ∈ oi then out.get p c + y.get p (oi.idxOf c / y.i / y.n) (oi.idxOf c / y.i % y.n) (oi.idxOf c % y.i) else out.get p c⟩, d1, hview, y1, ?_, rfl, rfl, fun pt r => ?_⟩
    · rw [Feats.addTo, if_neg (by simp), hnum, hre]
      simp only [bind, Except.bind]
      rw [if_neg (by simp only [not_not, List.all_eq_true, decide_eq_true_eq]; rw [hout]; exact h.olt), if_pos trivial]
    · simp only
      by_cases hm : r ∈ oi
      · rw [if_pos hm, if_pos hm, ← hval pt _ (List.idxOf_lt_length_of_mem hm)]
      · rw [if_neg hm, if_neg hm]

theorem sum_at (I : List ℕ) (hI : I.Nodup) (n : ℕ) (hn : ∀ i ∈ I, i < n) (V x : ℕ → ℝ) :
    ∑ c ∈ Finset.range n, (if c ∈ I then V (I.idxOf c) * x c else 0) = ∑ l ∈ Finset.range I.length, V l * x (I[l]?.getD 0) := by
  rw [← Finset.sum_filter]
  symm
  refine Finset.sum_bij' (fun l _ => I[l]?.getD 0) (fun c _ => I.idxOf c) ?_ ?_ ?_ ?_ ?_
  · intro l hl
    rw [Finset.mem_range] at hl
    have hm : I[l]?.getD 0 ∈ I := by rw [List.getElem?_eq_getElem hl]; exact List.getElem_mem hl
    rw [Finset.mem_filter, Finset.mem_range]
    exact ⟨hn _ hm, hm⟩
  · intro c hc
    rw [Finset.mem_filter] at hc
    exact Finset.mem_range.2 (List.idxOf_lt_length_of_mem hc.2)
  · intro l hl
    rw [Finset.mem_range] at hl
    rw [List.getElem?_eq_getElem hl]
    exact hI.idxOf_getElem l hl
  · intro c hc
    rw [Finset.mem_filter] at hc
    rw [List.getElem?_eq_getElem (List.idxOf_lt_length_of_mem hc.2)]
    simp
  · intro l hl
    rw [Finset.mem_range] at hl
    rw [List.getElem?_eq_getElem hl]
    simp only [Option.getD_some]
    rw [hI.idxOf_getElem l hl]

/-- The two loops, in parallel. -/
theorem loops {m : Sampler X A} (w : ℕ → ℝ) (pts : List X) (hS : 0 < pts.length) (x : GIn) (hx : x.groups = 1) (hxS : x.S = pts.length) (hxc : x.cols = m.inSize)
    (I O : String × String → List ℕ) (L : List (String × String)) (hL : L.Nodup) (hd : ∀ p ∈ L, ∃ b rg c ii oi, PairData m p b rg c ii oi (I p) (O p))
    (hdis : ∀ p ∈ L, ∀ p' ∈ L, ∀ r c, r ∈ O p → c ∈ I p → r ∈ O p' → c ∈ I p' → p = p') (f : Filters) (hr : f.rows = m.outSize) (hc : f.cols = m.inSize) (hf0 : ∀ p ∈ L, ∀ pt, ∀ r ∈ O p, ∀ c ∈ I p, f.get pt r c = 0)
    (out : Feats) (hout : out.cols = m.outSize) (hfo : ∀ pt r, out.get pt r = ∑ c ∈ Finset.range m.inSize, f.get pt r c * x.get pt 0 c) :
    ∃ F y, fwdLoop m w pts f L = .ok F ∧ cmpLoop m w x pts out L = .ok y ∧ F.S = f.S ∧ F.rows = m.outSize ∧ F.cols = m.inSize ∧ y.S = out.S ∧ y.cols = m.outSize ∧
      ∀ pt r, y.get pt r = ∑ c ∈ Finset.range m.inSize, F.get pt r c * x.get pt 0 c := by
  induction L generalizing f out with
  | nil => exact ⟨f, out, rfl, rfl, rfl, hr, hc, rfl, hout, hfo⟩
  | cons p L ih =>
    rw [List.nodup_cons] at hL
    obtain ⟨b, rg, cc, ii, oi, h⟩ := hd p (by simp)
    obtain ⟨e, f', a1, a2, a3, a4, a5, a6⟩ := h.write w pts hS f hr hc
    obtain ⟨d, d', y, out', b1, b2, b3, b4, b5, b6, b7⟩ := h.add w pts x hx hxS hxc out hout
    obtain ⟨F, z, c1, c2, c3, c4, c5, c6, c7, c8⟩ := ih hL.2 (fun q hq => hd q (by simp [hq])) (fun q hq q' hq' => hdis q (by simp [hq]) q' (by simp [hq'])) f' (by rw [a4, hr]) (by rw [a5, hc]) (by
      intro q hq pt r hr' c hc'
      rw [a6, if_neg, hf0 q (by simp [hq]) pt r hr' c hc']
      rintro ⟨h1, h2⟩
      exact hL.1 (hdis p (by simp) q (by simp [hq]) r c h1 h2 hr' hc' ▸ hq)) out' (by rw [b6, hout]) (by
      intro pt r
      rw [b7]
      by_cases hm : r ∈ O p
      · rw [if_pos hm, hfo, ← sum_at (I p) h.inodup m.inSize h.ilt (fun l => m.blockEntry w pts p b rg pt ((O p).idxOf r) l) (fun c => x.get pt 0 c), ← Finset.sum_add_distrib]
        refine Finset.sum_congr rfl fun c _ => ?_
        rw [a6]
        by_cases hm' : c ∈ I p
        · rw [if_pos hm', if_pos ⟨hm, hm'⟩, hf0 p (by simp) pt r hm c hm', zero_mul, zero_add]
        · rw [if_neg hm', if_neg (fun hh => hm' hh.2), add_zero]
      · rw [if_neg hm, hfo]
        refine Finset.sum_congr rfl fun c _ => ?_
        rw [a6, if_neg (fun hh => hm hh.1)])
    refine ⟨F, z, ?_, ?_, by rw [c3, a3], c4, c5, by rw [c6, b5], c7, c8⟩
    · rw [fwdLoop]
      simp only [bind, Except.bind]
      rw [h.hii, h.hoi]
      simp only
      rw [a1, h.cont]
      simp only
      rw [a2]
      exact c1
    · rw [cmpLoop]
      simp only [bind, Except.bind]
      rw [h.hii, h.hoi]
      simp only
      rw [h.cont]
      simp only
      rw [b1]
      simp only
      rw [h.isz]
      simp only
      rw [b2]
      simp only
      rw [b3]
      simp only
      rw [b4]
      exact c2

/-- The case of one pair. -/
theorem uniform_case {m : Sampler X A} (w : ℕ → ℝ) (pts : List X) (x : GIn) (hx : x.groups = 1) (hxS : x.S = pts.length) (hxc : x.cols = m.inSize) {p : String × String} {b : PBlock X A} {rg : ℕ × ℕ} {c : Bool} {ii oi : List ℕ}
    (h : PairData m p b rg c ii oi (List.range' 0 m.inSize) (List.range' 0 m.outSize)) :
    ∃ e F d y z, m.contractBlock w pts p = .ok e ∧ e.reshape m.outSize m.inSize = .ok F ∧ x.view (m.inCount p.1) b.basis.inSize = .ok d ∧ m.computeOut w d pts p = .ok y ∧ y.reshape m.outSize = .ok z ∧
      F.S = pts.length ∧ F.rows = m.outSize ∧ F.cols = m.inSize ∧ z.S = x.S ∧ z.cols = m.outSize ∧ ∀ pt r, r < m.outSize → z.get pt r = ∑ c ∈ Finset.range m.inSize, F.get pt r c * x.get pt 0 c := by
  obtain ⟨e, h1, h2, h3, h4, h5, h6, h7⟩ := h.contract w pts
  have li : m.inSize = m.inCount p.1 * b.basis.inSize := by have := h.ilen; rwa [List.length_range'] at this
  have lo : m.outSize = m.outCount p.2 * b.basis.outSize := by have := h.olen; rwa [List.length_range'] at this
  obtain ⟨d, hd⟩ : ∃ d, d = (⟨x.S, x.groups, m.inCount p.1, b.basis.inSize, fun p g a c => x.get p g (a * b.basis.inSize + c)⟩ : GFeats) := ⟨_, rfl⟩
  have hview : x.view (m.inCount p.1) b.basis.inSize = .ok d := by rw [GIn.view, if_pos (by rw [hxc, li]), hd]
  obtain ⟨y, y1, y2, hnum, hre, hval⟩ := h.comp w pts d (by rw [hd]; exact hx) (by rw [hd]; exact hxS) (by rw [hd]) (by rw [hd])
  rw [List.length_range'] at hre
  refine ⟨e, ⟨e.S, m.outSize, m.inSize, fun p a b => e.flat p (a * m.inSize + b)⟩, d, y, _, h1, by rw [Expanded.reshape, if_pos (by rw [h3, h4, h5, h6, li, lo]; ring)], hview, y1, hre, h2, rfl, rfl, by rw [y2, hd], rfl, fun pt r hr => ?_⟩
  simp only
  rw [hval pt r (by rw [List.length_range']; exact hr), List.length_range']
  refine Finset.sum_congr rfl fun l hl => ?_
  have := h7 pt r l (by rw [List.length_range']; exact Finset.mem_range.1 hl)
  rw [List.length_range'] at this
  rw [this, hd]
  simp only
  rw [Nat.div_add_mod']

end Sampler

end Escnn
