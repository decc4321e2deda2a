import Verif.Props.C62_Sampler

/-!
# The messages of `BlocksBasisSampler` for any number of groups, field by field
-/

namespace Escnn

namespace Sampler

variable {R X A : Type}

/-- The body of the loop of `_compute_then_expand_filter`. -/
noncomputable def step (m : Sampler X A) (w : ℕ → ℝ) (x : GIn) (pts : List X) (out : Feats) (p : String × String) : Except Err Feats := do
  let ii ← tabGet m.inIdx p
  let oi ← tabGet m.outIdx p
  let c ← dictGet m.contiguous p
  let d ← x.read c ii
  let s ← dictGet m.inSizes p.1
  let d ← d.view (m.inCount p.1) s
  let y ← m.computeOut w d pts p
  out.addTo c oi x.groups y

theorem cmpLoop_cons (m : Sampler X A) (w : ℕ → ℝ) (x : GIn) (pts : List X) (out : Feats) (p : String × String) (L : List (String × String)) :
    cmpLoop m w x pts out (p :: L) = (do
      let out ← step m w x pts out p
      cmpLoop m w x pts out L) := by
  rw [cmpLoop, step]
  simp only [bind_assoc]

/-- The sizes of the arguments of the loop. -/
structure Fit (m : Sampler X A) (groups : ℕ) (pts : List X) (x : GIn) : Prop where
  pos : 0 < pts.length
  groups : x.groups = groups
  S : x.S = pts.length
  cols : x.cols = m.inSize

variable {m : Sampler X A} {p : String × String} {b : PBlock X A} {rg : ℕ × ℕ} {c : Bool} {ii oi I O : List ℕ}

/-- The features of a block, for any number of groups. -/
theorem PairData.compG (h : PairData m p b rg c ii oi I O) (w : ℕ → ℝ) (pts : List X) (d : GFeats) (groups : ℕ) (hg : d.groups = groups) (hS : d.S = pts.length) (hn : d.n = m.inCount p.1) (hi : d.i = b.basis.inSize)
    (hlen : rg.2 - rg.1 = groups * (m.outCount p.2 / groups) * m.inCount p.1 * b.dim) :
    ∃ y, m.computeOut w d pts p = .ok y ∧ y.S = d.S ∧ y.groups = groups ∧ y.n = m.outCount p.2 / groups ∧ y.i = b.basis.outSize ∧
      ∀ pt g a o, o < b.basis.outSize → y.get pt g a o = ∑ l ∈ Finset.range I.length, m.blockEntry w pts p b rg pt ((g * (m.outCount p.2 / groups) + a) * b.basis.outSize + o) l * d.get pt g (l / b.basis.inSize) (l % b.basis.inSize) := by
  subst hg
  refine ⟨⟨d.S, d.groups, m.outCount p.2 / d.groups, b.basis.outSize, fun pt g a o => ∑ c ∈ Finset.range (m.inCount p.1), ∑ k ∈ Finset.range b.dim, ∑ i ∈ Finset.range b.basis.inSize,
      w (rg.1 + (((g * (m.outCount p.2 / d.groups) + a) * m.inCount p.1 + c) * b.dim + k)) * b.sample pts pt o i k * d.get pt g c i⟩, by
    rw [computeOut]
    simp only [bind, Except.bind]
    rw [h.blk, h.rng]
    simp only
    rw [if_neg (not_not.2 hlen), if_neg (by rw [hi, hn, hS]; simp)], rfl, rfl, rfl, rfl, fun pt g a o ho => ?_⟩
  simp only
  rw [h.ilen]
  have : ∀ l ∈ Finset.range (m.inCount p.1 * b.basis.inSize), m.blockEntry w pts p b rg pt ((g * (m.outCount p.2 / d.groups) + a) * b.basis.outSize + o) l * d.get pt g (l / b.basis.inSize) (l % b.basis.inSize) =
      (fun c i => ∑ k ∈ Finset.range b.dim, w (rg.1 + (((g * (m.outCount p.2 / d.groups) + a) * m.inCount p.1 + c) * b.dim + k)) * b.sample pts pt o i k * d.get pt g c i) (l / b.basis.inSize) (l % b.basis.inSize) := by
    intro l hl
    simp only
    rw [blockEntry, Finset.sum_mul]
    generalize g * (m.outCount p.2 / d.groups) + a = q
    have e1 : (q * b.basis.outSize + o) / b.basis.outSize = q := by rw [Nat.add_comm, Nat.add_mul_div_right _ _ h.opos, Nat.div_eq_of_lt ho, Nat.zero_add]
    have e2 : (q * b.basis.outSize + o) % b.basis.outSize = o := by rw [Nat.add_comm, Nat.add_mul_mod_self_right, Nat.mod_eq_of_lt ho]
    rw [e1, e2]
  rw [Finset.sum_congr rfl this, sum_range_mul' (m.inCount p.1) b.basis.inSize (fun c i => ∑ k ∈ Finset.range b.dim, w (rg.1 + (((g * (m.outCount p.2 / d.groups) + a) * m.inCount p.1 + c) * b.dim + k)) * b.sample pts pt o i k * d.get pt g c i)]
  refine Finset.sum_congr rfl fun c _ => ?_
  rw [Finset.sum_comm]

/-- Entry `j` of the flattened features of a block. -/
theorem PairData.flatG (h : PairData m p b rg c ii oi I O) {w : ℕ → ℝ} {pts : List X} {d y : GFeats} {groups : ℕ} (y4 : y.n = m.outCount p.2 / groups) (y5 : y.i = b.basis.outSize)
    (y6 : ∀ pt g a o, o < b.basis.outSize → y.get pt g a o = ∑ l ∈ Finset.range I.length, m.blockEntry w pts p b rg pt ((g * (m.outCount p.2 / groups) + a) * b.basis.outSize + o) l * d.get pt g (l / b.basis.inSize) (l % b.basis.inSize)) (pt j : ℕ) :
    y.get pt (j / y.i / y.n) (j / y.i % y.n) (j % y.i) =
      ∑ l ∈ Finset.range I.length, m.blockEntry w pts p b rg pt j l * d.get pt (j / b.basis.outSize / (m.outCount p.2 / groups)) (l / b.basis.inSize) (l % b.basis.inSize) := by
  rw [y4, y5, y6 _ _ _ _ (Nat.mod_lt _ h.opos), Nat.div_add_mod', Nat.div_add_mod']

/-- The channels read for a pair. -/
theorem PairData.readG (h : PairData m p b rg c ii oi I O) (x : GIn) (hxc : x.cols = m.inSize) :
    ∃ d, x.read c ii = .ok d ∧ d.S = x.S ∧ d.groups = x.groups ∧ d.cols = I.length ∧ ∀ pt g l, l < I.length → d.get pt g l = x.get pt g (I[l]?.getD 0) := by
  rcases h.entry with ⟨rfl, a, n, a', n', hI, hO, rfl, rfl⟩ | ⟨rfl, -, rfl, rfl⟩
  · have hn : I.length = n := by rw [hI]; simp
    have hnpos : 0 < n := by rw [← hn, h.ilen]; exact Nat.mul_pos h.cpos h.ipos
    have hle : a + n ≤ m.inSize := by
      have := h.ilt (a + n - 1) (by rw [hI, List.mem_range'_1]; omega)
      omega
    refine ⟨⟨x.S, x.groups, min (a + n) x.cols - a, fun p g c => x.get p g (a + c)⟩, rfl, rfl, rfl, by simp only; omega, fun pt g l hl => ?_⟩
    rw [hI]
    simp only
    rw [List.getElem?_range' (by omega)]
    simp
  · exact ⟨⟨x.S, x.groups, ii.length, fun p g c => x.get p g (ii[c]?.getD 0)⟩, by rw [GIn.read, if_neg (by simp), if_pos (by simp only [List.all_eq_true, decide_eq_true_eq]; rw [hxc]; exact h.ilt)], rfl, rfl, rfl, fun pt g l hl => rfl⟩

/-- The step of a pair: it always raises the same exception, or it always adds the features of the block, each row reading the channels of its group. -/
theorem PairData.stepG (h : PairData m p b rg c ii oi I O) {groups : ℕ} (hgr : 0 < groups) :
    (∃ e, ∀ w pts x out, Fit m groups pts x → out.cols = m.outSize → step m w x pts out p = .error e) ∨
    groups * (m.outCount p.2 / groups) = m.outCount p.2 ∧ ∀ w pts x out, Fit m groups pts x → out.cols = m.outSize → ∃ out', step m w x pts out p = .ok out' ∧ out'.S = out.S ∧ out'.cols = out.cols ∧
      ∀ pt r, out'.get pt r = if r ∈ O then out.get pt r + ∑ l ∈ Finset.range I.length, m.blockEntry w pts p b rg pt (O.idxOf r) l * x.get pt (O.idxOf r / b.basis.outSize / (m.outCount p.2 / groups)) (I[l]?.getD 0) else out.get pt r := by
  have hstep : ∀ w pts x out, Fit m groups pts x → ∃ d' : GFeats, d'.groups = groups ∧ d'.S = pts.length ∧ d'.n = m.inCount p.1 ∧ d'.i = b.basis.inSize ∧
      (∀ pt g l, l < I.length → d'.get pt g (l / b.basis.inSize) (l % b.basis.inSize) = x.get pt g (I[l]?.getD 0)) ∧ step m w x pts out p = (do
        let y ← m.computeOut w d' pts p
        out.addTo c oi groups y) := by
    intro w pts x out hf
    obtain ⟨d, d1, d2, d3, d4, d5⟩ := h.readG x hf.cols
    refine ⟨⟨d.S, d.groups, m.inCount p.1, b.basis.inSize, fun p g a c => d.get p g (a * b.basis.inSize + c)⟩, by rw [← hf.groups]; exact d3, by rw [← hf.S]; exact d2, rfl, rfl, fun pt g l hl => ?_, ?_⟩
    · simp only
      rw [Nat.div_add_mod', d5 pt g l hl]
    · rw [step]
      simp only [bind, Except.bind]
      rw [h.hii, h.hoi]
      simp only
      rw [h.cont]
      simp only
      rw [d1]
      simp only
      rw [h.isz]
      simp only
      rw [GIn.view, if_pos (by rw [d4, h.ilen])]
      simp only
      rw [hf.groups]
  by_cases hlen : rg.2 - rg.1 = groups * (m.outCount p.2 / groups) * m.inCount p.1 * b.dim
  swap
  · refine .inl ⟨.runtime, fun w pts x out hf _ => ?_⟩
    obtain ⟨d', e1, -, -, -, -, e2⟩ := hstep w pts x out hf
    rw [e2, computeOut]
    simp only [bind, Except.bind]
    rw [h.blk, h.rng]
    simp only
    rw [e1, if_pos hlen]
  have hcomp := fun w pts (d : GFeats) => h.compG w pts d groups
  rcases h.entry with ⟨hc, a, n, a', n', hI, hO, hii, hoi⟩ | ⟨hc, -, hii, hoi⟩
  · have hn' : O.length = n' := by rw [hO]; simp
    have hnpos' : 0 < n' := by rw [← hn', h.olen]; exact Nat.mul_pos h.dpos h.opos
    have hle' : a' + n' ≤ m.outSize := by
      have := h.olt (a' + n' - 1) (by rw [hO, List.mem_range'_1]; omega)
      omega
    have hadd : ∀ (out : Feats) (y : GFeats), out.addTo c oi groups y = (do
        let d ← y.reshape (groups * n')
        if d.cols = min (a' + n') out.cols - a' then .ok ⟨out.S, out.cols, fun p c => if a' ≤ c ∧ c < a' + n' then out.get p c + d.get p (c - a') else out.get p c⟩
        else if d.cols = 1 then .ok ⟨out.S, out.cols, fun p c => if a' ≤ c ∧ c < a' + n' then out.get p c + d.get p 0 else out.get p c⟩
        else .error .runtime) := by
      intro out y
      rw [Feats.addTo, hc, if_pos rfl, hoi]
      rfl
    by_cases h1 : groups = 1
    · right
      subst h1
      refine ⟨by simp, ?_⟩
      intro w pts x out hf hout
      obtain ⟨d', e1, e2, e3, e4, e5, e6⟩ := hstep w pts x out hf
      obtain ⟨y, y1, y2, y3, y4, y5, y6⟩ := hcomp w pts d' e1 e2 e3 e4 hlen
      have hnum : y.groups * y.n * y.i = O.length := by rw [y3, y4, y5, h.olen, Nat.one_mul, Nat.div_one]
      refine ⟨⟨out.S, out.cols, fun p c => if a' ≤ c ∧ c < a' + n' then out.get p c + y.get p ((c - a') / y.i / y.n) ((c - a') / y.i % y.n) ((c - a') % y.i) else out.get p c⟩, ?_, rfl, rfl, fun pt r => ?_⟩
      · rw [e6, y1]
        simp only [bind, Except.bind]
        rw [hadd, GFeats.reshape, if_pos (by rw [hnum, hn', Nat.one_mul])]
        simp only [bind, Except.bind]
        rw [if_pos (by omega)]
      · have hiff : r ∈ O ↔ (a' ≤ r ∧ r < a' + n') := by rw [hO, List.mem_range'_1]
        simp only
        by_cases hm : r ∈ O
        · have hidx : O.idxOf r = r - a' := by rw [hO] at hm ⊢; exact idxOf_range' hm
          rw [if_pos hm, if_pos (hiff.1 hm), h.flatG y4 y5 y6, hidx]
          refine congrArg _ (Finset.sum_congr rfl fun l hl => ?_)
          rw [e5 _ _ _ (Finset.mem_range.1 hl)]
        · rw [if_neg hm, if_neg fun hh => hm (hiff.2 hh)]
    · refine .inl ⟨.runtime, fun w pts x out hf _ => ?_⟩
      obtain ⟨d', e1, e2, e3, e4, -, e6⟩ := hstep w pts x out hf
      obtain ⟨y, y1, y2, y3, y4, y5, -⟩ := hcomp w pts d' e1 e2 e3 e4 hlen
      rw [e6, y1]
      simp only [bind, Except.bind]
      rw [hadd, GFeats.reshape, if_neg]
      · rfl
      rw [y2, e2, y3, y4, y5]
      intro hh
      have hh := Nat.eq_of_mul_eq_mul_left hf.pos hh
      rw [← hn', h.olen, ← Nat.mul_assoc] at hh
      have hh := Nat.eq_of_mul_eq_mul_right h.opos hh
      have h1' : groups * (m.outCount p.2 / groups) ≤ m.outCount p.2 := Nat.mul_div_le _ _
      have h2 : 0 < m.outCount p.2 := h.dpos
      have h3 : 2 * m.outCount p.2 ≤ groups * m.outCount p.2 := Nat.mul_le_mul_right _ (by omega)
      omega
  · by_cases hnum : groups * (m.outCount p.2 / groups) * b.basis.outSize = O.length
    · right
      refine ⟨Nat.eq_of_mul_eq_mul_right h.opos (hnum.trans h.olen), ?_⟩
      intro w pts x out hf hout
      obtain ⟨d', e1, e2, e3, e4, e5, e6⟩ := hstep w pts x out hf
      obtain ⟨y, y1, y2, y3, y4, y5, y6⟩ := hcomp w pts d' e1 e2 e3 e4 hlen
      refine ⟨⟨out.S, out.cols, fun p c => if c ∈ O then out.get p c + y.get p (O.idxOf c / y.i / y.n) (O.idxOf c / y.i % y.n) (O.idxOf c % y.i) else out.get p c⟩, ?_, rfl, rfl, fun pt r => ?_⟩
      · rw [e6, y1]
        simp only [bind, Except.bind]
        rw [Feats.addTo, hc, if_neg (by simp), GFeats.reshape, if_pos rfl]
        simp only [bind, Except.bind]
        rw [hoi, if_neg (by simp only [not_not, List.all_eq_true, decide_eq_true_eq]; rw [hout]; exact h.olt), if_pos (by rw [y3, y4, y5, hnum])]
      · simp only
        by_cases hm : r ∈ O
        · rw [if_pos hm, if_pos hm, h.flatG y4 y5 y6]
          refine congrArg _ (Finset.sum_congr rfl fun l hl => ?_)
          rw [e5 _ _ _ (Finset.mem_range.1 hl)]
        · rw [if_neg hm, if_neg hm]
    · refine .inl ⟨.runtime, fun w pts x out hf hout => ?_⟩
      obtain ⟨d', e1, e2, e3, e4, -, e6⟩ := hstep w pts x out hf
      obtain ⟨y, y1, y2, y3, y4, y5, -⟩ := hcomp w pts d' e1 e2 e3 e4 hlen
      rw [e6, y1]
      simp only [bind, Except.bind]
      rw [Feats.addTo, hc, if_neg (by simp), GFeats.reshape, if_pos rfl]
      simp only [bind, Except.bind]
      rw [hoi, if_neg (by simp only [not_not, List.all_eq_true, decide_eq_true_eq]; rw [hout]; exact h.olt), if_neg (by rw [y3, y4, y5]; exact hnum), if_neg]
      rw [y3, y4, y5]
      intro hh
      refine hnum ?_
      have g1 : groups = 1 := Nat.eq_one_of_mul_eq_one_right (Nat.eq_one_of_mul_eq_one_right hh)
      rw [g1, Nat.one_mul, Nat.div_one, h.olen]

/-- The loop over the pairs. -/
theorem loopG {groups : ℕ} (hgr : 0 < groups) (I O : String × String → List ℕ) (bl : String × String → PBlock X A) (rg : String × String → ℕ × ℕ) (L : List (String × String))
    (hd : ∀ p ∈ L, ∃ c ii oi, PairData m p (bl p) (rg p) c ii oi (I p) (O p)) :
    (∃ e, ∀ w pts x out, Fit m groups pts x → out.cols = m.outSize → cmpLoop m w x pts out L = .error e) ∨
    (∀ p ∈ L, groups * (m.outCount p.2 / groups) = m.outCount p.2) ∧ ∀ w pts x out, Fit m groups pts x → out.cols = m.outSize → ∃ y, cmpLoop m w x pts out L = .ok y ∧ y.S = out.S ∧ y.cols = m.outSize ∧
      ∀ pt r, y.get pt r = out.get pt r + (L.map fun p => if r ∈ O p then ∑ l ∈ Finset.range (I p).length,
        m.blockEntry w pts p (bl p) (rg p) pt ((O p).idxOf r) l * x.get pt ((O p).idxOf r / (bl p).basis.outSize / (m.outCount p.2 / groups)) ((I p)[l]?.getD 0) else 0).sum := by
  induction L with
  | nil => exact .inr ⟨by simp, fun w pts x out hf hout => ⟨out, rfl, rfl, hout, fun pt r => by simp⟩⟩
  | cons p L ih =>
    obtain ⟨c, ii, oi, h⟩ := hd p (by simp)
    rcases h.stepG hgr with ⟨e, he⟩ | ⟨hdv, hok⟩
    · exact .inl ⟨e, fun w pts x out hf hout => by rw [cmpLoop_cons, he w pts x out hf hout]; rfl⟩
    rcases ih (fun q hq => hd q (by simp [hq])) with ⟨e, he⟩ | ⟨hdv', hok'⟩
    · refine .inl ⟨e, fun w pts x out hf hout => ?_⟩
      obtain ⟨out', a1, a2, a3, -⟩ := hok w pts x out hf hout
      rw [cmpLoop_cons, a1]
      exact he w pts x out' hf (by rw [a3, hout])
    · refine .inr ⟨by simpa using ⟨hdv, fun a b hab => hdv' (a, b) hab⟩, fun w pts x out hf hout => ?_⟩
      obtain ⟨out', a1, a2, a3, a4⟩ := hok w pts x out hf hout
      obtain ⟨y, b1, b2, b3, b4⟩ := hok' w pts x out' hf (by rw [a3, hout])
      refine ⟨y, by rw [cmpLoop_cons, a1]; exact b1, by rw [b2, a2], b3, fun pt r => ?_⟩
      rw [b4, a4, List.map_cons, List.sum_cons]
      split_ifs
      · rw [add_assoc]
      · rw [zero_add]

variable {nm : R → String} {sz : R → ℕ} {uin uout inR outR : List R} {gen : R → R → Except Err (PBlock X A)}

/-- The messages, as a sum over the pairs of representations. -/
theorem Facts.total [DecidableEq R] (f : Facts nm sz gen uin uout inR outR m) {groups : ℕ} (hgr : 0 < groups) (bl : String × String → PBlock X A) (rg : String × String → ℕ × ℕ)
    (hd : ∀ p ∈ m.pairs, ∃ c ii oi, PairData m p (bl p) (rg p) c ii oi (labelIdx sz inR (inR.map nm) p.1) (labelIdx sz outR (outR.map nm) p.2)) :
    (∃ e, ∀ w pts x, 0 < pts.length → x.S = pts.length → x.cols = m.inSize * groups → m.messages m.dim w x pts true groups = .error e) ∨
    (∀ p ∈ m.pairs, groups * (m.outCount p.2 / groups) = m.outCount p.2) ∧ ∀ w pts x, 0 < pts.length → x.S = pts.length → x.cols = m.inSize * groups →
      ∃ y, m.messages m.dim w x pts true groups = .ok y ∧ y.S = pts.length ∧ y.cols = m.outSize ∧ ∀ pt r, r < m.outSize → y.get pt r = (m.pairs.map fun p => if r ∈ labelIdx sz outR (outR.map nm) p.2 then
        ∑ l ∈ Finset.range (labelIdx sz inR (inR.map nm) p.1).length, m.blockEntry w pts p (bl p) (rg p) pt ((labelIdx sz outR (outR.map nm) p.2).idxOf r) l *
          x.get pt ((labelIdx sz outR (outR.map nm) p.2).idxOf r / (bl p).basis.outSize / (m.outCount p.2 / groups) * m.inSize + (labelIdx sz inR (inR.map nm) p.1)[l]?.getD 0) else 0).sum := by
  by_cases hdiv : m.outSize % groups = 0
  swap
  · exact .inl ⟨.assertion, fun w pts x _ _ _ => by rw [messages, if_pos (.inr (.inr (.inr hdiv)))]⟩
  have hmsg : ∀ (w : ℕ → ℝ) (pts : List X) (x : Feats), 0 < pts.length → x.S = pts.length → x.cols = m.inSize * groups → m.messages m.dim w x pts true groups =
      if m.uniform then do
        let p ← pyGet m.pairs 0
        let s ← dictGet m.inSizes p.1
        let d ← (⟨x.S, groups, m.inSize, fun p g c => x.get p (g * m.inSize + c)⟩ : GIn).view (m.inCount p.1) s
        let y ← m.computeOut w d pts p
        y.reshape m.outSize
      else cmpLoop m w ⟨x.S, groups, m.inSize, fun p g c => x.get p (g * m.inSize + c)⟩ pts ⟨x.S, m.outSize, fun _ _ => 0⟩ m.pairs := by
    intro w pts x h1 h2 h3
    rw [messages, if_neg (by rw [h2, h3]; simp [hdiv]), if_pos rfl, computeThenExpand, if_neg (by rw [h2]; simp [h1]), if_neg (by rw [h3, Nat.mul_comm]; simp)]
  by_cases hu : m.uniform = true
  · cases hp : m.pairs with
    | nil =>
      refine .inl ⟨.index, fun w pts x h1 h2 h3 => ?_⟩
      rw [hmsg w pts x h1 h2 h3, if_pos hu, hp]
      rfl
    | cons p L =>
      obtain ⟨⟨i, hi1, hi2⟩, o, ho1, ho2⟩ := f.uniform.1 hu
      have hall : ∀ q ∈ m.pairs, q = (nm i, nm o) := fun q hq => by
        obtain ⟨i', hi', o', ho', rfl, -⟩ := (f.mem q).1 hq
        rw [hi2 i' hi', ho2 o' ho']
      obtain rfl : p = (nm i, nm o) := hall p (by rw [hp]; simp)
      obtain rfl : L = [] := by
        cases L with
        | nil => rfl
        | cons q L =>
          have := f.nodup
          rw [hp] at this
          have hq := hall q (by rw [hp]; simp)
          rw [hq] at this
          simp at this
      obtain ⟨c, ii, oi, h⟩ := hd (nm i, nm o) (by rw [hp]; simp)
      simp only [allSame_idx hi2, allSame_idx ho2] at h
      rw [← f.inSize, ← f.outSize] at h
      have li : m.inSize = m.inCount (nm i) * (bl (nm i, nm o)).basis.inSize := by have := h.ilen; rwa [List.length_range'] at this
      have lo : m.outSize = m.outCount (nm o) * (bl (nm i, nm o)).basis.outSize := by have := h.olen; rwa [List.length_range'] at this
      have hstep : ∀ (w : ℕ → ℝ) (pts : List X) (x : Feats), 0 < pts.length → x.S = pts.length → x.cols = m.inSize * groups → m.messages m.dim w x pts true groups = (do
          let y ← m.computeOut w ⟨x.S, groups, m.inCount (nm i), (bl (nm i, nm o)).basis.inSize, fun p g a c => x.get p (g * m.inSize + (a * (bl (nm i, nm o)).basis.inSize + c))⟩ pts (nm i, nm o)
          y.reshape m.outSize) := by
        intro w pts x h1 h2 h3
        rw [hmsg w pts x h1 h2 h3, if_pos hu, hp]
        simp only [bind, Except.bind, show ∀ a : String × String, pyGet [a] 0 = .ok a from fun _ => rfl]
        rw [h.isz]
        simp only
        rw [GIn.view, if_pos (by simp only; rw [← li])]
      by_cases hlen : (rg (nm i, nm o)).2 - (rg (nm i, nm o)).1 = groups * (m.outCount (nm o) / groups) * m.inCount (nm i) * (bl (nm i, nm o)).dim
      swap
      · refine .inl ⟨.runtime, fun w pts x h1 h2 h3 => ?_⟩
        rw [hstep w pts x h1 h2 h3, computeOut]
        simp only [bind, Except.bind]
        rw [h.blk, h.rng]
        simp only
        rw [if_pos hlen]
      by_cases hnum : groups * (m.outCount (nm o) / groups) * (bl (nm i, nm o)).basis.outSize = m.outSize
      swap
      · refine .inl ⟨.runtime, fun w pts x h1 h2 h3 => ?_⟩
        obtain ⟨y, y1, y2, y3, y4, y5, -⟩ := h.compG w pts ⟨x.S, groups, m.inCount (nm i), (bl (nm i, nm o)).basis.inSize, fun p g a c => x.get p (g * m.inSize + (a * (bl (nm i, nm o)).basis.inSize + c))⟩ groups rfl h2 rfl rfl hlen
        rw [hstep w pts x h1 h2 h3, y1]
        simp only [bind, Except.bind]
        rw [GFeats.reshape, if_neg]
        rw [y2, y3, y4, y5]
        simp only
        rw [h2]
        exact fun hh => hnum (Nat.eq_of_mul_eq_mul_left h1 hh)
      · refine .inr ⟨fun q hq => ?_, fun w pts x h1 h2 h3 => ?_⟩
        · rw [hall q (hp ▸ hq)]
          exact Nat.eq_of_mul_eq_mul_right h.opos (hnum.trans lo)
        obtain ⟨y, y1, y2, y3, y4, y5, y6⟩ := h.compG w pts ⟨x.S, groups, m.inCount (nm i), (bl (nm i, nm o)).basis.inSize, fun p g a c => x.get p (g * m.inSize + (a * (bl (nm i, nm o)).basis.inSize + c))⟩ groups rfl h2 rfl rfl hlen
        refine ⟨⟨y.S, m.outSize, fun p c => y.get p (c / y.i / y.n) (c / y.i % y.n) (c % y.i)⟩, ?_, by rw [← h2]; exact y2, rfl, fun pt r hr => ?_⟩
        · rw [hstep w pts x h1 h2 h3, y1]
          simp only [bind, Except.bind]
          rw [GFeats.reshape, if_pos (by rw [y3, y4, y5]; simp only; rw [hnum])]
        · simp only [allSame_idx hi2, allSame_idx ho2, List.map_cons, List.map_nil, List.sum_cons, List.sum_nil, add_zero]
          rw [← f.inSize, ← f.outSize]
          have hr' : r ∈ List.range' 0 m.outSize := by rw [List.mem_range'_1]; omega
          rw [if_pos hr', h.flatG y4 y5 y6, idxOf_range' hr', Nat.sub_zero]
          refine Finset.sum_congr rfl fun l hl => ?_
          have hl' : l < m.inSize := by simpa using hl
          simp only
          rw [Nat.div_add_mod', List.getElem?_range' hl']
          simp
  · rcases loopG (m := m) hgr (fun p => labelIdx sz inR (inR.map nm) p.1) (fun p => labelIdx sz outR (outR.map nm) p.2) bl rg m.pairs hd with ⟨e, he⟩ | ⟨hdv, hok⟩
    · refine .inl ⟨e, fun w pts x h1 h2 h3 => ?_⟩
      rw [hmsg w pts x h1 h2 h3, if_neg hu]
      exact he w pts _ _ ⟨h1, rfl, h2, rfl⟩ rfl
    · refine .inr ⟨hdv, fun w pts x h1 h2 h3 => ?_⟩
      obtain ⟨y, a1, a2, a3, a4⟩ := hok w pts ⟨x.S, groups, m.inSize, fun p g c => x.get p (g * m.inSize + c)⟩ ⟨x.S, m.outSize, fun _ _ => 0⟩ ⟨h1, rfl, h2, rfl⟩ rfl
      refine ⟨y, by rw [hmsg w pts x h1 h2 h3, if_neg hu]; exact a1, by rw [a2]; exact h2, a3, fun pt r _ => ?_⟩
      rw [a4]
      simp only [zero_add]

end Sampler

end Escnn
