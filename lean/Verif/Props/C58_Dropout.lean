import Verif.Lemmas.SizeLoop
import Verif.Props.C49_Norm

/-!
# C58: FieldDropout multiplies each field by one factor
-/

namespace Escnn

open Finset

variable {B P S G Id C R : Type} {El : G → Prop} {sz : R → ℕ}

namespace FieldDropout

theorem init_ok {t : FType S R} {p : ℝ} {inplace : Bool} {m : FieldDropout S R} (h : init sz t p inplace = .ok m) :
    0 ≤ p ∧ p ≤ 1 ∧ m.inType = t ∧ m.p = p ∧ m.inplace = inplace ∧ m.sizes = t.reprs.map sz ∧ runTable sz t (t.reprs.map sz) = .ok m.table ∧ m.order = keysInOrder (t.reprs.map sz) := by
  unfold init at h
  split_ifs at h with hp
  push Not at hp
  cases ht : runTable sz t (t.reprs.map sz) with
  | error e => simp [ht, bind, Except.bind] at h
  | ok tab =>
    simp only [ht, bind, Except.bind, Except.ok.injEq] at h
    subst h
    exact ⟨hp.1, hp.2, rfl, rfl, rfl, rfl, rfl, rfl⟩

/-- **C58** The constructor accepts the probabilities between 0 and 1. -/
theorem C58_init (t : FType S R) (hpos : ∀ r ∈ t.reprs, 0 < sz r) (p : ℝ) (inplace : Bool) : (∃ m, init sz t p inplace = .ok m) ↔ 0 ≤ p ∧ p ≤ 1 := by
  refine ⟨fun ⟨m, h⟩ => ⟨(init_ok h).1, (init_ok h).2.1⟩, fun h => ?_⟩
  obtain ⟨tab, ht, -⟩ := runTable_spec (sz := sz) t hpos (t.reprs.map sz) (by simp)
  refine ⟨⟨t, p, inplace, t.reprs.map sz, tab, keysInOrder (t.reprs.map sz)⟩, ?_⟩
  unfold init
  rw [if_neg (by push Not; exact h), ht]
  rfl

theorem forward_spec {t : FType S R} (hpos : ∀ r ∈ t.reprs, 0 < sz r) {p : ℝ} {inplace : Bool} {m : FieldDropout S R} (hm : init sz t p inplace = .ok m) (hin : inplace = false ∨ NoReturn (t.reprs.map sz))
    (u : ℕ → B → ℕ → P → ℝ) (junk : B → ℕ → P → ℝ) (x : GTensor B P S R C) (hx : x.type = t) (hc : x.tensor.chans = t.size sz) :
    ∃ y, forward sz true u junk m x = .ok y ∧ y.type = t ∧ y.coords = x.coords ∧ y.tensor.chans = t.size sz ∧
      ∀ (k : ℕ) (r : R), t.reprs[k]? = some r → ∀ o < sz r, ∀ b q, y.tensor.get b (chanOffset sz t.reprs k + o) q =
        x.tensor.get b (chanOffset sz t.reprs k + o) q * dropFactor p (u (sz r) b ((labelled (t.reprs.map sz) (sz r)).idxOf k) q) := by
  obtain ⟨-, -, h1, h2, h3, h4, h5, h6⟩ := init_ok hm
  have hF : ∀ s ∈ t.reprs.map sz, ∀ (d : FTensor B P) (f : FieldsT B P), d.toFields ((t.reprs.map sz).count s) s = .ok f → f.n = (t.reprs.map sz).count s → f.size = s →
      (∀ n k : ℕ, (labelled (t.reprs.map sz) s)[n]? = some k → ∀ b o q, o < s → f.get b n o q = x.tensor.get b (chanOffset sz t.reprs k + o) q) →
      ∃ e : FieldsT B P, m.step u s d = .ok e.flat ∧ e.n = f.n ∧ e.size = s ∧ ∀ n k : ℕ, (labelled (t.reprs.map sz) s)[n]? = some k → ∀ b o q, o < s →
        e.get b n o q = x.tensor.get b (chanOffset sz t.reprs k + o) q * dropFactor p (u s b n q) := by
    intro s _ d f e1 e2 e3 e4
    refine ⟨⟨f.n, f.size, fun b n o q => f.get b n o q * dropFactor m.p (u s b n q)⟩, ?_, rfl, e3, fun n k hn b o q ho => ?_⟩
    · simp only [step, h4, e1, bind, Except.bind]
    · simp only [e4 n k hn b o q ho, h2]
  have hnd : m.order.Nodup := by rw [h6]; exact keysInOrder_nodup _
  have hmem : ∀ s, s ∈ m.order ↔ s ∈ t.reprs.map sz := fun s => by rw [h6]; exact mem_keysInOrder
  cases hi : m.inplace with
  | false =>
    obtain ⟨res, f1, f2, f3⟩ := sizeLoop_run hpos h5 hnd hmem (out := ⟨x.tensor.chans, junk⟩) hc hc (fun s n k b o q => x.tensor.get b (chanOffset sz t.reprs k + o) q * dropFactor p (u s b n q)) hF
    refine ⟨⟨res, t, x.coords⟩, ?_, rfl, rfl, f2, fun k r hk o ho b q => f3 k r hk b o q ho⟩
    unfold forward
    rw [if_pos (hx.trans h1.symm), if_neg (by simp), hi, if_neg (by simp), f1, h1]
    exact if_pos f2
  | true =>
    have hnr : NoReturn (t.reprs.map sz) := hin.resolve_left (by rw [← h3, hi]; simp)
    obtain ⟨res, f1, f2, f3⟩ := inplaceLoop_run hpos hnr h5 hnd hmem hc (fun s n k b o q => x.tensor.get b (chanOffset sz t.reprs k + o) q * dropFactor p (u s b n q)) hF
    refine ⟨⟨res, t, x.coords⟩, ?_, rfl, rfl, f2, fun k r hk o ho b q => f3 k r hk b o q ho⟩
    unfold forward
    rw [if_pos (hx.trans h1.symm), if_neg (by simp), hi, if_pos rfl, f1, h1]
    exact if_pos f2

/-- **C58** (The case `inplace = False`, and `inplace = True` for types in which the fields of each size follow each other.)  In training mode, all the entries of a field at a position of a sample are multiplied by
the same factor, which is 0 or `1/(1-p)` according to a random number; the numbers of different fields are different draws. -/
theorem C58_factor_partial (t : FType S R) (hpos : ∀ r ∈ t.reprs, 0 < sz r) {p : ℝ} {inplace : Bool} {m : FieldDropout S R} (hm : init sz t p inplace = .ok m)
    (hin : inplace = false ∨ NoReturn (t.reprs.map sz)) :
    ∃ draw : ℕ → ℕ, (∀ (k k' : ℕ) r r', t.reprs[k]? = some r → t.reprs[k']? = some r' → sz r = sz r' → draw k = draw k' → k = k') ∧
    ∀ (u : ℕ → B → ℕ → P → ℝ) (junk : B → ℕ → P → ℝ) (x : GTensor B P S R C), x.type = t → x.tensor.chans = t.size sz →
      ∃ y, forward sz true u junk m x = .ok y ∧ y.type = t ∧ y.coords = x.coords ∧ y.tensor.chans = x.tensor.chans ∧
        ∀ (k : ℕ) (r : R), t.reprs[k]? = some r → ∀ b q, ∃ factor : ℝ, (factor = 0 ∧ u (sz r) b (draw k) q ≤ p ∨ factor = 1 / (1 - p) ∧ p < u (sz r) b (draw k) q) ∧
          ∀ o < sz r, y.tensor.get b (((t.reprs.take k).map sz).sum + o) q = x.tensor.get b (((t.reprs.take k).map sz).sum + o) q * factor := by
  refine ⟨fun k => (labelled (t.reprs.map sz) ((t.reprs.map sz).getD k 0)).idxOf k, fun k k' r r' hk hk' hs e => ?_, fun u junk x hx hc => ?_⟩
  · have e1 : (t.reprs.map sz).getD k 0 = sz r := by simp [List.getD, hk]
    have e2 : (t.reprs.map sz).getD k' 0 = sz r := by simp [List.getD, hk', hs]
    simp only [e1, e2] at e
    exact (List.idxOf_inj (mem_labelled.2 (by rw [List.getElem?_map, hk]; rfl))).1 e
  · obtain ⟨y, e1, e2, e3, e4, e5⟩ := forward_spec (C := C) hpos hm hin u junk x hx hc
    refine ⟨y, e1, e2, e3, e4.trans hc.symm, fun k r hk b q => ⟨_, ?_, fun o ho => e5 k r hk o ho b q⟩⟩
    have : (t.reprs.map sz).getD k 0 = sz r := by simp [List.getD, hk]
    simp only [this]
    unfold dropFactor
    by_cases h : u (sz r) b ((labelled (t.reprs.map sz) (sz r)).idxOf k) q > p
    · rw [if_pos h]
      exact .inr ⟨rfl, h⟩
    · rw [if_neg h, zero_div]
      exact .inl ⟨rfl, not_lt.1 h⟩

/-- **C58** In evaluation mode, the module is the identity. -/
theorem C58_eval (m : FieldDropout S R) (u : ℕ → B → ℕ → P → ℝ) (junk : B → ℕ → P → ℝ) (x : GTensor B P S R C) (hx : x.type = m.inType) : forward sz false u junk m x = .ok x := by
  unfold forward
  rw [if_pos hx, if_pos (by simp)]

/-- **C58** (Under the hypothesis that the fields of each size follow each other; see `C58_inplace_violated`.)  `inplace` does not change the result. -/
theorem C58_inplace_partial (t : FType S R) (hpos : ∀ r ∈ t.reprs, 0 < sz r) (hr : NoReturn (t.reprs.map sz)) {p : ℝ} {m m' : FieldDropout S R} (hm : init sz t p false = .ok m)
    (hm' : init sz t p true = .ok m') (training : Bool) (u : ℕ → B → ℕ → P → ℝ) (junk junk' : B → ℕ → P → ℝ) (x : GTensor B P S R C) (hx : x.type = t) (hc : x.tensor.chans = t.size sz) :
    ∃ y y', forward sz training u junk m x = .ok y ∧ forward sz training u junk' m' x = .ok y' ∧ y.type = y'.type ∧ y.coords = y'.coords ∧ y.tensor ≈ y'.tensor := by
  cases training with
  | false => exact ⟨x, x, C58_eval m u junk x (hx.trans (init_ok hm).2.2.1.symm), C58_eval m' u junk' x (hx.trans (init_ok hm').2.2.1.symm), rfl, rfl, rfl, fun _ _ _ _ => rfl⟩
  | true =>
    obtain ⟨y, e1, e2, e3, e4, e5⟩ := forward_spec (C := C) hpos hm (.inl rfl) u junk x hx hc
    obtain ⟨y', f1, f2, f3, f4, f5⟩ := forward_spec (C := C) hpos hm' (.inr hr) u junk' x hx hc
    refine ⟨y, y', e1, f1, e2.trans f2.symm, e3.trans f3.symm, e4.trans f4.symm, fun b c q h => ?_⟩
    rw [e4, FType.size_eq] at h
    obtain ⟨k, r, o, hk, ho, rfl⟩ := exists_field h
    rw [e5 k r hk o ho b q, f5 k r hk o ho b q]

/-- **C58** Because of the common factor, for each draw of the random numbers the module commutes with the action on the fibres, whatever the representations are. -/
theorem C58_equivariant (t : FType S (Rep G Id)) (ht : t.Square El) (hpos : ∀ r ∈ t.reprs, 0 < r.size) {p : ℝ} {inplace : Bool} {m : FieldDropout S (Rep G Id)} (hm : init Rep.size t p inplace = .ok m)
    (hin : inplace = false ∨ NoReturn (t.reprs.map Rep.size)) (u : ℕ → B → ℕ → P → ℝ) (junk : B → ℕ → P → ℝ) :
    FibreEquivariant (B := B) (P := P) (C := C) El t t (forward Rep.size true u junk m) := by
  refine FibreEquivariant.of_fields ht ht (fun x k o b q => x.get b (chanOffset Rep.size t.reprs k + o) q *
    dropFactor p (u ((t.reprs.map Rep.size).getD k 0) b ((labelled (t.reprs.map Rep.size) ((t.reprs.map Rep.size).getD k 0)).idxOf k) q)) (fun x hx hc => ?_) ?_
  · obtain ⟨y, e1, e2, e3, e4, e5⟩ := forward_spec (C := C) hpos hm hin u junk x hx hc
    refine ⟨y, e1, e2, e3, e4, fun k r hk o ho b q => ?_⟩
    have : (t.reprs.map Rep.size).getD k 0 = r.size := by simp [List.getD, hk]
    rw [this]
    exact e5 k r hk o ho b q
  · intro g hg x gx _ _ hact k r hk o ho b q
    rw [hact k r hk b o q ho, sum_mul]
    exact sum_congr rfl fun j _ => by ring

/-- **C58** With `inplace`, the fields of a size which occurs in several places are not dropped at all: for fields of sizes 1, 2, 1 and random numbers below `p`, the module returns its input unchanged in the first
and the last field, while without `inplace` the result is zero. -/
theorem C58_inplace_violated : ∃ m m' : FieldDropout Unit ℕ, init id ⟨(), [1, 2, 1]⟩ (1 / 2) false = .ok m ∧ init id ⟨(), [1, 2, 1]⟩ (1 / 2) true = .ok m' ∧
    ∀ x : GTensor Unit Unit Unit ℕ Unit, x.type = ⟨(), [1, 2, 1]⟩ → x.tensor.chans = 4 → ∀ junk : Unit → ℕ → Unit → ℝ,
      ∃ y y', forward id true (fun _ _ _ _ => 0) junk m x = .ok y ∧ forward id true (fun _ _ _ _ => 0) junk m' x = .ok y' ∧
        y.tensor.get () 0 () = 0 ∧ y'.tensor.get () 0 () = x.tensor.get () 0 () := by
  let t : FType Unit ℕ := ⟨(), [1, 2, 1]⟩
  have hpos : ∀ r ∈ t.reprs, 0 < id r := by intro r hr; simp [t] at hr; rcases hr with rfl | rfl | rfl <;> simp
  have htab : runTable id t (t.reprs.map id) = .ok [(1, true, [0, 4]), (2, true, [1, 3]), (1, false, [0, 3])] := rfl
  have hp : ¬ ((1 / 2 : ℝ) < 0 ∨ (1 / 2 : ℝ) > 1) := by norm_num
  have hm : ∀ b, init id t (1 / 2) b = .ok ⟨t, 1 / 2, b, [1, 2, 1], [(1, true, [0, 4]), (2, true, [1, 3]), (1, false, [0, 3])], [1, 2]⟩ := by
    intro b
    unfold init
    rw [if_neg hp, htab]
    rfl
  refine ⟨_, _, hm false, hm true, fun x hx hc junk => ?_⟩
  obtain ⟨y, e1, e2, e3, e4, e5⟩ := forward_spec (C := Unit) hpos (hm false) (.inl rfl) (fun _ _ _ _ => 0) junk x hx hc
  have h0 := e5 0 1 rfl 0 one_pos () ()
  have hd : dropFactor (1 / 2) 0 = 0 := by norm_num [dropFactor]
  rw [hd, mul_zero] at h0
  have h1 : ∃ y', forward id true (fun _ _ _ _ => 0) junk (⟨t, 1 / 2, true, [1, 2, 1], [(1, true, [0, 4]), (2, true, [1, 3]), (1, false, [0, 3])], [1, 2]⟩ : FieldDropout Unit ℕ) x = .ok y' ∧
      y'.tensor.get () 0 () = x.tensor.get () 0 () := by
    obtain ⟨⟨c, get⟩, ty, co⟩ := x
    obtain rfl : c = 4 := hc
    unfold forward
    rw [if_pos hx, if_neg (by simp), if_pos rfl]
    exact ⟨_, rfl, rfl⟩
  obtain ⟨y', f1, f2⟩ := h1
  exact ⟨y, y', e1, f1, h0, f2⟩

/-- Two fields of size 2 and one of size 1. -/
example : ∃ m : FieldDropout Unit (Rep Bool Unit), init Rep.size (⟨(), [swapRep, signRep, swapRep]⟩ : FType Unit (Rep Bool Unit)) (1 / 4) false = .ok m ∧
    FibreEquivariant (B := Unit) (P := Unit) (C := Unit) (fun _ : Bool => True) ⟨(), [swapRep, signRep, swapRep]⟩ ⟨(), [swapRep, signRep, swapRep]⟩
      (forward Rep.size true (fun _ _ n _ => n) (fun _ _ _ => 7) m) := by
  have hmem : ∀ r ∈ [swapRep, signRep, swapRep], r = swapRep ∨ r = signRep := by intro r hr; simp at hr; tauto
  have hpos : ∀ r ∈ (⟨(), [swapRep, signRep, swapRep]⟩ : FType Unit (Rep Bool Unit)).reprs, 0 < r.size := by
    intro r hr
    rcases hmem r hr with rfl | rfl
    · exact two_pos
    · exact one_pos
  obtain ⟨m, hm⟩ := (C58_init (sz := Rep.size) (⟨(), [swapRep, signRep, swapRep]⟩ : FType Unit (Rep Bool Unit)) hpos (1 / 4) false).2 (by norm_num)
  refine ⟨m, hm, C58_equivariant _ (fun r hr g _ => ?_) hpos hm (.inl rfl) _ _⟩
  rcases hmem r hr with rfl | rfl <;> exact ⟨rfl, rfl⟩

/-- Sizes in one run each. -/
example : NoReturn [1, 1, 2, 2, 2, 5] := by
  intro i j k a b hij hjk hi hj hk
  have hk6 : k < 6 := (List.getElem?_eq_some_iff.1 hk).1
  interval_cases k <;> interval_cases j <;> interval_cases i <;> simp at hi hj hk <;> omega

end FieldDropout

namespace PointDropout

/-- **C58** `PointwiseDropout` multiplies each entry by 0 or `1/(1-p)` in training mode and is the identity in evaluation mode; `inplace` does not change the result. -/
theorem C58_pointwise (t : FType S (Rep G Id)) {p : ℝ} {inplace : Bool} {m : PointDropout S (Rep G Id)} (hm : init t p inplace = .ok m) (u : B → ℕ → P → ℝ)
    (x : GTensor B P S (Rep G Id) C) (hx : x.type = t) (hc : x.tensor.chans = t.size Rep.size) :
    (0 ≤ p ∧ p ≤ 1) ∧ forward Rep.size false u m x = .ok x ∧ (∃ m', init t p (!inplace) = .ok m' ∧ ∀ training, forward Rep.size training u m' x = forward Rep.size training u m x) ∧
    ∃ y, forward Rep.size true u m x = .ok y ∧ y.type = t ∧ y.coords = x.coords ∧ y.tensor.chans = x.tensor.chans ∧
      ∀ b c q, y.tensor.get b c q = 0 ∧ (p = 1 ∨ u b c q ≤ p) ∨ y.tensor.get b c q = x.tensor.get b c q * (1 / (1 - p)) ∧ p < u b c q := by
  unfold init at hm
  split_ifs at hm with h1 h2
  obtain rfl := Except.ok.inj hm
  have hfw : ∀ training m', m'.inType = t → forward Rep.size training u m' x = .ok ⟨⟨x.tensor.chans, fun b c q => torchDropout training m'.p (u b c q) (x.tensor.get b c q)⟩, t, x.coords⟩ := by
    intro training m' hm'
    unfold forward
    rw [if_pos (hx.trans hm'.symm), hm']
    exact if_pos hc
  refine ⟨by push Not at h1; exact h1, ?_, ⟨⟨t, p, !inplace⟩, ?_, fun training => ?_⟩, _, hfw true _ rfl, rfl, rfl, rfl, fun b c q => ?_⟩
  · rw [hfw false _ rfl]
    subst hx
    rfl
  · unfold init
    rw [if_neg h1, if_pos h2]
  · rw [hfw training _ rfl, hfw training _ rfl]
  · simp only [torchDropout, if_true]
    by_cases e : p = 1
    · rw [if_pos e]
      exact .inl ⟨rfl, .inl e⟩
    · rw [if_neg e, dropFactor]
      by_cases h : u b c q > p
      · rw [if_pos h]
        exact .inr ⟨rfl, h⟩
      · rw [if_neg h, zero_div, mul_zero]
        exact .inl ⟨rfl, .inr (not_lt.1 h)⟩

example : ∃ m : PointDropout Unit (Rep Bool Unit), init (⟨(), [swapRep, trivRep]⟩ : FType Unit (Rep Bool Unit)) (1 / 4) true = .ok m := by
  refine ⟨⟨⟨(), [swapRep, trivRep]⟩, 1 / 4, true⟩, ?_⟩
  unfold init
  rw [if_neg (by norm_num), if_pos]
  intro r hr
  simp only [List.mem_cons, List.not_mem_nil, or_false] at hr
  rcases hr with rfl | rfl <;> simp [swapRep, trivRep]

end PointDropout

end Escnn
