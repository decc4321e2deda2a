import Verif.Lemmas.GroupedRun
import Verif.Lemmas.RunTable
import Verif.Model.Dropout

/-!
# The modules which process the fields of each size together
-/

namespace Escnn

variable {B P P' S R L : Type} {sz : R → ℕ}

/-- The loop over the sizes in terms of fields: `ψ s n v b o p` is what is computed for entry `o` of the `n`-th field of size `s`, given its entries `v b o p`. -/
theorem sizeLoop_run {t : FType S R} (hpos : ∀ r ∈ t.reprs, 0 < sz r) {tab : List (ℕ × Bool × List ℕ)} (htab : runTable sz t (t.reprs.map sz) = .ok tab) {order : List ℕ} (hnd : order.Nodup)
    (hmem : ∀ s, s ∈ order ↔ s ∈ t.reprs.map sz) {F : ℕ → FTensor B P → Except Err (FTensor B P)} {x out : FTensor B P} (hx : x.chans = t.size sz) (ho : out.chans = t.size sz)
    (φ : ℕ → ℕ → ℕ → B → ℕ → P → ℝ)
    (hF : ∀ s ∈ t.reprs.map sz, ∀ (d : FTensor B P) (f : FieldsT B P), d.toFields ((t.reprs.map sz).count s) s = .ok f → f.n = (t.reprs.map sz).count s → f.size = s →
      (∀ n k : ℕ, (labelled (t.reprs.map sz) s)[n]? = some k → ∀ b o p, o < s → f.get b n o p = x.get b (chanOffset sz t.reprs k + o) p) →
      ∃ e : FieldsT B P, F s d = .ok e.flat ∧ e.n = f.n ∧ e.size = s ∧ ∀ n k : ℕ, (labelled (t.reprs.map sz) s)[n]? = some k → ∀ b o p, o < s → e.get b n o p = φ s n k b o p) :
    ∃ res, groupedLoop F tab tab x out order = .ok res ∧ res.chans = t.size sz ∧
      ∀ (k : ℕ) r, t.reprs[k]? = some r → ∀ b o p, o < sz r → res.get b (chanOffset sz t.reprs k + o) p = φ (sz r) ((labelled (t.reprs.map sz) (sz r)).idxOf k) k b o p := by
  obtain ⟨d, hd, ht⟩ := runTable_spec (sz := sz) t hpos (t.reprs.map sz) (by simp)
  rw [htab] at hd
  obtain rfl := Except.ok.inj hd
  have hlab : ∀ (k : ℕ) (l : ℕ) (r : R), (t.reprs.map sz)[k]? = some l → t.reprs[k]? = some r → sz r = l := by
    intro k l r h1 h2
    rw [List.getElem?_map, h2] at h1
    simpa using h1
  obtain ⟨res, h1, h2, h3⟩ := groupedLoop_run (x := x) (out := out) (F := F) (rs := t.reprs) (rs' := t.reprs)
    (sz := sz) (sz' := sz) (labels := t.reprs.map sz) (ls := order) (tin := tab) (tout := tab) (s := id) (s' := id) φ
    hnd hmem (by simp) (by simp) (fun k l r => hlab k l r) (fun k l r => hlab k l r) ht ht (by rw [hx, FType.size_eq]) (by rw [ho, FType.size_eq])
    (by
      intro s hs d hd
      obtain ⟨f, e1, e2, e3, e4⟩ := hd.toFields
      have e3 : f.size = s := e3
      have e1' : d.toFields ((t.reprs.map sz).count s) s = .ok f := by rw [← labelled_length]; exact e1
      obtain ⟨e, f1, f2, f3, f4⟩ := hF s hs d f e1' (by rw [e2, labelled_length]) e3 e4
      refine ⟨e.flat, f1, ?_, fun n k hn b o p ho => ?_⟩
      · show e.n * e.size = _
        rw [f2, f3, e2]
        rfl
      · simp only [id] at ho ⊢
        rw [← f4 n k hn b o p ho]
        conv_lhs => rw [← f3]
        exact FieldsT.flat_get e b p (by rw [f3]; exact ho))
  refine ⟨res, h1, by rw [h2, FType.size_eq], fun k r hk b o p ho => h3 k (sz r) (by rw [List.getElem?_map, hk]; rfl) b o p ho⟩

/-! ### Labels which form one run each -/

/-- A label never returns after a different one. -/
def NoReturn (labels : List L) : Prop := ∀ (i j k : ℕ) (a b : L), i < j → j < k → labels[i]? = some a → labels[j]? = some b → labels[k]? = some a → b = a

theorem NoReturn.prefix {pre ls : List L} (h : NoReturn (pre ++ ls)) : NoReturn pre := by
  intro i j k a b hij hjk hi hj hk
  have := fun (i : ℕ) (a : L) (h : pre[i]? = some a) => (List.getElem?_append_left (l₂ := ls) (List.getElem?_eq_some_iff.1 h).1).trans h
  exact h i j k a b hij hjk (this i a hi) (this j b hj) (this k a hk)

theorem contigLoop_true [DecidableEq L] (ls pre : List L) (d : List (L × Bool)) (hr : NoReturn (pre ++ ls)) (h : ∀ l, l ∈ pre ↔ FType.lookupLast d l = some true)
    (h0 : ∀ l, l ∉ pre → FType.lookupLast d l = none) : ∀ l ∈ pre ++ ls, FType.lookupLast (contigLoop pre.getLast? d ls) l = some true := by
  induction ls generalizing pre d with
  | nil => intro l hl; rw [contigLoop]; exact (h l).1 (by simpa using hl)
  | cons l ls ih =>
    rw [contigLoop]
    have e1 : pre ++ l :: ls = (pre ++ [l]) ++ ls := by simp
    have e2 : some l = (pre ++ [l]).getLast? := by simp
    rw [e1] at hr ⊢
    have hlast : l ∈ pre → some l = pre.getLast? := by
      intro hl
      obtain ⟨i, hi⟩ := List.mem_iff_getElem?.1 hl
      have hil := (List.getElem?_eq_some_iff.1 hi).1
      rcases Nat.lt_or_ge i (pre.length - 1) with h1 | h1
      · have hj : pre.length - 1 < pre.length := by omega
        have := hr.prefix i (pre.length - 1) pre.length l pre[pre.length - 1] h1 hj (by rw [List.getElem?_append_left hil]; exact hi)
          (by rw [List.getElem?_append_left hj]; exact List.getElem?_eq_getElem hj) (by simp)
        rw [List.getLast?_eq_getElem?, List.getElem?_eq_getElem hj, this]
      · rw [List.getLast?_eq_getElem?, show pre.length - 1 = i by omega, hi]
    have hnew : (if some l ≠ pre.getLast? then (if (FType.lookupLast d l).isSome then d ++ [(l, false)] else d ++ [(l, true)]) else d) = if l ∈ pre then d else d ++ [(l, true)] := by
      by_cases hl : l ∈ pre
      · rw [if_neg (not_not.2 (hlast hl)), if_pos hl]
      · rw [if_pos (fun e => hl (List.mem_of_getLast? e.symm)), if_neg hl, h0 l hl]
        rfl
    rw [hnew, e2]
    refine ih _ _ hr (fun l' => ?_) (fun l' hl' => ?_)
    · by_cases hl : l ∈ pre
      · rw [if_pos hl, ← h l', List.mem_append, List.mem_singleton]
        exact ⟨fun h => h.elim id fun e => e ▸ hl, Or.inl⟩
      · rw [if_neg hl, lookupLast_append]
        by_cases e : l = l'
        · rw [if_pos e]
          simp [e]
        · rw [if_neg e, ← h l', List.mem_append, List.mem_singleton]
          exact ⟨fun h => h.resolve_right fun e' => e e'.symm, Or.inl⟩
    · have h1 : l' ∉ pre := fun h => hl' (by simp [h])
      have h2 : l ≠ l' := fun h => hl' (by simp [h])
      split_ifs
      · exact h0 l' h1
      · rw [lookupLast_append, if_neg h2]
        exact h0 l' h1

theorem runTable_true [DecidableEq L] {t : FType S R} {labels : List L} (hr : NoReturn labels) {d : List (L × Bool × List ℕ)} (h : runTable sz t labels = .ok d) {l : L} (hl : l ∈ labels) :
    ∃ idx, FType.lookupLast d l = some (true, idx) := by
  have h1 := contigLoop_true labels [] [] hr (fun l => by simp [FType.lookupLast]) (fun l _ => by simp [FType.lookupLast]) l hl
  rw [List.getLast?_nil] at h1
  obtain ⟨w, hw1, hw2⟩ := lookupLast_mapE h (fun e e' he => by
    split_ifs at he
    · split at he
      · simp only [Except.ok.injEq] at he
        rw [← he]
      · simp at he
    · simp only [Except.ok.injEq] at he
      rw [← he]) l h1
  refine ⟨w.2, ?_⟩
  rw [hw2]
  simp only [if_true] at hw1
  split at hw1
  · simp only [Except.ok.injEq, Prod.mk.injEq, true_and] at hw1
    rw [← hw1]
  · simp at hw1

/-- With labels in one run each, the loop which overwrites its input computes what the other loop computes. -/
theorem inplaceLoop_eq [DecidableEq L] {F : L → FTensor B P → Except Err (FTensor B P)} {tab : List (L × Bool × List ℕ)} {I : L → List ℕ} {E : L → FTensor B P} {x : FTensor B P} (ls : List L) (cur : FTensor B P)
    (hin : ∀ l ∈ ls, ∃ idx, FType.lookupLast tab l = some (true, idx) ∧ Entry true idx (I l)) (hI : ∀ l ∈ ls, ∀ i ∈ I l, i < x.chans)
    (hnd : ∀ l ∈ ls, (I l).Nodup) (hdis : ∀ l ∈ ls, ∀ l' ∈ ls, ∀ i, i ∈ I l → i ∈ I l' → l = l') (hlsnd : ls.Nodup) (hc : cur.chans = x.chans) (hcur : ∀ l ∈ ls, ∀ i ∈ I l, ∀ b p, cur.get b i p = x.get b i p)
    (hF : ∀ l ∈ ls, ∀ d : FTensor B P, d.chans = (I l).length → (∀ b (j : ℕ) (i : ℕ) p, (I l)[j]? = some i → d.get b j p = x.get b i p) → ∃ e, F l d = .ok e ∧ e ≈ E l)
    (hE : ∀ l ∈ ls, (E l).chans = (I l).length) :
    ∃ res, inplaceLoop F tab cur ls = .ok res ∧ res.chans = x.chans ∧ (∀ l ∈ ls, ∀ b (j : ℕ) (i : ℕ) p, (I l)[j]? = some i → res.get b i p = (E l).get b j p) ∧
      ∀ b i p, (∀ l ∈ ls, i ∉ I l) → res.get b i p = cur.get b i p := by
  induction ls generalizing cur with
  | nil => exact ⟨cur, rfl, hc, by simp, fun _ _ _ _ => rfl⟩
  | cons l ls ih =>
    obtain ⟨idx, h1, h2⟩ := hin l (by simp)
    have hIl : ∀ i ∈ I l, i < cur.chans := by rw [hc]; exact hI l (by simp)
    obtain ⟨d, e1, e2, e3⟩ := readIdx_ok h2 hIl
    obtain ⟨e, e4, e5⟩ := hF l (by simp) d e2 fun b j i p hj => by rw [e3 b j i p hj, hcur l (by simp) i (List.mem_of_getElem? hj)]
    obtain ⟨out', e6, e7, e8, e9⟩ := writeIdx_ok h2 hIl (hnd l (by simp)) (d := e) (e5.1.trans (hE l (by simp)))
    obtain ⟨res, f1, f2, f3, f4⟩ := ih out' (fun l hl => hin l (List.mem_cons_of_mem _ hl)) (fun l hl => hI l (List.mem_cons_of_mem _ hl))
      (fun l hl => hnd l (List.mem_cons_of_mem _ hl)) (fun l hl l' hl' => hdis l (List.mem_cons_of_mem _ hl) l' (List.mem_cons_of_mem _ hl'))
      (List.nodup_cons.1 hlsnd).2 (e7.trans hc) (fun l' hl' i hi b p => by
        rw [e9 b i p fun hi' => (List.nodup_cons.1 hlsnd).1 (by rw [hdis l (by simp) l' (List.mem_cons_of_mem _ hl') i hi' hi]; exact hl')]
        exact hcur l' (List.mem_cons_of_mem _ hl') i hi b p)
      (fun l hl => hF l (List.mem_cons_of_mem _ hl)) (fun l hl => hE l (List.mem_cons_of_mem _ hl))
    refine ⟨res, ?_, f2, ?_, ?_⟩
    · rw [inplaceLoop]
      simp only [bind, Except.bind, tabGet_ok.2 h1, e1, e4, if_true, e6]
      exact f1
    · intro l' hl' b j i p hj
      rcases List.mem_cons.1 hl' with rfl | hl'
      · have hlt := (List.getElem?_eq_some_iff.1 hj).1
        rw [f4 b i p, e8 b j i p hj]
        · exact e5.2 b j p (by rw [e5.1, hE _ (by simp)]; exact hlt)
        · intro l'' hl'' hi
          have := hdis l' (by simp) l'' (List.mem_cons_of_mem _ hl'') i (List.mem_of_getElem? hj) hi
          subst this
          exact (List.nodup_cons.1 hlsnd).1 hl''
      · exact f3 l' hl' b j i p hj
    · intro b i p hi
      rw [f4 b i p fun l hl => hi l (List.mem_cons_of_mem _ hl), e9 b i p (hi l (by simp))]

/-- The loop over the sizes with `inplace`, for sizes in one run each. -/
theorem inplaceLoop_run {t : FType S R} (hpos : ∀ r ∈ t.reprs, 0 < sz r) (hr : NoReturn (t.reprs.map sz)) {tab : List (ℕ × Bool × List ℕ)} (htab : runTable sz t (t.reprs.map sz) = .ok tab) {order : List ℕ}
    (hnd : order.Nodup) (hmem : ∀ s, s ∈ order ↔ s ∈ t.reprs.map sz) {F : ℕ → FTensor B P → Except Err (FTensor B P)} {x : FTensor B P} (hx : x.chans = t.size sz) (φ : ℕ → ℕ → ℕ → B → ℕ → P → ℝ)
    (hF : ∀ s ∈ t.reprs.map sz, ∀ (d : FTensor B P) (f : FieldsT B P), d.toFields ((t.reprs.map sz).count s) s = .ok f → f.n = (t.reprs.map sz).count s → f.size = s →
      (∀ n k : ℕ, (labelled (t.reprs.map sz) s)[n]? = some k → ∀ b o p, o < s → f.get b n o p = x.get b (chanOffset sz t.reprs k + o) p) →
      ∃ e : FieldsT B P, F s d = .ok e.flat ∧ e.n = f.n ∧ e.size = s ∧ ∀ n k : ℕ, (labelled (t.reprs.map sz) s)[n]? = some k → ∀ b o p, o < s → e.get b n o p = φ s n k b o p) :
    ∃ res, inplaceLoop F tab x order = .ok res ∧ res.chans = t.size sz ∧
      ∀ (k : ℕ) r, t.reprs[k]? = some r → ∀ b o p, o < sz r → res.get b (chanOffset sz t.reprs k + o) p = φ (sz r) ((labelled (t.reprs.map sz) (sz r)).idxOf k) k b o p := by
  obtain ⟨d, hd, ht⟩ := runTable_spec (sz := sz) t hpos (t.reprs.map sz) (by simp)
  rw [htab] at hd
  obtain rfl := Except.ok.inj hd
  have hl : (t.reprs.map sz).length = t.reprs.length := by simp
  have hlab : ∀ (l k : ℕ) (r : R), (t.reprs.map sz)[k]? = some l → t.reprs[k]? = some r → sz r = l := by
    intro l k r h1 h2
    rw [List.getElem?_map, h2] at h1
    simpa using h1
  set labels := t.reprs.map sz with hlabels
  obtain ⟨res, h1, h2, h3, -⟩ := inplaceLoop_eq (F := F) (tab := tab) (x := x) (I := labelIdx sz t.reprs labels)
    (E := fun l => ⟨(labelled labels l).length * l, fun b c p => φ l (c / l) ((labelled labels l).getD (c / l) 0) b (c % l) p⟩) order x
    (fun l hl => by
      obtain ⟨idx, h⟩ := runTable_true hr htab ((hmem l).1 hl)
      obtain ⟨c, idx', h', e⟩ := ht l ((hmem l).1 hl)
      rw [h] at h'
      obtain ⟨rfl, rfl⟩ := Prod.mk.inj (Option.some.inj h')
      exact ⟨idx, h, e⟩) (fun l _ i hi => by rw [hx, FType.size_eq]; exact labelIdx_lt hi)
    (fun l _ => labelIdx_nodup hl l) (fun l _ l' _ i hi hi' => labelIdx_disjoint hi hi') hnd rfl (fun _ _ _ _ _ _ => rfl)
    (fun l hlm d hd1 hd2 => by
      have hlen := labelIdx_length hl l l (sz := sz) (hlab l)
      have hd : Holds sz t.reprs labels l x l d := ⟨by rw [hd1, hlen], fun n k hn b o p ho => hd2 b _ _ p (labelIdx_get hl l l (hlab l) hn ho)⟩
      obtain ⟨f, e1, e2, e3, e4⟩ := hd.toFields
      obtain ⟨e, f1, f2, f3, f4⟩ := hF l ((hmem l).1 hlm) d f (by rw [← labelled_length]; exact e1) (by rw [e2, labelled_length]) e3 e4
      refine ⟨e.flat, f1, ?_, fun b c p hc => ?_⟩
      · show e.n * e.size = _
        rw [f2, f3, e2]
      · have hc : c < e.n * e.size := hc
        rw [f2, f3, e2] at hc
        have hs0 : 0 < l := by
          rcases Nat.eq_zero_or_pos l with h | h
          · simp [h] at hc
          · exact h
        have hn : c / l < (labelled labels l).length := Nat.div_lt_of_lt_mul (by rw [Nat.mul_comm]; exact hc)
        have := f4 (c / l) _ (List.getElem?_eq_getElem hn) b (c % l) p (Nat.mod_lt _ hs0)
        show e.get b (c / e.size) (c % e.size) p = φ l (c / l) ((labelled labels l).getD (c / l) 0) b (c % l) p
        rw [f3, this]
        congr 1
        simp [List.getD, hn])
    (fun l _ => (labelIdx_length hl l l (hlab l)).symm)
  refine ⟨res, h1, h2.trans hx, fun k r hk b o p hos => ?_⟩
  have hk' : labels[k]? = some (sz r) := by rw [hlabels, List.getElem?_map, hk]; rfl
  have hkm : k ∈ labelled labels (sz r) := mem_labelled.2 hk'
  have hn : (labelled labels (sz r))[(labelled labels (sz r)).idxOf k]? = some k := by
    rw [List.getElem?_eq_getElem (List.idxOf_lt_length_of_mem hkm), List.getElem_idxOf]
  have := h3 (sz r) ((hmem _).2 (List.mem_of_getElem? hk')) b _ _ p (labelIdx_get hl (sz r) (sz r) (hlab (sz r)) hn hos)
  have hs0 : 0 < sz r := by omega
  rw [this]
  simp only
  rw [Nat.mul_comm, Nat.mul_add_div hs0, Nat.div_eq_of_lt hos, Nat.mul_add_mod, Nat.mod_eq_of_lt hos, add_zero]
  simp [List.getD, hn]

end Escnn
