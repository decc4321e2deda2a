import Verif.Props.C32_WeightRanges

/-!
# C33: `get_element_info` and `get_basis_info` agree and invert the layout of the weights
-/

namespace Escnn

/-- **C33** (one block) `get_element_info(id)` is item `id` of `get_basis_info()`, whose items are the attributes of the elements of the
basis selected by the mask, in order, numbered from `0`. -/
theorem C33_block {A : Type} (b : SBlock A) :
    (∀ id, b.elementInfo id = b.basisInfo[id]?) ∧ (∀ (n : ℕ) a, b.basisInfo[n]? = some a → a.id = n) ∧
      List.Forall₂ (fun a a' => ∃ n, a' = { a with id := n }) (((b.attrs.zip b.mask).filter Prod.snd).map Prod.fst) b.basisInfo := by
  refine ⟨SBlock.elementInfo_eq b, fun n a => SBlock.basisInfo_id, ?_⟩
  unfold SBlock.basisInfo
  generalize 0 = idx
  induction b.attrs.zip b.mask generalizing idx with
  | nil => exact .nil
  | cons e L ih =>
    obtain ⟨a, c⟩ := e
    cases c with
    | false => exact ih idx
    | true =>
      rw [List.filter_cons_of_pos rfl, List.map_cons, SBlock.basisLoop]
      exact .cons ⟨idx, rfl⟩ (ih (idx + 1))

namespace Blocks

variable {R A : Type} {nm : R → String} {sz : R → ℕ} {bg : R → R → Except Err (KBasis A)} {uin uout inR outR : List R}

/-- The `(output field, input field, basis element)` triples which need a weight. -/
def Triples (gen : R → R → Except Err (SBlock A)) (inR outR : List R) : Set (ℕ × ℕ × ℕ) :=
  {t | ∃ ro ri b, outR[t.1]? = some ro ∧ inR[t.2.1]? = some ri ∧ gen ri ro = .ok b ∧ t.2.2 < b.dim}

/-- For any generator of blocks, `get_basis_info()` yields `dimension()` items; item `idx` has id `idx` and is `get_element_info(idx)`; it names the
representations of its input and output field, carries the attributes of its element in the block of that pair, and gives the positions
of the irreps among all the irreps of the type; decoding an index to (output field, input field, element) is a bijection. -/
theorem info_spec {gen : R → R → Except Err (SBlock A)} (ha : Args nm sz gen uin uout inR outR) (S : ℕ) (ni : R → ℕ) :
    ∃ m L, init nm sz (gen) uin uout inR outR S = .ok m ∧ Blocks.basisInfo nm ni m = .ok L ∧ L.length = m.dim ∧
      (∀ (idx : ℕ) x, L[idx]? = some x → Blocks.elementInfo nm ni m idx = .ok x ∧ x.id = idx ∧
        ∃ ro ri b a, outR[x.outField]? = some ro ∧ inR[x.inField]? = some ri ∧ gen ri ro = .ok b ∧ b.basisInfo[x.blockId]? = some a ∧
          x.outRepr = nm ro ∧ x.inRepr = nm ri ∧ x.attr = a ∧ x.inIrrepsPosition = ((inR.take x.inField).map ni).sum + a.inIrrepIdx ∧
          x.outIrrepsPosition = ((outR.take x.outField).map ni).sum + a.outIrrepIdx) ∧
      (∀ idx, m.dim ≤ idx → Blocks.elementInfo nm ni m idx = .error .assertion) ∧
      Set.BijOn (fun idx => ((L[idx]?.map fun x => (x.outField, x.inField, x.blockId)).getD (0, 0, 0))) {idx | idx < m.dim} (Triples (gen) inR outR) := by
  obtain ⟨m, T, hm, f⟩ := init_spec ha S
  have hwf : ∀ p b, HasBlock nm (gen) inR outR p b → b.WF := by
    rintro p b ⟨i, hi, o, ho, rfl, e⟩
    rcases ha.gen_ok i hi o ho with h' | ⟨b', h1, h2, -⟩
    · rw [e] at h'; cases h'
    · rw [e] at h1; cases h1; exact h2
  obtain ⟨L, hL, hlen, hget⟩ := basisInfo_spec (ni := ni) f hwf (fun p b b' hb hb' => ha.hasBlock_unique hb hb')
  have hfield : ∀ {rs : List R} {l : String} {n k : ℕ}, (labelled (rs.map nm) l)[n]? = some k → ∃ r, rs[k]? = some r ∧ nm r = l := by
    intro rs l n k hk
    have := mem_labelled.1 (List.mem_of_getElem? hk)
    rw [List.getElem?_map, Option.map_eq_some_iff] at this
    exact this
  -- each weight
  have hat : ∀ idx, idx < m.dim → ∃ p b k n j e o i x, At nm (gen) inR outR m T p b k n j e o i idx ∧ b.basisInfo[e]? = some x ∧
      L[idx]? = some (infoAt ni inR outR p o i idx x) ∧ x.id = e := by
    intro idx hidx
    obtain ⟨p, b, k, n, j, e, o, i, a⟩ := f.exists_at (fun p b hb => (hwf p b hb).1) hidx
    have he : e < b.basisInfo.length := by rw [(hwf p b a.hasBlock).2]; exact a.elem
    exact ⟨p, b, k, n, j, e, o, i, _, a, List.getElem?_eq_getElem he, hget a (List.getElem?_eq_getElem he), SBlock.basisInfo_id (List.getElem?_eq_getElem he)⟩
  have hblock : ∀ {p b k n j e o i idx}, At nm (gen) inR outR m T p b k n j e o i idx → ∃ ro ri, outR[o]? = some ro ∧ inR[i]? = some ri ∧
      p = (nm ri, nm ro) ∧ gen ri ro = .ok b := by
    intro p b k n j e o i idx a
    obtain ⟨ro, h1, h2⟩ := hfield a.out
    obtain ⟨ri, h3, h4⟩ := hfield a.inn
    refine ⟨ro, ri, h1, h3, by rw [h2, h4], ?_⟩
    obtain ⟨ri', hi', ro', ho', rfl, hb⟩ := a.hasBlock
    obtain rfl := ha.in_name ri (List.mem_of_getElem? h3) ri' hi' (by rw [h4])
    obtain rfl := ha.out_name ro (List.mem_of_getElem? h1) ro' ho' (by rw [h2])
    exact hb
  refine ⟨m, L, hm, hL, hlen, ?_, ?_, ?_, ?_, ?_⟩
  · intro idx x hx
    have hidx : idx < m.dim := by rw [← hlen]; exact (List.getElem?_eq_some_iff.1 hx).1
    obtain ⟨p, b, k, n, j, e, o, i, y, a, hy, hLy, hye⟩ := hat idx hidx
    rw [hx] at hLy
    obtain rfl := Option.some.inj hLy
    obtain ⟨ro, ri, h1, h2, rfl, h3⟩ := hblock a
    exact ⟨a.elementInfo f hy, rfl, ro, ri, b, y, h1, h2, h3, by simpa [infoAt, mkInfo, hye] using hy, rfl, rfl, rfl, rfl, rfl⟩
  · intro idx hidx
    rw [Blocks.elementInfo, if_pos (by omega)]
  · intro idx hidx
    obtain ⟨p, b, k, n, j, e, o, i, y, a, hy, hLy, hye⟩ := hat idx hidx
    obtain ⟨ro, ri, h1, h2, rfl, h3⟩ := hblock a
    refine ⟨ro, ri, b, ?_⟩
    simp only [hLy, Option.map_some, Option.getD_some, infoAt, mkInfo, hye]
    exact ⟨h1, h2, h3, a.elem⟩
  · intro idx hidx idx' hidx' heq
    obtain ⟨p, b, k, n, j, e, o, i, y, a, hy, hLy, hye⟩ := hat idx hidx
    obtain ⟨p', b', k', n', j', e', o', i', y', a', hy', hLy', hye'⟩ := hat idx' hidx'
    simp only [hLy, hLy', Option.map_some, Option.getD_some, infoAt, mkInfo, hye, hye', Prod.mk.injEq] at heq
    obtain ⟨rfl, rfl, rfl⟩ := heq
    obtain ⟨ro, ri, h1, h2, rfl, h3⟩ := hblock a
    obtain ⟨ro', ri', h1', h2', rfl, h3'⟩ := hblock a'
    rw [h1] at h1'
    rw [h2] at h2'
    cases h1'
    cases h2'
    rw [h3] at h3'
    cases h3'
    have hk : k = k' := (List.getElem?_inj (List.getElem?_eq_some_iff.1 a.pair).1 f.nodup).1 ((a.pair.trans a'.pair.symm))
    have hnd : ∀ (rs : List R) l, (labelled (rs.map nm) l).Nodup := fun rs l => List.Nodup.filter _ List.nodup_range
    have hn : n = n' := (List.getElem?_inj (List.getElem?_eq_some_iff.1 a.out).1 (hnd _ _)).1 ((a.out.trans a'.out.symm))
    have hj : j = j' := (List.getElem?_inj (List.getElem?_eq_some_iff.1 a.inn).1 (hnd _ _)).1 ((a.inn.trans a'.inn.symm))
    rw [a.pos, a'.pos, hk, hn, hj]
  · rintro ⟨o, i, e⟩ ⟨ro, ri, b, h1, h2, h3, h4⟩
    simp only at h1 h2 h3 h4
    have hbl : HasBlock nm (gen) inR outR (nm ri, nm ro) b := ⟨ri, List.mem_of_getElem? h2, ro, List.mem_of_getElem? h1, rfl, h3⟩
    obtain ⟨k, hk⟩ := List.mem_iff_getElem?.1 ((f.mem _).2 ⟨b, hbl⟩)
    obtain ⟨n, hn⟩ := List.mem_iff_getElem?.1 (mem_labelled.2 (show (outR.map nm)[o]? = some (nm ro) by rw [List.getElem?_map, h1]; rfl))
    obtain ⟨j, hj⟩ := List.mem_iff_getElem?.1 (mem_labelled.2 (show (inR.map nm)[i]? = some (nm ri) by rw [List.getElem?_map, h2]; rfl))
    have a : At nm (gen) inR outR m T (nm ri, nm ro) b k n j e o i _ := ⟨hk, hbl, hn, hj, h4, rfl⟩
    have he : e < b.basisInfo.length := by rw [(hwf _ b hbl).2]; exact h4
    refine ⟨_, a.lt f, ?_⟩
    simp only [hget a (List.getElem?_eq_getElem he), Option.map_some, Option.getD_some, infoAt, mkInfo, SBlock.basisInfo_id (List.getElem?_eq_getElem he)]

/-- **C33** (partial: representations have different names, also after replacing `.` with `^`) `get_basis_info()` yields `dimension()` items; item `idx` has id `idx` and is `get_element_info(idx)`; it names the
representations of its input and output field, carries the attributes of its element in the block of that pair, and gives the positions
of the irreps among all the irreps of the type; decoding an index to (output field, input field, element) is a bijection. -/
theorem C33_weight_info_partial (h : Input nm sz bg uin uout inR outR) (filt : Option (Attr A → Bool)) (S : ℕ) (ni : R → ℕ) :
    ∃ m L, init nm sz (blockFor bg filt S) uin uout inR outR S = .ok m ∧ Blocks.basisInfo nm ni m = .ok L ∧ L.length = m.dim ∧
      (∀ (idx : ℕ) x, L[idx]? = some x → Blocks.elementInfo nm ni m idx = .ok x ∧ x.id = idx ∧
        ∃ ro ri b a, outR[x.outField]? = some ro ∧ inR[x.inField]? = some ri ∧ blockFor bg filt S ri ro = .ok b ∧ b.basisInfo[x.blockId]? = some a ∧
          x.outRepr = nm ro ∧ x.inRepr = nm ri ∧ x.attr = a ∧ x.inIrrepsPosition = ((inR.take x.inField).map ni).sum + a.inIrrepIdx ∧
          x.outIrrepsPosition = ((outR.take x.outField).map ni).sum + a.outIrrepIdx) ∧
      (∀ idx, m.dim ≤ idx → Blocks.elementInfo nm ni m idx = .error .assertion) ∧
      Set.BijOn (fun idx => ((L[idx]?.map fun x => (x.outField, x.inField, x.blockId)).getD (0, 0, 0))) {idx | idx < m.dim} (Triples (blockFor bg filt S) inR outR) :=
  info_spec (h.args filt S) S ni

/-- The hypotheses hold in the example, and both fields `a` have weights. -/
example := C33_weight_info_partial exInput none 3 fun _ => 1

/-- The names of the counterexample. -/
def exNm (i : Fin 3) : String := if i = 0 then "a.b" else if i = 1 then "a^b" else "o"

/-- The bases of the counterexample: two kernels for the first input field, one for the second. -/
def exBg (i _o : Fin 3) : Except Err (KBasis Unit) :=
  if i = 0 then .ok ⟨1, 1, [⟨0, 1, 0, 0, ()⟩, ⟨1, 1, 0, 0, ()⟩], [fun _ _ _ => 1, fun _ _ _ => 1]⟩ else .ok ⟨1, 1, [⟨0, 1, 0, 0, ()⟩], [fun _ _ _ => 1]⟩

/-- The blocks of the counterexample. -/
noncomputable def exBlk1 : SBlock Unit := ⟨1, 1, [⟨0, 1, 0, 0, ()⟩], [true], [fun _ _ _ => 1]⟩

/-- The blocks of the counterexample. -/
noncomputable def exBlk2 : SBlock Unit := ⟨1, 1, [⟨0, 1, 0, 0, ()⟩, ⟨1, 1, 0, 0, ()⟩], [true, true], [fun _ _ _ => 1, fun _ _ _ => 1]⟩

theorem exBlock : blockFor exBg none 1 = fun i _ => .ok (if i = 0 then exBlk2 else exBlk1) := by
  have hn : SBlock.normalize 1 1 1 1 (fun _ _ _ => 1) = fun _ _ _ => 1 := by
    funext a c p
    have : ¬ ((1 : ℝ) < 1e-15) := by norm_num
    have h2 : ¬ ((1 : ℝ) < 1e-6) := by norm_num
    simp only [SBlock.normalize, SBlock.sq, Finset.sum_range_one, one_pow, Nat.cast_one, div_one, if_neg this, Real.sqrt_one, if_neg h2]
  have h3 : (1e-2 : ℝ) < SBlock.sq 1 1 1 fun _ _ _ => 1 := by
    simp only [SBlock.sq, Finset.sum_range_one]; norm_num
  funext i o
  by_cases hi : i = 0
  · simp only [blockFor, exBg, hi, if_true, bind, Except.bind, SBlock.ofFilter, SBlock.init, List.map_cons, List.map_nil, List.length_cons, List.length_nil, List.zipWith_cons_cons,
      List.zipWith_nil_right, hn, h3]
    simp [exBlk2]
  · simp only [blockFor, exBg, hi, if_false, bind, Except.bind, SBlock.ofFilter, SBlock.init, List.map_cons, List.map_nil, List.length_cons, List.length_nil, List.zipWith_cons_cons,
      List.zipWith_nil_right, hn, h3]
    simp [exBlk1]

/-- **C33 is violated** without the condition on the names: two input fields with the different names `a.b` and `a^b`, and bases with two
kernels and one.  There are three weights, and `get_element_info` raises `ValueError` for the second. -/
theorem C33_violated_names : Function.Injective exNm ∧ ∃ m, init exNm (fun _ => 1) (blockFor exBg none 1) [0, 1] [2] [0, 1] [2] 1 = .ok m ∧ m.dim = 3 ∧
    Blocks.elementInfo exNm (fun _ => 1) m 1 = .error .value := by
  refine ⟨by decide, ⟨[0, 1], [2], 2, 1, 1, [(("a^b", "o"), exBlk2), (("a^b", "o"), exBlk1)], [("a.b", "o"), ("a^b", "o")], 2, count exNm [0, 1], count exNm [2],
    [(("a.b", "o"), true), (("a^b", "o"), true)], [(("a^b", "o"), [0, 1, 1]), (("a^b", "o"), [1, 2, 1])], [(("a^b", "o"), [0, 1, 1]), (("a^b", "o"), [0, 1, 1])],
    [(("a.b", "o"), (0, 2)), (("a^b", "o"), (2, 3))], 3⟩, ?_, rfl, rfl⟩
  have hs : [("a.b", "o"), ("a^b", "o")].mergeSort pairLe = [("a.b", "o"), ("a^b", "o")] := List.mergeSort_of_pairwise (by decide)
  have hc : collect exNm (fun (i _ : Fin 3) => .ok (if i = 0 then exBlk2 else exBlk1)) (([0, 1] : List (Fin 3)).flatMap fun i => [2].map fun o => (i, o)) = .ok [(("a.b", "o"), exBlk2), (("a^b", "o"), exBlk1)] := rfl
  have hd : ([(("a.b", "o"), exBlk2), (("a^b", "o"), exBlk1)].map Prod.fst).dedup = [("a.b", "o"), ("a^b", "o")] := by decide
  have h1 : mapE (fun n => checkConsecutive (indices exNm (fun _ => 1) [0, 1] n)) (List.map exNm [0, 1]) = .ok [true, true] := rfl
  have h2 : mapE (fun n => checkConsecutive (indices exNm (fun _ => 1) [2] n)) (List.map exNm [2]) = .ok [true] := rfl
  have h3 : mapE (fun p => do
          let e ← pairIndices exNm (fun _ => 1) [0, 1] [2] p
          .ok (p, e))
        [("a.b", "o"), ("a^b", "o")] = .ok [(("a.b", "o"), true, [0,1,1], [0,1,1]), (("a^b", "o"), true, [1,2,1], [0,1,1])] := rfl
  have h4 : rangesLoop [(("a.b", "o"), exBlk2), (("a^b", "o"), exBlk1)] (count exNm [0, 1]) (count exNm [2]) 0
          [("a.b", "o"), ("a^b", "o")] = .ok ([(("a.b", "o"), (0, 2)), (("a^b", "o"), (2, 3))], 3) := rfl
  have h5 : List.map (fun e => (escPair e.1, e.2)) [(("a.b", "o"), exBlk2), (("a^b", "o"), exBlk1)] = [(("a^b", "o"), exBlk2), (("a^b", "o"), exBlk1)] := rfl
  rw [exBlock, init]
  simp only [bind, Except.bind] at h3 ⊢
  rw [hc]
  simp only
  rw [hd, hs, h1]
  simp only
  rw [h2]
  simp only
  rw [h3]
  simp only
  rw [h4]
  simp only
  rw [h5]
  rfl

end Blocks

end Escnn
