import Verif.Model.Sparse
import Verif.Props.C37_Attributes

/-!
# C37: attributes of SparseOrbitBasis and PointBasis
-/

namespace Escnn

namespace Sparse

variable {J : Type} [DecidableEq J]

theorem dimHarmonic_eq {size : J → ℕ} {js : List (J × ℕ)} (hn : (js.map Prod.fst).Nodup) {e : J × ℕ} (he : e ∈ js) : dimHarmonic size js e.1 = size e.1 * e.2 := by
  rw [dimHarmonic, (lookupLast_of_nodup hn).2 he]; rfl

theorem getJ_eq {size : J → ℕ} {js : List (J × ℕ)} (hn : (js.map Prod.fst).Nodup) : ∀ (L : List (J × ℕ)), (∀ e ∈ L, e ∈ js) → ∀ r e r',
    IBasis.locate (fun e : J × ℕ => size e.1 * e.2) L r = some (e, r') → getJ size js r L = .ok (e.1, r')
  | [], _, _, _, _, h => by simp [IBasis.locate] at h
  | (j, m) :: L, hL, r, e, r', h => by
    rw [IBasis.locate] at h
    have hd : dimHarmonic size js j = size j * m := dimHarmonic_eq hn (hL (j, m) (by simp))
    rw [getJ, hd]
    by_cases hlt : r < size j * m
    · rw [if_pos hlt] at h ⊢
      obtain ⟨rfl, rfl⟩ := Prod.mk.inj (Option.some.inj h)
      rfl
    · rw [if_neg hlt] at h ⊢
      exact getJ_eq hn L (fun e he => hL e (by simp [he])) _ e r' h

theorem sampleLoop_eq {size : J → ℕ} (b : Sparse J) (x : ℕ → ℝ) (hn : (b.js.map Prod.fst).Nodup) : ∀ (L : List (J × ℕ)), (∀ e ∈ L, e ∈ b.js) → ∀ r e r',
    IBasis.locate (fun e : J × ℕ => size e.1 * e.2) L r = some (e, r') → sampleLoop size b x r L = ∑ i ∈ Finset.range b.n, b.harm e.1 i (r' / size e.1) (r' % size e.1) * b.weight x i
  | [], _, _, _, _, h => by simp [IBasis.locate] at h
  | (j, m) :: L, hL, r, e, r', h => by
    rw [IBasis.locate] at h
    have hd : dimHarmonic size b.js j = size j * m := dimHarmonic_eq hn (hL (j, m) (by simp))
    rw [sampleLoop, hd]
    by_cases hlt : r < size j * m
    · rw [if_pos hlt] at h ⊢
      obtain ⟨rfl, rfl⟩ := Prod.mk.inj (Option.some.inj h)
      rfl
    · rw [if_neg hlt] at h ⊢
      exact sampleLoop_eq b x hn L (fun e he => hL e (by simp [he])) _ e r' h

theorem locate_pos {α : Type} (w : α → ℕ) : ∀ (L : List α) (e : ℕ) (a : α) (e' : ℕ), IBasis.locate w L e = some (a, e') → ∃ k, L[k]? = some a ∧ e = ((L.take k).map w).sum + e'
  | [], _, _, _, h => by simp [IBasis.locate] at h
  | b :: L, e, a, e', h => by
    rw [IBasis.locate] at h
    by_cases hlt : e < w b
    · rw [if_pos hlt] at h
      obtain ⟨rfl, rfl⟩ := Prod.mk.inj (Option.some.inj h)
      exact ⟨0, rfl, by simp⟩
    · rw [if_neg hlt] at h
      obtain ⟨k, h1, h2⟩ := locate_pos w L _ a e' h
      refine ⟨k + 1, by simpa using h1, ?_⟩
      rw [List.take_succ_cons, List.map_cons, List.sum_cons]
      omega

theorem weight_eq (b : Sparse J) (x : ℕ → ℝ) (i : ℕ) : b.weight x i = Real.exp (-(∑ c ∈ Finset.range b.d, (b.points i c - x c) ^ 2) / (2 * b.sigma ^ 2)) := by
  rw [weight]
  congr 1
  rw [neg_div, mul_comm 2, ← div_div, show (0.5 : ℝ) = 1 / 2 by norm_num]
  ring

/-- **C37** for `SparseOrbitBasis`: `basis[idx]` is the `idx`-th item of `iter(basis)`; its attributes `j`, `i`, `m` are distinct for distinct elements,
and the `idx`-th sampled filter is component `m` of copy `i` of the harmonic `j`, smeared over the orbit by Gaussians of width `sigma`. -/
theorem C37_sparse (size : J → ℕ) (b : Sparse J) (hn : (b.js.map Prod.fst).Nodup) :
    (b.iter size).length = dim size b.js ∧ (∀ idx, dim size b.js ≤ idx → b.getItem size idx = .error .assertion) ∧
    (∀ idx < dim size b.js, ∃ a, b.getItem size idx = .ok a ∧ (b.iter size)[idx]? = some a ∧ a.idx = idx ∧
      ∃ k mult, b.js[k]? = some (a.j, mult) ∧ a.i < mult ∧ a.m < size a.j ∧ idx = ((b.js.take k).map fun e => size e.1 * e.2).sum + (a.i * size a.j + a.m) ∧
        ∀ x, b.sample size x idx = ∑ i ∈ Finset.range b.n, b.harm a.j i a.i a.m * Real.exp (-(∑ c ∈ Finset.range b.d, (b.points i c - x c) ^ 2) / (2 * b.sigma ^ 2))) ∧
    ∀ (idx idx' : ℕ) a a', (b.iter size)[idx]? = some a → (b.iter size)[idx']? = some a' → a.j = a'.j → a.i = a'.i → a.m = a'.m → idx = idx' := by
  simp only [← weight_eq]
  have hlen : ∀ e ∈ b.js, ((List.range e.2).flatMap fun i => (List.range (size e.1)).map fun m (idx : ℕ) => (⟨idx, e.1, i, m⟩ : SpAttr J)).length = size e.1 * e.2 := fun e _ => by
    rw [flatMap_range_length (m := size e.1) fun i _ => by simp, mul_comm]
  have hL : (b.iter size).length = dim size b.js := by
    rw [iter, List.length_map, List.length_zipIdx, flatMap_length (w := fun e => size e.1 * e.2) b.js hlen]; rfl
  have key : ∀ idx < dim size b.js, ∃ a, b.getItem size idx = .ok a ∧ (b.iter size)[idx]? = some a ∧ a.idx = idx ∧
      ∃ k mult, b.js[k]? = some (a.j, mult) ∧ a.i < mult ∧ a.m < size a.j ∧ idx = ((b.js.take k).map fun e => size e.1 * e.2).sum + (a.i * size a.j + a.m) ∧
        ∀ x, b.sample size x idx = ∑ i ∈ Finset.range b.n, b.harm a.j i a.i a.m * b.weight x i := by
    intro idx hidx
    obtain ⟨⟨j, mult⟩, r, hloc⟩ := locate_some (fun e : J × ℕ => size e.1 * e.2) b.js idx hidx
    obtain ⟨hmem, hr, -⟩ := locate_mem _ _ _ _ _ hloc
    obtain ⟨k, hk, hsum⟩ := locate_pos _ _ _ _ _ hloc
    simp only at hr
    have hs : 0 < size j := by
      rcases Nat.eq_zero_or_pos (size j) with h | h
      · rw [h, zero_mul] at hr; omega
      · exact h
    refine ⟨⟨idx, j, r / size j, r % size j⟩, ?_, ?_, rfl, k, mult, hk, ?_, Nat.mod_lt _ hs, ?_, fun x => sampleLoop_eq b x hn b.js (fun e he => he) idx _ r hloc⟩
    · rw [getItem, if_neg (not_not.2 hidx), getJ_eq hn b.js (fun e he => he) idx _ r hloc]
      rfl
    · rw [iter, List.getElem?_map, List.getElem?_zipIdx, flatMap_locate (w := fun e => size e.1 * e.2) b.js hlen _ _ _ hloc,
        flatMap_range_get (m := size j) (fun i _ => by simp) (by rw [mul_comm]; exact hr), List.getElem?_map, List.getElem?_range (Nat.mod_lt _ hs)]
      simp
    · exact Nat.div_lt_of_lt_mul hr
    · rw [hsum, mul_comm (r / size j), Nat.div_add_mod]
  refine ⟨hL, fun idx h => by rw [getItem, if_pos (by omega)], key, fun idx idx' a a' ha ha' hj hi hm => ?_⟩
  have hlt : idx < dim size b.js := by rw [← hL]; exact (List.getElem?_eq_some_iff.1 ha).1
  have hlt' : idx' < dim size b.js := by rw [← hL]; exact (List.getElem?_eq_some_iff.1 ha').1
  obtain ⟨x, -, hx, -, k, mu, h1, -, -, h2, -⟩ := key idx hlt
  obtain ⟨x', -, hx', -, k', mu', h1', -, -, h2', -⟩ := key idx' hlt'
  obtain rfl := Option.some.inj (hx.symm.trans ha)
  obtain rfl := Option.some.inj (hx'.symm.trans ha')
  obtain ⟨p1, q1⟩ := List.getElem?_eq_some_iff.1 h1
  obtain ⟨p2, q2⟩ := List.getElem?_eq_some_iff.1 h1'
  have hkk : k = k' := by
    refine (List.Nodup.getElem_inj_iff hn (hi := by rw [List.length_map]; exact p1) (hj := by rw [List.length_map]; exact p2)).1 ?_
    rw [List.getElem_map, List.getElem_map, q1, q2, hj]
  subst hkk
  rw [h2, h2', hj, hi, hm]

/-- The attributes used by the solvers agree, as C37 for the kernel bases requires. -/
theorem C37_sparse_attrs (size : J → ℕ) (b : Sparse J) (hn : (b.js.map Prod.fst).Nodup) : (b.toFBasis size).AttrsAgree := by
  intro e he
  have hl : (FType.lookupLast b.js e.1).getD 0 = e.2 := by
    rw [(lookupLast_of_nodup hn).2 (show (e.1, e.2) ∈ b.js from he)]; rfl
  refine ⟨List.range e.2, ?_, List.length_range, fun i h => ?_⟩
  · show attrsIter b e.1 = _
    rw [attrsIter, hl]
  · rw [List.length_range] at h
    show attrsJ b e.1 i = _
    rw [attrsJ, hl, if_pos h, List.getElem_range]

/-- **C37** The sampled filters do not depend on the unit of length: coordinates and width in another unit give the same values. -/
theorem C37_sparse_scale (size : J → ℕ) (b : Sparse J) {c : ℝ} (hc : c ≠ 0) (x : ℕ → ℝ) (e : ℕ) (L : List (J × ℕ)) :
    ({ b with points := fun i a => c * b.points i a, sigma := c * b.sigma } : Sparse J).sampleLoop size (fun a => c * x a) e L = b.sampleLoop size x e L := by
  have hw : ∀ i, ({ b with points := fun i a => c * b.points i a, sigma := c * b.sigma } : Sparse J).weight (fun a => c * x a) i = b.weight x i := fun i => by
    have e1 : ∑ a ∈ Finset.range b.d, (c * b.points i a - c * x a) ^ 2 = c ^ 2 * ∑ a ∈ Finset.range b.d, (b.points i a - x a) ^ 2 := by
      rw [Finset.mul_sum]; exact Finset.sum_congr rfl fun a _ => by ring
    simp only [Sparse.weight]
    rw [e1, mul_pow, mul_div_mul_left _ _ (pow_ne_zero 2 hc)]
  induction L generalizing e with
  | nil => rfl
  | cons p L ih =>
    obtain ⟨j, m⟩ := p
    simp only [Sparse.sampleLoop, ih, hw]

/-- **C37** The influence of a point falls off with the distance: it is 1 at the point and `exp (-1 / 2)` at the distance `sigma`. -/
theorem C37_sparse_weight (b : Sparse J) (x : ℕ → ℝ) (i : ℕ) :
    ((∀ a < b.d, x a = b.points i a) → b.weight x i = 1) ∧ (b.sigma ≠ 0 → √(∑ a ∈ Finset.range b.d, (b.points i a - x a) ^ 2) = |b.sigma| → b.weight x i = Real.exp (-1 / 2)) := by
  refine ⟨fun h => ?_, fun hs h => ?_⟩
  · rw [Sparse.weight, Finset.sum_eq_zero fun a ha => by rw [h a (Finset.mem_range.1 ha)]; ring]; simp
  · have h0 : (0 : ℝ) ≤ ∑ a ∈ Finset.range b.d, (b.points i a - x a) ^ 2 := Finset.sum_nonneg fun _ _ => sq_nonneg _
    rw [Real.sqrt_eq_iff_mul_self_eq h0 (abs_nonneg _), abs_mul_abs_self] at h
    rw [Sparse.weight, h, ← pow_two, div_self (pow_ne_zero 2 hs)]
    norm_num

/-- Two points of the plane at distance 5 with width 5. -/
example : √(∑ a ∈ Finset.range 2, ((fun _ a => if a = 0 then 3 else 4 : ℕ → ℕ → ℝ) 0 a - (fun _ => 0 : ℕ → ℝ) a) ^ 2) = |5| := by
  rw [Real.sqrt_eq_iff_mul_self_eq (by positivity) (by norm_num)]; simp [Finset.sum_range_succ]; norm_num

/-- Two harmonics, of sizes 1 and 2: five filters; the fourth is component 1 of copy 0 of the second harmonic. -/
example : dim (fun j : ℕ => if j = 0 then 1 else 2) [(0, 1), (1, 2)] = 5 ∧
    ((⟨[(0, 1), (1, 2)], 2, 4, fun _ _ => 0, fun _ _ _ _ => 1, 1⟩ : Sparse ℕ).iter fun j => if j = 0 then 1 else 2)[2]? = some ⟨2, 1, 0, 1⟩ := by
  decide

end Sparse

/-- **C37** for `PointBasis`. -/
theorem C37_point {J P : Type} [DecidableEq J] (triv : J) : (pointBasis triv : FBasis J P (Option ℕ)).AttrsAgree := by
  intro e he
  obtain rfl : e = (triv, 1) := by simpa [pointBasis] using he
  refine ⟨[some 0], by simp [pointBasis], rfl, fun i h => ?_⟩
  have : i = 0 := by simpa using h
  subst this
  simp [pointBasis]

/-- **C37** for `PointBasis`: the attributes of the irreps of any list which has the trivial one once are those of the constant function, one in total. -/
theorem C37_point_total {J P : Type} [DecidableEq J] (triv : J) {L : List J} (hn : L.Nodup) (ht : triv ∈ L) :
    (mapE (pointBasis triv : FBasis J P (Option ℕ)).attrsIter L).map List.flatten = .ok [some 0] := by
  have h : ∀ L : List J, L.Nodup → (mapE (pointBasis triv : FBasis J P (Option ℕ)).attrsIter L).map List.flatten = .ok (if triv ∈ L then [some 0] else []) := by
    intro L
    induction L with
    | nil => intro _; rfl
    | cons j L ih =>
      intro hn
      have hj := (List.nodup_cons.1 hn).1
      have ih := ih (List.nodup_cons.1 hn).2
      by_cases h : j = triv
      · subst h
        rw [if_neg hj] at ih
        rcases hL : mapE (pointBasis j : FBasis J P (Option ℕ)).attrsIter L with e | x
        · rw [hL] at ih; cases ih
        · rw [hL] at ih
          have hx : x.flatten = [] := Except.ok.inj ih
          have hf : (pointBasis j : FBasis J P (Option ℕ)).attrsIter j = .ok [some 0] := by simp [pointBasis]
          rw [mapE, hf]
          simp only [bind, Except.bind, hL]
          simp [Except.map, hx]
      · have h' : ¬ triv = j := fun e => h e.symm
        rcases hL : mapE (pointBasis triv : FBasis J P (Option ℕ)).attrsIter L with e | x
        · rw [hL] at ih; cases ih
        · rw [hL] at ih
          have hx := Except.ok.inj ih
          simp only [List.mem_cons, h', false_or]
          rw [← hx]
          have hf : (pointBasis triv : FBasis J P (Option ℕ)).attrsIter j = .ok [] := by simp [pointBasis, h]
          rw [mapE, hf]
          simp only [bind, Except.bind, hL]
          simp [Except.map]
  rw [h L hn, if_pos ht]

example : (mapE (pointBasis 0 : FBasis ℕ Unit (Option ℕ)).attrsIter [0, 1, 2]).map List.flatten = .ok [some 0] := C37_point_total 0 (by decide) (by decide)

/-- The constant function is steerable: the trivial irrep has the matrix `1`. -/
theorem pointBasis_steerable {J P G : Type} [DecidableEq J] (triv : J) (size : J → ℕ) (mat : J → G → NpMat ℝ) (El : G → Prop) (act : G → P → P) (hs : size triv = 1)
    (hm : ∀ g, El g → (mat triv g).get 0 0 = 1) : (pointBasis triv : FBasis J P (Option ℕ)).Steerable size mat El act := by
  intro g hg x k j m hk i hi c hc
  have hk0 : k = 0 := by
    have := (List.getElem?_eq_some_iff.1 hk).1
    simpa [pointBasis] using this
  subst hk0
  obtain ⟨rfl, rfl⟩ : triv = j ∧ 1 = m := by simpa [pointBasis] using hk
  rw [hs] at hc ⊢
  interval_cases c
  simp [pointBasis, hm g hg]

end Escnn
