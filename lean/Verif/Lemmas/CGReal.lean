import Verif.Lemmas.CGExact

/-!
# The numerical Clebsch–Gordan coefficients of irreps of real type with exact routines
-/

namespace Escnn

open NpMat CGComplete

variable {G Id : Type} {T : IrrepTable G Id} {El : G → Prop} {op : G → G → G} {one : G}

/-- Intertwiners are the invariant vectors of the tensor product. -/
theorem intertwine_iff_invariant {A R : NpMat ℝ} {n d : ℕ} (hA : A.rows = n ∧ A.cols = n) (hR : R.rows = d ∧ R.cols = d) (hRo : IsOrtho R) (v : ℕ → ℝ) :
    mul A (unflatF n d v) ≈ mul (unflatF n d v) R ↔ ∀ i < d * n, ∑ k ∈ Finset.range (d * n), (kron R A).get i k * v k = v i := by
  have hval : ∀ c < d, ∀ r < n, ∑ k ∈ Finset.range (d * n), (kron R A).get (c * n + r) k * v k = ∑ c' ∈ Finset.range d, (mul A (unflatF n d v)).get r c' * R.get c c' := by
    intro c hc r hr
    have e := sum_range_mul' d n (fun c' r' => R.get c c' * A.get r r' * v (c' * n + r'))
    have e1 : ∀ k ∈ Finset.range (d * n), (kron R A).get (c * n + r) k * v k = (fun c' r' => R.get c c' * A.get r r' * v (c' * n + r')) (k / n) (k % n) := fun k _ => by
      simp only [kron, hA.1, hA.2]
      rw [mul_add_div' hr, mul_add_mod'' hr, Nat.div_add_mod']
    rw [Finset.sum_congr rfl e1, e]
    refine Finset.sum_congr rfl fun c' _ => ?_
    simp only [mul, unflatF, hA.2, Finset.sum_mul]
    exact Finset.sum_congr rfl fun _ _ => by ring
  have o1 : ∀ c < d, ∀ c' < d, ∑ x ∈ Finset.range d, R.get c x * R.get c' x = if c = c' then 1 else 0 := fun c hc c' hc' => by
    have := hRo.2.1.2.2 c c' (by rw [mul_rows, hR.1]; exact hc) (by rw [mul_cols, transpose_cols, hR.1]; exact hc')
    simp only [mul, transpose, hR.2] at this
    rw [this]; rfl
  have o2 : ∀ c < d, ∀ c' < d, ∑ x ∈ Finset.range d, R.get x c * R.get x c' = if c = c' then 1 else 0 := fun c hc c' hc' => by
    have := hRo.2.2.2.2 c c' (by rw [mul_rows, transpose_rows, hR.2]; exact hc) (by rw [mul_cols, hR.2]; exact hc')
    simp only [mul, transpose, hR.1] at this
    rw [this]; rfl
  constructor
  · intro h i hi
    have hn : 0 < n := Nat.pos_of_ne_zero fun h0 => by simp [h0] at hi
    have hc : i / n < d := Nat.div_lt_of_lt_mul (by rwa [Nat.mul_comm])
    have hr : i % n < n := Nat.mod_lt _ hn
    have := hval _ hc _ hr
    rw [Nat.div_add_mod'] at this
    rw [this]
    have e1 : ∀ c' ∈ Finset.range d, (mul A (unflatF n d v)).get (i % n) c' * R.get (i / n) c' = ∑ x ∈ Finset.range d, v (x * n + i % n) * (R.get x c' * R.get (i / n) c') := fun c' hc' => by
      rw [h.2.2 (i % n) c' (by rw [mul_rows, hA.1]; exact hr) (Finset.mem_range.1 hc')]
      simp only [mul, unflatF, Finset.sum_mul]
      exact Finset.sum_congr rfl fun _ _ => by ring
    rw [Finset.sum_congr rfl e1, Finset.sum_comm]
    have e2 : ∀ x ∈ Finset.range d, ∑ c' ∈ Finset.range d, v (x * n + i % n) * (R.get x c' * R.get (i / n) c') = v (x * n + i % n) * if x = i / n then 1 else 0 := fun x hx => by
      rw [← Finset.mul_sum, o1 x (Finset.mem_range.1 hx) _ hc]
    rw [Finset.sum_congr rfl e2]
    simp [hc, Nat.div_add_mod']
  · intro h
    refine ⟨hA.1, hR.2.symm, fun r c hr hc => ?_⟩
    have hr : r < n := by rwa [mul_rows, hA.1] at hr
    have hc : c < d := hc
    have hx : ∀ x < d, v (x * n + r) = ∑ c' ∈ Finset.range d, (mul A (unflatF n d v)).get r c' * R.get x c' := fun x hx => by
      rw [← hval x hx r hr, h _ (mul_add_lt hx hr)]
    show _ = ∑ x ∈ Finset.range d, v (x * n + r) * R.get x c
    have e1 : ∀ x ∈ Finset.range d, v (x * n + r) * R.get x c = ∑ c' ∈ Finset.range d, (mul A (unflatF n d v)).get r c' * (R.get x c' * R.get x c) := fun x hx' => by
      rw [hx x (Finset.mem_range.1 hx'), Finset.sum_mul]
      exact Finset.sum_congr rfl fun _ _ => by ring
    rw [Finset.sum_congr rfl e1, Finset.sum_comm]
    have e2 : ∀ c' ∈ Finset.range d, ∑ x ∈ Finset.range d, (mul A (unflatF n d v)).get r c' * (R.get x c' * R.get x c) = (mul A (unflatF n d v)).get r c' * if c' = c then 1 else 0 := fun c' hc' => by
      rw [← Finset.mul_sum, o2 c' (Finset.mem_range.1 hc') c hc]
    rw [Finset.sum_congr rfl e2]
    simp [hc]

/-- An orthonormal basis of the intertwiners. -/
structure HomBasis (El : G → Prop) (T : IrrepTable G Id) (J l j : Id) (B : NpMat ℝ) : Prop where
  rows : B.rows = T.size j * (T.size J * T.size l)
  ortho : OrthoCols B
  span : ∀ v, InSpan B v ↔ ∀ g, El g → mul (tensorMat T J l g) (unflatF (T.size J * T.size l) (T.size j) v) ≈ mul (unflatF (T.size J * T.size l) (T.size j) v) (T.mat j g)

theorem HomBasis.col {J l j : Id} {B : NpMat ℝ} (h : HomBasis El T J l j B) {k : ℕ} (hk : k < B.cols) : ∀ g, El g →
    mul (tensorMat T J l g) (basisMat (T.size J * T.size l) (T.size j) B k) ≈ mul (basisMat (T.size J * T.size l) (T.size j) B k) (T.mat j g) :=
  (h.span fun a => B.get a k).1 ⟨fun x => if x = k then 1 else 0, fun a _ => by simp [hk]⟩

theorem eye_orthoCols (n : ℕ) : OrthoCols (eye n : NpMat ℝ) := fun k hk k' hk' => by
  have hk : k < n := hk
  have hk' : k' < n := hk'
  simp [eye, hk, hk', eq_comm]

/-- With exact routines the basis is one of the intertwiners. -/
theorem cgBasis_exact {N : Numerics} (hN : NullExact N) (hT : T.Valid El op one) (hel : El one) (hop : ∀ g h, El g → El h → El (op g h)) {J l j : Id} (hJ : T.ok J = true) (hl : T.ok l = true)
    (hj : T.ok j = true) {samples : List G} (hs : ∀ g ∈ samples, El g) (hgen : Generates El op one samples) : ∃ B, cgBasis N T J l j samples = .ok B ∧ HomBasis El T J l j B := by
  have hρ := (hT J hJ).tensor (hT l hl)
  have hσ := hT j hj
  have hgen' : ∀ v, (∀ g ∈ samples, mul (tensorMat T J l g) (unflatF (T.size J * T.size l) (T.size j) v) ≈ mul (unflatF (T.size J * T.size l) (T.size j) v) (T.mat j g)) ↔
      ∀ g, El g → mul (tensorMat T J l g) (unflatF (T.size J * T.size l) (T.size j) v) ≈ mul (unflatF (T.size J * T.size l) (T.size j) v) (T.mat j g) := fun v =>
    ⟨fun h => hgen.intertwine hs hel hop hρ.toLinRep hσ.toLinRep ⟨rfl, rfl⟩ h, fun h g hg => h g (hs g hg)⟩
  by_cases h0 : samples = []
  · subst h0
    refine ⟨_, rfl, by rw [Nat.mul_comm]; rfl, eye_orthoCols _, fun v => ⟨fun _ => (hgen' v).1 (by simp), fun _ => ⟨v, fun a ha => ?_⟩⟩⟩
    have ha : a < T.size J * T.size l * T.size j := ha
    simp [eye, ha]
  · have hb : cgBasis N T J l j samples = findIntertwiner N (samples.map (tensorMat T J l)) (samples.map (T.mat j)) := by
      cases samples with
      | nil => exact absurd rfl h0
      | cons g L => rfl
    rw [hb]
    obtain ⟨C, hC, hcols, hker⟩ := buildSylvester_spec (rho₁ := samples.map (tensorMat T J l)) (rho₂ := samples.map (T.mat j)) (d₁ := T.size J * T.size l) (d₂ := T.size j)
      (by
        intro A hA
        obtain ⟨g, hg, rfl⟩ := List.mem_map.1 hA
        exact ⟨hρ.rows g (hs g hg), hρ.cols g (hs g hg)⟩)
      (by
        intro A hA
        obtain ⟨g, hg, rfl⟩ := List.mem_map.1 hA
        exact ⟨hσ.rows g (hs g hg), hσ.cols g (hs g hg)⟩)
      (by simp) (by simpa using h0)
    have hker' : ∀ v, InKer C v ↔ ∀ g, El g → mul (tensorMat T J l g) (unflatF (T.size J * T.size l) (T.size j) v) ≈ mul (unflatF (T.size J * T.size l) (T.size j) v) (T.mat j g) := fun v => by
      rw [hker, List.zip_map', List.forall_mem_map, ← hgen']
    rw [findIntertwiner, hC]
    simp only [bind, Except.bind]
    by_cases h1 : C.cols = 1
    · rw [if_pos h1]
      by_cases hz : C ≈ zeros C.rows C.cols
      · rw [if_pos hz]
        refine ⟨_, rfl, by rw [← hcols, h1], fun k hk k' hk' => ?_, fun v => ?_⟩
        · have : k < 1 := hk
          have : k' < 1 := hk'
          obtain rfl : k = 0 := by omega
          obtain rfl : k' = 0 := by omega
          simp
        · rw [← hker']
          refine ⟨fun _ i hi => Finset.sum_eq_zero fun c hc => ?_, fun _ => ⟨fun _ => v 0, fun a ha => ?_⟩⟩
          · rw [hz.2.2 i c hi (Finset.mem_range.1 hc)]
            simp [zeros]
          · have : a = 0 := by have : a < 1 := ha; omega
            subst this
            simp
      · rw [if_neg hz]
        refine ⟨_, rfl, by rw [← hcols, h1]; rfl, fun k hk => absurd hk (Nat.not_lt_zero k), fun v => ?_⟩
        rw [← hker']
        constructor
        · rintro ⟨x, hx⟩ i hi
          have h00 : v 0 = 0 := by rw [hx 0 (by show 0 < 1; omega)]; simp [zeros]
          rw [h1]
          simp [h00]
        · intro hv
          refine ⟨fun _ => 0, fun a ha => ?_⟩
          have ha0 : a = 0 := by have : a < 1 := ha; omega
          subst ha0
          by_contra hne
          apply hz
          refine ⟨rfl, rfl, fun i c hi hc => ?_⟩
          have hc0 : c = 0 := by omega
          subst hc0
          have := hv i hi
          rw [h1] at this
          simp only [Finset.range_one, Finset.sum_singleton] at this
          have hv0 : v 0 ≠ 0 := by simpa [zeros] using hne
          exact (mul_eq_zero.1 this).resolve_right hv0
    · rw [if_neg h1, if_pos]
      · exact ⟨_, rfl, by rw [hN.rows, hcols], hN.ortho C, fun v => by rw [← hN.span, hker']⟩
      · refine ⟨rfl, rfl, fun i k hi hk => ?_⟩
        have hk : k < (N.null C).cols := hk
        have hs : InSpan (N.null C) fun a => (N.null C).get a k := ⟨fun x => if x = k then 1 else 0, fun a _ => by simp [hk]⟩
        exact (hN.span C _).2 hs i hi

/-- With exact routines the first attempt succeeds if its samples generate the group. -/
theorem cgLoop_exact {N : Numerics} (hN : NullExact N) (hT : T.Valid El op one) (hel : El one) (hop : ∀ g h, El g → El h → El (op g h)) {J l j : Id} (hJ : T.ok J = true) (hl : T.ok l = true)
    (hj : T.ok j = true) {gens s t : List G} (hgens : ∀ g ∈ gens, El g) (hs : ∀ g ∈ s, El g) (ht : ∀ g ∈ t, El g) (ht0 : t ≠ []) (hgen : Generates El op one (gens ++ s)) (L : List (List G × List G)) :
    ∃ B, cgLoop N T J l j gens ((s, t) :: L) = .ok B ∧ HomBasis El T J l j B := by
  have hss : ∀ g ∈ gens ++ s, El g := fun g hg => (List.mem_append.1 hg).elim (hgens g) (hs g)
  have hts : ∀ g ∈ gens ++ t, El g := fun g hg => (List.mem_append.1 hg).elim (hgens g) (ht g)
  obtain ⟨B, hB, hH⟩ := cgBasis_exact hN hT hel hop hJ hl hj hss hgen
  have hρ := (hT J hJ).tensor (hT l hl)
  have hσ := hT j hj
  obtain ⟨C, hC, hcols, hker⟩ := buildSylvester_spec (rho₁ := (gens ++ t).map (tensorMat T J l)) (rho₂ := (gens ++ t).map (T.mat j)) (d₁ := T.size J * T.size l) (d₂ := T.size j)
    (by
      intro A hA
      obtain ⟨g, hg, rfl⟩ := List.mem_map.1 hA
      exact ⟨hρ.rows g (hts g hg), hρ.cols g (hts g hg)⟩)
    (by
      intro A hA
      obtain ⟨g, hg, rfl⟩ := List.mem_map.1 hA
      exact ⟨hσ.rows g (hts g hg), hσ.cols g (hts g hg)⟩)
    (by simp) (by simp [ht0])
  refine ⟨B, ?_, hH⟩
  rw [cgLoop, hB]
  simp only [bind, Except.bind, hC]
  rw [if_neg (by rw [not_not, hcols, hH.rows]), if_pos]
  refine ⟨rfl, rfl, fun i k hi hk => ?_⟩
  have hk : k < B.cols := hk
  refine (hker fun a => B.get a k).2 (fun p hp => ?_) i hi
  rw [List.zip_map'] at hp
  obtain ⟨g, hg, rfl⟩ := List.mem_map.1 hp
  exact hH.col hk g (hts g hg)

/-- Distinct columns of the basis are independent, the columns of each one are orthogonal and of the same length. -/
theorem HomBasis.gram_real (hT : T.Valid El op one) {J l j : Id} (hJ : T.ok J = true) (hl : T.ok l = true) (hj : T.ok j = true) (ht : HasType El (T.mat j) .R (T.size j)) {B : NpMat ℝ}
    (h : HomBasis El T J l j B) {k k' : ℕ} (hk : k < B.cols) (hk' : k' < B.cols) : ∀ c < T.size j, ∀ c' < T.size j,
      cgInner (T.size J) (T.size l) (cgReshape (T.size J) (T.size l) B) (cgReshape (T.size J) (T.size l) B) k c k' c' = if k = k' ∧ c = c' then 1 / (T.size j : ℝ) else 0 := by
  set n := T.size J * T.size l with hn
  set d := T.size j with hd
  have hρ := (hT J hJ).tensor (hT l hl)
  have hσ := hT j hj
  have hin : ∀ c < d, ∀ c' < d, cgInner (T.size J) (T.size l) (cgReshape (T.size J) (T.size l) B) (cgReshape (T.size J) (T.size l) B) k c k' c' =
      (mul (transpose (basisMat n d B k)) (basisMat n d B k')).get c c' := fun c hc c' hc' => by
    rw [cgInner_gram _ _ d d, gram_get, gram_get]
    refine Finset.sum_congr rfl fun r hr => ?_
    have hr : r < n := Finset.mem_range.1 hr
    rw [(cgReshape_column (T.size J) (T.size l) d B k).2.2 r c hr hc, (cgReshape_column (T.size J) (T.size l) d B k').2.2 r c' hr hc']
  obtain ⟨x, hx⟩ := ht.full (mul (transpose (basisMat n d B k)) (basisMat n d B k')) rfl rfl fun g hg =>
    gram_commute (hρ.ortho g hg) (hρ.rows g hg) (hσ.ortho g hg) (hσ.rows g hg) ⟨rfl, rfl⟩ ⟨rfl, rfl⟩ (h.col hk g hg) (h.col hk' g hg)
  have hx' : ∀ c < d, ∀ c' < d, (mul (transpose (basisMat n d B k)) (basisMat n d B k')).get c c' = if c = c' then x 0 else 0 := fun c hc c' hc' => by
    rw [hx c c' hc hc']
    simp [IrrType.sumsq, endoBasis, eye]
  have hsum : (d : ℝ) * x 0 = if k = k' then 1 else 0 := by
    rw [← h.ortho k hk k' hk', h.rows]
    have e := sum_range_mul' d n (fun c r => B.get (c * n + r) k * B.get (c * n + r) k')
    have e1 : ∀ a ∈ Finset.range (d * n), B.get a k * B.get a k' = (fun c r => B.get (c * n + r) k * B.get (c * n + r) k') (a / n) (a % n) := fun a _ => by
      simp only [Nat.div_add_mod']
    rw [Finset.sum_congr rfl e1, e]
    have e2 : ∀ c ∈ Finset.range d, ∑ r ∈ Finset.range n, B.get (c * n + r) k * B.get (c * n + r) k' = x 0 := fun c hc => by
      have := hx' c (Finset.mem_range.1 hc) c (Finset.mem_range.1 hc)
      rw [if_pos rfl, gram_get] at this
      exact this
    rw [Finset.sum_congr rfl e2]
    simp
  intro c hc c' hc'
  rw [hin c hc c' hc', hx' c hc c' hc']
  have hd0 : (d : ℝ) ≠ 0 := by
    have : d ≠ 0 := by omega
    exact_mod_cast this
  have hx0 : x 0 = if k = k' then 1 / (d : ℝ) else 0 := by
    by_cases hkk : k = k'
    · rw [if_pos hkk] at hsum ⊢
      field_simp
      linarith
    · rw [if_neg hkk] at hsum ⊢
      exact (mul_eq_zero.1 hsum).resolve_left hd0
  rw [hx0]
  by_cases h1 : k = k' <;> by_cases h2 : c = c' <;> simp [h1, h2]

/-- After the normalisation the columns are orthonormal. -/
theorem HomBasis.normalized_real (hT : T.Valid El op one) {J l j : Id} (hJ : T.ok J = true) (hl : T.ok l = true) (hj : T.ok j = true) (ht : HasType El (T.mat j) .R (T.size j)) {B : NpMat ℝ}
    (h : HomBasis El T J l j B) {k k' : ℕ} (hk : k < B.cols) (hk' : k' < B.cols) {c c' : ℕ} (hc : c < T.size j) (hc' : c' < T.size j) :
    cgInner (T.size J) (T.size l) (cgNormalize (T.size J) (T.size l) (cgReshape (T.size J) (T.size l) B)) (cgNormalize (T.size J) (T.size l) (cgReshape (T.size J) (T.size l) B)) k c k' c' =
      if k = k' ∧ c = c' then 1 else 0 := by
  have hd0 : (0 : ℝ) < T.size j := by exact_mod_cast (by omega : 0 < T.size j)
  have hS0 : (0 : ℝ) < B.cols := by exact_mod_cast (by omega : 0 < B.cols)
  have hnorm : ∀ c < T.size j, cgNorm (T.size J) (T.size l) (cgReshape (T.size J) (T.size l) B) c = √(1 / (T.size j : ℝ)) := fun c hc => by
    unfold cgNorm
    congr 1
    have e : ∀ a ∈ Finset.range (T.size J), ∑ b ∈ Finset.range (T.size l), (∑ s ∈ Finset.range (cgReshape (T.size J) (T.size l) B).mult, (cgReshape (T.size J) (T.size l) B).get a b s c ^ 2) / ((cgReshape (T.size J) (T.size l) B).mult : ℝ) =
        ∑ s ∈ Finset.range B.cols, (∑ b ∈ Finset.range (T.size l), (cgReshape (T.size J) (T.size l) B).get a b s c * (cgReshape (T.size J) (T.size l) B).get a b s c) / (B.cols : ℝ) := fun a _ => by
      rw [← Finset.sum_div, ← Finset.sum_div, Finset.sum_comm]
      simp only [sq]
      rfl
    rw [Finset.sum_congr rfl e, Finset.sum_comm]
    have e2 : ∀ s ∈ Finset.range B.cols, ∑ a ∈ Finset.range (T.size J), (∑ b ∈ Finset.range (T.size l), (cgReshape (T.size J) (T.size l) B).get a b s c * (cgReshape (T.size J) (T.size l) B).get a b s c) / (B.cols : ℝ) =
        1 / (T.size j : ℝ) / B.cols := fun s hs => by
      rw [← Finset.sum_div]
      have := h.gram_real hT hJ hl hj ht (Finset.mem_range.1 hs) (Finset.mem_range.1 hs) c hc c hc
      rw [if_pos ⟨rfl, rfl⟩] at this
      rw [← this]
      rfl
    rw [Finset.sum_congr rfl e2, Finset.sum_const, Finset.card_range, nsmul_eq_mul]
    field_simp
  have hsq : √(1 / (T.size j : ℝ)) * √(1 / (T.size j : ℝ)) = 1 / (T.size j : ℝ) := Real.mul_self_sqrt (by positivity)
  have e : cgInner (T.size J) (T.size l) (cgNormalize (T.size J) (T.size l) (cgReshape (T.size J) (T.size l) B)) (cgNormalize (T.size J) (T.size l) (cgReshape (T.size J) (T.size l) B)) k c k' c' =
      cgInner (T.size J) (T.size l) (cgReshape (T.size J) (T.size l) B) (cgReshape (T.size J) (T.size l) B) k c k' c' / (1 / (T.size j : ℝ)) := by
    unfold cgInner
    rw [Finset.sum_div]
    refine Finset.sum_congr rfl fun a _ => ?_
    rw [Finset.sum_div]
    refine Finset.sum_congr rfl fun b _ => ?_
    simp only [cgNormalize]
    rw [hnorm c hc, hnorm c' hc', div_mul_div_comm, hsq]
  rw [e, h.gram_real hT hJ hl hj ht hk hk' c hc c' hc']
  split_ifs
  · exact div_self (by positivity)
  · exact zero_div _

theorem cgConnected_eq {S : ℕ} {r : ℕ → ℕ → Prop} (h : ∀ s < S, ∀ t < S, r s t → s = t) {s t : ℕ} (hst : cgConnected S r s t) : s = t := by
  induction hst with
  | rel x y hxy => exact h x hxy.1 y hxy.2.1 hxy.2.2
  | refl x => rfl
  | symm x y _ ih => exact ih.symm
  | trans x y z _ _ ih1 ih2 => exact ih1.trans ih2

/-- For an irrep of real type the selection keeps the whole basis. -/
theorem cgSelect_real (hT : T.Valid El op one) {J l j : Id} (hJ : T.ok J = true) (hl : T.ok l = true) (hj : T.ok j = true) (ht : HasType El (T.mat j) .R (T.size j)) {B : NpMat ℝ}
    (h : HomBasis El T J l j B) : ∃ R, cgSelect (T.size J) (T.size l) (T.size j) (endoBasis .R (T.size j)) IrrType.R.sumsq B = .ok R ∧ R.mult = B.cols := by
  classical
  by_cases h0 : B.cols = 0
  · refine ⟨cgReshape (T.size J) (T.size l) B, ?_, rfl⟩
    simp [cgSelect, h0]
  · set A := cgNormalize (T.size J) (T.size l) (cgReshape (T.size J) (T.size l) B) with hA
    set r := cgDepend (T.size J) (T.size l) (T.size j) (endoBasis .R (T.size j)) A with hr
    have hAm : A.mult = B.cols := rfl
    have hd0 : 0 < T.size j := by
      rcases Nat.eq_zero_or_pos (T.size j) with hd | hd
      · have := h.ortho 0 (by omega) 0 (by omega)
        rw [h.rows, hd] at this
        simp at this
      · exact hd
    have hor : ∀ k < B.cols, ∀ k' < B.cols, ∀ c < T.size j, ∀ c' < T.size j, cgInner (T.size J) (T.size l) A A k c k' c' = if k = k' ∧ c = c' then 1 else 0 := fun k hk k' hk' c hc c' hc' =>
      h.normalized_real hT hJ hl hj ht hk hk' hc hc'
    have hrel : ∀ s < B.cols, ∀ t < B.cols, (r s t ↔ s = t) := fun s hs t ht' => by
      have e : (∑ a ∈ Finset.range (T.size J), ∑ b ∈ Finset.range (T.size l), ∑ c ∈ Finset.range (T.size j), ∑ d ∈ Finset.range (T.size j), A.get a b s c * A.get a b t d * (eye (T.size j) : NpMat ℝ).get c d) =
          if s = t then (T.size j : ℝ) else 0 := by
        have e1 : ∀ a ∈ Finset.range (T.size J), ∑ b ∈ Finset.range (T.size l), ∑ c ∈ Finset.range (T.size j), ∑ d ∈ Finset.range (T.size j), A.get a b s c * A.get a b t d * (eye (T.size j) : NpMat ℝ).get c d =
            ∑ c ∈ Finset.range (T.size j), ∑ b ∈ Finset.range (T.size l), A.get a b s c * A.get a b t c := fun a _ => by
          rw [Finset.sum_comm]
          refine Finset.sum_congr rfl fun c hc => Finset.sum_congr rfl fun b _ => ?_
          simp [eye, Finset.mem_range.1 hc]
        rw [Finset.sum_congr rfl e1, Finset.sum_comm]
        have e2 : ∀ c ∈ Finset.range (T.size j), ∑ a ∈ Finset.range (T.size J), ∑ b ∈ Finset.range (T.size l), A.get a b s c * A.get a b t c = if s = t then 1 else 0 := fun c hc => by
          have := hor s hs t ht' c (Finset.mem_range.1 hc) c (Finset.mem_range.1 hc)
          simpa [cgInner] using this
        rw [Finset.sum_congr rfl e2]
        simp
      rw [hr]
      unfold cgDepend
      simp only [endoBasis, List.map_cons, List.map_nil, List.sum_cons, List.sum_nil, add_zero, e]
      have h1 : (1 : ℝ) ≤ T.size j := by exact_mod_cast hd0
      by_cases hst : s = t
      · simp only [hst, if_true, iff_true]
        nlinarith
      · simp only [hst, if_false, iff_false]
        norm_num
    have hcon : ∀ s t, cgConnected B.cols r s t → s = t := fun s t => cgConnected_eq fun s hs t ht h => (hrel s hs t ht).1 h
    have hsel : cgSelected B.cols r = List.range B.cols := by
      unfold cgSelected
      rw [List.filter_eq_self]
      intro i _
      simp only [decide_eq_true_eq]
      intro k hk hc
      exact absurd (hcon k i hc) (by omega)
    have hcard : (((Finset.range A.mult) ×ˢ (Finset.range A.mult)).filter fun p => r p.1 p.2).card = A.mult := by
      have : (((Finset.range A.mult) ×ˢ (Finset.range A.mult)).filter fun p => r p.1 p.2) = (Finset.range A.mult).image fun s => (s, s) := by
        ext ⟨s, t⟩
        simp only [Finset.mem_filter, Finset.mem_product, Finset.mem_range, Finset.mem_image, Prod.mk.injEq]
        constructor
        · rintro ⟨⟨hs, ht'⟩, hst⟩
          exact ⟨s, hs, rfl, (hrel s hs t ht').1 hst⟩
        · rintro ⟨x, hx, rfl, rfl⟩
          exact ⟨⟨hx, hx⟩, (hrel x hx x hx).2 rfl⟩
      rw [this, Finset.card_image_of_injective _ fun a b hab => (Prod.mk.inj hab).1, Finset.card_range]
    have hcomp : ∀ i ∈ cgSelected A.mult r, ((Finset.range A.mult).filter fun k => cgConnected A.mult r i k).card = 1 := fun i hi => by
      have hi : i < A.mult := mem_cgSelected hi
      have : ((Finset.range A.mult).filter fun k => cgConnected A.mult r i k) = {i} := by
        ext k
        simp only [Finset.mem_filter, Finset.mem_range, Finset.mem_singleton]
        exact ⟨fun hk => (hcon i k hk.2).symm, fun hk => by rw [hk]; exact ⟨hi, .refl _⟩⟩
      rw [this, Finset.card_singleton]
    have hlen : (cgSelected A.mult r).length = A.mult := by rw [hAm, hsel, List.length_range]
    refine ⟨⟨(cgSelected A.mult r).length, fun a b t c => A.get a b ((cgSelected A.mult r).getD t 0) c⟩, ?_, hlen⟩
    unfold cgSelect
    rw [if_neg (by simp [IrrType.sumsq, Nat.mod_one]), if_neg h0]
    dsimp only
    rw [if_neg, if_neg, if_neg, if_neg, if_pos]
    · intro s hs c hc s' hs' c' hc'
      have hs : s < B.cols := by rw [← hAm, ← hlen]; exact hs
      have hs' : s' < B.cols := by rw [← hAm, ← hlen]; exact hs'
      have g : ∀ s < B.cols, (cgSelected A.mult r).getD s 0 = s := fun s hs => by
        rw [hAm, hsel]
        simp [hs]
      show (∑ a ∈ Finset.range (T.size J), ∑ b ∈ Finset.range (T.size l), A.get a b ((cgSelected A.mult r).getD s 0) c * A.get a b ((cgSelected A.mult r).getD s' 0) c') = _
      rw [g s hs, g s' hs']
      exact hor s hs s' hs' c hc c' hc'
    · rw [not_not]
      show (cgSelected A.mult r).length = A.mult / 1
      rw [hlen, Nat.div_one]
    · rintro ⟨i, hi, hne⟩
      exact hne (hcomp i hi)
    · rw [not_not]
      show (cgSelected A.mult r).length * 1 = A.mult
      rw [hlen, Nat.mul_one]
    · rw [not_not]
      show (((Finset.range A.mult) ×ˢ (Finset.range A.mult)).filter fun p => r p.1 p.2).card = A.mult * 1
      rw [hcard, Nat.mul_one]

end Escnn
