import Verif.Model.CGNumerical
import Verif.Lemmas.NumericalExact
import Verif.Lemmas.Complete
import Verif.Lemmas.ExRel

/-!
# The numerical Clebsch–Gordan coefficients: intertwiners
-/

namespace Escnn

open NpMat CGComplete

variable {G Id : Type} {T : IrrepTable G Id} {El : G → Prop} {op : G → G → G} {one : G}

theorem OrthoRep.tensor {d e : ℕ} {ρ σ : G → NpMat ℝ} (h : OrthoRep El op one d ρ) (h' : OrthoRep El op one e σ) : OrthoRep El op one (d * e) fun g => kron (ρ g) (σ g) where
  rows g hg := by rw [kron_rows, h.rows g hg, h'.rows g hg]
  cols g hg := by rw [kron_cols, h.cols g hg, h'.cols g hg]
  map_one := (kron_congr h.map_one h'.map_one).trans (kron_eye_eye d e)
  map_mul a b ha hb := (kron_congr (h.map_mul a b ha hb) (h'.map_mul a b ha hb)).trans (kron_mul _ _ _ _ (by rw [h.cols a ha, h.rows b hb]) (by rw [h'.cols a ha, h'.rows b hb])).symm
  ortho g hg := (h.ortho g hg).kron (h'.ortho g hg)

/-- The elements of the list generate the group. -/
def Generates (El : G → Prop) (op : G → G → G) (one : G) (L : List G) : Prop := ∀ g, El g → ∃ w : List G, (∀ x ∈ w, x ∈ L) ∧ w.foldl op one = g

theorem Generates.intertwine {L : List G} (hL : ∀ g ∈ L, El g) (hgen : Generates El op one L) (hel : El one) (hop : ∀ g h, El g → El h → El (op g h)) {d e : ℕ} {ρ σ : G → NpMat ℝ}
    (hρ : LinRep El op one d ρ) (hσ : LinRep El op one e σ) {D : NpMat ℝ} (hD : D.rows = d ∧ D.cols = e) (h : ∀ g ∈ L, mul (ρ g) D ≈ mul D (σ g)) : ∀ g, El g → mul (ρ g) D ≈ mul D (σ g) := by
  intro g hg
  obtain ⟨w, hw, rfl⟩ := hgen g hg
  exact (intertwine_word hρ hσ hel hop hD (S := L) (fun x hx => ⟨hL x hx, h x hx⟩) w one hw hel (intertwine_one hρ hσ hel hD)).2

/-! ### Gram matrices of intertwiners -/

/-- `Xᵀ Y` commutes with the representation if `X` and `Y` intertwine. -/
theorem gram_commute {K X Y R : NpMat ℝ} {n d : ℕ} (hK : IsOrtho K) (hKr : K.rows = n) (hR : IsOrtho R) (hRr : R.rows = d) (hX : X.rows = n ∧ X.cols = d) (hY : Y.rows = n ∧ Y.cols = d)
    (h : mul K X ≈ mul X R) (h' : mul K Y ≈ mul Y R) : mul (mul (transpose X) Y) R ≈ mul R (mul (transpose X) Y) := by
  have hKc : K.cols = n := hK.1 ▸ hKr
  have t := transpose_intertwines hK hKr hR hRr hX h
  refine (mul_assoc' _ _ _).trans ((mul_congr_right _ h'.symm (by rw [transpose_cols, mul_rows, hX.1, hY.1])).trans ?_)
  refine (mul_assoc' _ _ _).symm.trans ((mul_congr_left _ t (by rw [mul_cols, hKc, hY.1])).trans (mul_assoc' _ _ _))

theorem gram_get (X Y : NpMat ℝ) (i j : ℕ) : (mul (transpose X) Y).get i j = ∑ r ∈ Finset.range X.rows, X.get r i * Y.get r j := rfl

theorem endo_diag (t : IrrType) (d k i : ℕ) (hk : k < t.sumsq) : ((endoBasis t d).getD k (zeros 0 0)).get i i = if k = 0 then 1 else 0 := by
  have hx : ∀ x : ℕ, x = 0 ∨ x = 1 ∨ x = 2 ∨ x = 3 ∨ 4 ≤ x := by omega
  cases t with
  | R =>
    obtain rfl : k = 0 := by simp [IrrType.sumsq] at hk; omega
    simp [endoBasis, eye]
  | C =>
    have hk : k < 2 := hk
    rcases (by omega : k = 0 ∨ k = 1) with rfl | rfl
    · simp [endoBasis, endoCore, kron, eye]
    · simp only [endoBasis, endoCore, kron, List.map_cons, List.map_nil, List.getD_cons_succ, List.getD_cons_zero, ofRows, eye]
      rcases hx (i / (d / 2)) with h | h | h | h | h
      · simp [h]
      · simp [h]
      · simp [h]
      · simp [h]
      · obtain ⟨m, hm⟩ := Nat.exists_eq_add_of_le h
        rw [hm, Nat.add_comm]
        simp
  | H =>
    have hk : k < 4 := hk
    rcases (by omega : k = 0 ∨ k = 1 ∨ k = 2 ∨ k = 3) with rfl | rfl | rfl | rfl
    · simp [endoBasis, endoCore, kron, eye]
    all_goals
      simp only [endoBasis, endoCore, kron, List.map_cons, List.map_nil, List.getD_cons_succ, List.getD_cons_zero, ofRows, eye]
      rcases hx (i / (d / 4)) with h | h | h | h | h
      · simp [h]
      · simp [h]
      · simp [h]
      · simp [h]
      · obtain ⟨m, hm⟩ := Nat.exists_eq_add_of_le h
        rw [hm, Nat.add_comm]
        simp

/-- The columns of an intertwiner from an irrep all have the same norm, and their inner products with the columns of another one depend on the endomorphisms only. -/
theorem gram_diag {t : IrrType} {n d : ℕ} {ρ σ : G → NpMat ℝ} (hσ : OrthoRep El op one n σ) (hρ : OrthoRep El op one d ρ) (ht : HasType El ρ t d) {X Y : NpMat ℝ} (hX : X.rows = n ∧ X.cols = d)
    (hY : Y.rows = n ∧ Y.cols = d) (h : ∀ g, El g → mul (σ g) X ≈ mul X (ρ g)) (h' : ∀ g, El g → mul (σ g) Y ≈ mul Y (ρ g)) :
    ∃ c : ℝ, ∀ i < d, ∑ r ∈ Finset.range n, X.get r i * Y.get r i = c := by
  obtain ⟨c, hc⟩ := ht.full (mul (transpose X) Y) (by rw [mul_rows, transpose_rows, hX.2]) (by rw [mul_cols, hY.2]) fun g hg =>
    gram_commute (hσ.ortho g hg) (hσ.rows g hg) (hρ.ortho g hg) (hρ.rows g hg) hX hY (h g hg) (h' g hg)
  refine ⟨c 0, fun i hi => ?_⟩
  have := hc i i hi hi
  rw [gram_get, hX.1] at this
  rw [this, Finset.sum_eq_single 0]
  · rw [endo_diag _ _ _ _ (by cases t <;> simp [IrrType.sumsq])]; simp
  · intro k hk hk0
    rw [endo_diag _ _ _ _ (Finset.mem_range.1 hk), if_neg hk0, mul_zero]
  · intro h0
    exact absurd (Finset.mem_range.2 (by cases t <;> simp [IrrType.sumsq])) h0

/-! ### The basis -/

/-- The column `k` of the basis as a matrix. -/
def basisMat (n d : ℕ) (B : NpMat ℝ) (k : ℕ) : NpMat ℝ := unflatF n d fun a => B.get a k

theorem cgReshape_column (dJ dl dj : ℕ) (B : NpMat ℝ) (k : ℕ) : column (dJ * dl) dl dj (cgReshape dJ dl B) k ≈ basisMat (dJ * dl) dj B k := by
  refine ⟨rfl, rfl, fun r c _ _ => ?_⟩
  show B.get (c * (dJ * dl) + (r / dl * dl + r % dl)) k = B.get (c * (dJ * dl) + r) k
  rw [Nat.div_add_mod']

theorem intertwines_of_column {A B C : NpMat ℝ} {d1 d2 dj : ℕ} (hA : A.rows = d1 ∧ A.cols = d1) (hB : B.rows = d2 ∧ B.cols = d2) (hC : C.rows = dj ∧ C.cols = dj) {c : CGArray}
    (h : ∀ s < c.mult, mul (kron A B) (column (d1 * d2) d2 dj c s) ≈ mul (column (d1 * d2) d2 dj c s) C) : Intertwines A B C c := by
  intro a b s i ha hb hs hi
  rw [hA.1] at ha
  rw [hB.1] at hb
  rw [hC.1] at hi
  have e := (h s hs).2.2 (a * d2 + b) i (by rw [mul_rows, kron_rows, hA.1, hB.1]; exact mul_add_lt ha hb) hi
  simp only [mul, column, kron] at e
  rw [hA.2, hB.2, hB.1, mul_add_div' hb, mul_add_mod'' hb, sum_range_mul' d1 d2 (fun a' b' => A.get a a' * B.get b b' * c.get a' b' s i)] at e
  rw [hA.2, hB.2, hC.1]
  exact e

theorem cgInner_gram (d1 d2 d d' : ℕ) (x y : CGArray) (s c s' c' : ℕ) :
    cgInner d1 d2 x y s c s' c' = (mul (transpose (column (d1 * d2) d2 d x s)) (column (d1 * d2) d2 d' y s')).get c c' := by
  rw [gram_get]
  exact (sum_range_mul' d1 d2 (fun a b => x.get a b s c * y.get a b s' c')).symm

/-- What the loop returns intertwines on the elements of the check. -/
theorem cgLoop_ok {N : Numerics} (hT : T.Valid El op one) {J l j : Id} (hJ : T.ok J = true) (hl : T.ok l = true) (hj : T.ok j = true) {gens : List G} (hgens : ∀ g ∈ gens, El g) :
    ∀ {tries : List (List G × List G)}, (∀ p ∈ tries, ∀ g ∈ p.2, El g) → ∀ {B : NpMat ℝ}, cgLoop N T J l j gens tries = .ok B →
      ∃ p ∈ tries, B.rows = T.size j * (T.size J * T.size l) ∧ ∀ k < B.cols, ∀ g ∈ gens ++ p.2,
        mul (tensorMat T J l g) (basisMat (T.size J * T.size l) (T.size j) B k) ≈ mul (basisMat (T.size J * T.size l) (T.size j) B k) (T.mat j g)
  | [], _, B, h => by cases h
  | (s, t) :: L, ht, B, h => by
    rw [cgLoop] at h
    obtain ⟨B', hB', h⟩ := ExRel.bind_ok h
    obtain ⟨C, hC, h⟩ := ExRel.bind_ok h
    have hel : ∀ g ∈ gens ++ t, El g := fun g hg => by
      rcases List.mem_append.1 hg with h | h
      · exact hgens g h
      · exact ht (s, t) (by simp) g h
    split_ifs at h with h1 h2
    · obtain rfl := Except.ok.inj h
      refine ⟨(s, t), by simp, ?_⟩
      have h0 : (gens ++ t).map (tensorMat T J l) ≠ [] := by
        intro h0
        rw [h0] at hC
        simp [buildSylvester] at hC
      obtain ⟨C', hC', hcols, hker⟩ := buildSylvester_spec (rho₁ := (gens ++ t).map (tensorMat T J l)) (rho₂ := (gens ++ t).map (T.mat j)) (d₁ := T.size J * T.size l) (d₂ := T.size j)
        (by
          intro A hA
          obtain ⟨g, hg, rfl⟩ := List.mem_map.1 hA
          exact ⟨((hT J hJ).tensor (hT l hl)).rows g (hel g hg), ((hT J hJ).tensor (hT l hl)).cols g (hel g hg)⟩)
        (by
          intro A hA
          obtain ⟨g, hg, rfl⟩ := List.mem_map.1 hA
          exact ⟨(hT j hj).rows g (hel g hg), (hT j hj).cols g (hel g hg)⟩)
        (by simp) h0
      rw [hC] at hC'
      obtain rfl := Except.ok.inj hC'
      have hrows : B'.rows = T.size j * (T.size J * T.size l) := by rw [← hcols]; omega
      refine ⟨hrows, fun k hk g hg => ?_⟩
      refine (hker fun a => B'.get a k).1 (fun i hi => ?_) (tensorMat T J l g, T.mat j g) ?_
      · exact h2.2.2 i k hi hk
      · rw [List.zip_map']
        exact List.mem_map.2 ⟨g, hg, rfl⟩
    · obtain ⟨p, hp, r⟩ := cgLoop_ok hT hJ hl hj hgens (fun p hp => ht p (List.mem_cons_of_mem _ hp)) h
      exact ⟨p, List.mem_cons_of_mem _ hp, r⟩

/-! ### Normalisation and selection -/

/-- The norm which the code divides by is the same for all components, if the columns intertwine. -/
theorem cgNorm_const {typ : IrrType} (hT : T.Valid El op one) {J l j : Id} (hJ : T.ok J = true) (hl : T.ok l = true) (hj : T.ok j = true) (ht : HasType El (T.mat j) typ (T.size j)) {B : NpMat ℝ}
    (h : ∀ k < B.cols, ∀ g, El g → mul (tensorMat T J l g) (basisMat (T.size J * T.size l) (T.size j) B k) ≈ mul (basisMat (T.size J * T.size l) (T.size j) B k) (T.mat j g)) :
    ∃ q : ℕ → ℝ, (∀ k < B.cols, ∀ c < T.size j, ∑ r ∈ Finset.range (T.size J * T.size l), (basisMat (T.size J * T.size l) (T.size j) B k).get r c ^ 2 = q k) ∧
      ∀ c < T.size j, cgNorm (T.size J) (T.size l) (cgReshape (T.size J) (T.size l) B) c = √((∑ k ∈ Finset.range B.cols, q k) / B.cols) := by
  have hq : ∀ k, ∃ q : ℝ, k < B.cols → ∀ c < T.size j, ∑ r ∈ Finset.range (T.size J * T.size l), (basisMat (T.size J * T.size l) (T.size j) B k).get r c ^ 2 = q := by
    intro k
    by_cases hk : k < B.cols
    · obtain ⟨q, hq⟩ := gram_diag ((hT J hJ).tensor (hT l hl)) (hT j hj) ht (X := basisMat (T.size J * T.size l) (T.size j) B k) (Y := basisMat (T.size J * T.size l) (T.size j) B k) ⟨rfl, rfl⟩ ⟨rfl, rfl⟩ (h k hk) (h k hk)
      exact ⟨q, fun _ c hc => by rw [← hq c hc]; exact Finset.sum_congr rfl fun _ _ => sq _⟩
    · exact ⟨0, fun h => absurd h hk⟩
  choose q hq using hq
  refine ⟨q, hq, fun c hc => ?_⟩
  unfold cgNorm
  congr 1
  have e : ∀ a ∈ Finset.range (T.size J), ∑ b ∈ Finset.range (T.size l), (∑ s ∈ Finset.range (cgReshape (T.size J) (T.size l) B).mult, (cgReshape (T.size J) (T.size l) B).get a b s c ^ 2) / ((cgReshape (T.size J) (T.size l) B).mult : ℝ) =
      ∑ b ∈ Finset.range (T.size l), ∑ s ∈ Finset.range B.cols, B.get (c * (T.size J * T.size l) + (a * T.size l + b)) s ^ 2 / (B.cols : ℝ) := fun a _ => Finset.sum_congr rfl fun b _ => by
    rw [← Finset.sum_div]; rfl
  rw [Finset.sum_congr rfl e, Finset.sum_div]
  have e2 : ∀ k ∈ Finset.range B.cols, (∑ r ∈ Finset.range (T.size J * T.size l), (basisMat (T.size J * T.size l) (T.size j) B k).get r c ^ 2) / (B.cols : ℝ) =
      ∑ a ∈ Finset.range (T.size J), ∑ b ∈ Finset.range (T.size l), B.get (c * (T.size J * T.size l) + (a * T.size l + b)) k ^ 2 / (B.cols : ℝ) := fun k _ => by
    rw [Finset.sum_div]
    have := sum_range_mul' (T.size J) (T.size l) (fun a b => B.get (c * (T.size J * T.size l) + (a * T.size l + b)) k ^ 2 / (B.cols : ℝ))
    rw [← this]
    refine Finset.sum_congr rfl fun r _ => ?_
    rw [Nat.div_add_mod']
    rfl
  have e3 : ∑ k ∈ Finset.range B.cols, q k / (B.cols : ℝ) = ∑ k ∈ Finset.range B.cols, (∑ r ∈ Finset.range (T.size J * T.size l), (basisMat (T.size J * T.size l) (T.size j) B k).get r c ^ 2) / (B.cols : ℝ) :=
    Finset.sum_congr rfl fun k hk => by rw [hq k (Finset.mem_range.1 hk) c hc]
  rw [e3, Finset.sum_congr rfl e2, Finset.sum_comm (s := Finset.range B.cols)]
  refine Finset.sum_congr rfl fun a _ => ?_
  rw [Finset.sum_comm]

theorem mem_cgSelected {S : ℕ} {r : ℕ → ℕ → Prop} {i : ℕ} (h : i ∈ cgSelected S r) : i < S := List.mem_range.1 (List.mem_filter.1 h).1

/-- What the selection returns. -/
theorem cgSelect_ok {dJ dl dj : ℕ} {endo : List (NpMat ℝ)} {q : ℕ} {B : NpMat ℝ} {R : CGArray} (h : cgSelect dJ dl dj endo q B = .ok R) :
    R.mult = B.cols / q ∧ B.cols % q = 0 ∧ (∃ sel : ℕ → ℕ, ∀ t < R.mult, sel t < B.cols ∧ ∀ a b c, R.get a b t c = (cgNormalize dJ dl (cgReshape dJ dl B)).get a b (sel t) c) ∧
      ∀ s < R.mult, ∀ c < dj, ∀ s' < R.mult, ∀ c' < dj, cgInner dJ dl R R s c s' c' = if s = s' ∧ c = c' then 1 else 0 := by
  unfold cgSelect at h
  dsimp only at h
  split_ifs at h with h0 h1 h2 h3 h4 h5 h6
  · obtain rfl := Except.ok.inj h
    have hm : (cgReshape dJ dl B).mult = 0 := h1
    exact ⟨by rw [hm, h1, Nat.zero_div], by rw [h1, Nat.zero_mod], ⟨id, fun t ht => by omega⟩, fun s hs => by omega⟩
  · obtain rfl := Except.ok.inj h
    rw [not_not] at h0 h3 h5
    refine ⟨h5, h0, ⟨fun t => (cgSelected _ _).getD t 0, fun t ht => ⟨?_, fun a b c => rfl⟩⟩, fun s hs c hc s' hs' c' hc' => h6 s hs c hc s' hs' c' hc'⟩
    dsimp only
    rw [List.getD_eq_getElem _ _ ht]
    exact mem_cgSelected (List.getElem_mem ht)

/-- The coefficients which the code returns intertwine. -/
theorem cgTensor_intertwines {N : Numerics} {typ : Id → IrrType} (hT : T.Valid El op one) (hel : El one) (hop : ∀ g h, El g → El h → El (op g h)) {J l j : Id} (hJ : T.ok J = true)
    (hl : T.ok l = true) (hj : T.ok j = true) (ht : HasType El (T.mat j) (typ j) (T.size j)) {gens : List G} (hgens : ∀ g ∈ gens, El g) {tries : List (List G × List G)} (htr : ∀ p ∈ tries, ∀ g ∈ p.2, El g)
    (hgen : ∀ p ∈ tries, Generates El op one (gens ++ p.2)) {R : CGArray} (h : cgTensor N T typ gens tries J l j = .ok R) :
    (∀ g, El g → Intertwines (T.mat J g) (T.mat l g) (T.mat j g) R) ∧
      ∀ s < R.mult, ∀ c < T.size j, ∀ s' < R.mult, ∀ c' < T.size j, cgInner (T.size J) (T.size l) R R s c s' c' = if s = s' ∧ c = c' then 1 else 0 := by
  obtain ⟨B, hB, h⟩ := ExRel.bind_ok h
  obtain ⟨p, hp, -, hint⟩ := cgLoop_ok hT hJ hl hj hgens htr hB
  have hin : ∀ k < B.cols, ∀ g, El g → mul (tensorMat T J l g) (basisMat (T.size J * T.size l) (T.size j) B k) ≈ mul (basisMat (T.size J * T.size l) (T.size j) B k) (T.mat j g) := fun k hk =>
    (hgen p hp).intertwine (L := gens ++ p.2) (fun g hg => by
      rcases List.mem_append.1 hg with h | h
      · exact hgens g h
      · exact htr p hp g h) hel hop ((hT J hJ).tensor (hT l hl)).toLinRep (hT j hj).toLinRep ⟨rfl, rfl⟩ (hint k hk)
  obtain ⟨-, -, ⟨sel, hsel⟩, hor⟩ := cgSelect_ok h
  obtain ⟨q, -, hnorm⟩ := cgNorm_const hT hJ hl hj ht hin
  refine ⟨fun g hg => ?_, hor⟩
  have hr : Intertwines (T.mat J g) (T.mat l g) (T.mat j g) (cgReshape (T.size J) (T.size l) B) := by
    refine intertwines_of_column ⟨(hT J hJ).rows g hg, (hT J hJ).cols g hg⟩ ⟨(hT l hl).rows g hg, (hT l hl).cols g hg⟩ ⟨(hT j hj).rows g hg, (hT j hj).cols g hg⟩ fun s hs => ?_
    have hc := cgReshape_column (T.size J) (T.size l) (T.size j) B s
    refine (mul_congr_right _ hc ?_).trans ((hin s hs g hg).trans (mul_congr_left _ hc.symm ?_))
    · rw [kron_cols, (hT J hJ).cols g hg, (hT l hl).cols g hg]; rfl
    · rw [(hT j hj).rows g hg]; rfl
  intro a b t c ha hb htm hc
  obtain ⟨hs, hget⟩ := hsel t htm
  have hcj : c < T.size j := by rwa [(hT j hj).rows g hg] at hc
  have e := hr a b (sel t) c ha hb hs hc
  set ν := √((∑ k ∈ Finset.range B.cols, q k) / B.cols) with hν
  have hg' : ∀ a b c, c < T.size j → R.get a b t c = (cgReshape (T.size J) (T.size l) B).get a b (sel t) c / ν := fun a b c hc => by
    rw [hget, cgNormalize]
    show _ / cgNorm _ _ _ c = _
    rw [hnorm c hc]
  have e1 : ∀ a' ∈ Finset.range (T.mat J g).cols, ∑ b' ∈ Finset.range (T.mat l g).cols, (T.mat J g).get a a' * (T.mat l g).get b b' * R.get a' b' t c =
      (∑ b' ∈ Finset.range (T.mat l g).cols, (T.mat J g).get a a' * (T.mat l g).get b b' * (cgReshape (T.size J) (T.size l) B).get a' b' (sel t) c) / ν := fun a' _ => by
    rw [Finset.sum_div]
    exact Finset.sum_congr rfl fun b' _ => by rw [hg' a' b' c hcj]; ring
  rw [Finset.sum_congr rfl e1, ← Finset.sum_div, e, Finset.sum_div]
  refine Finset.sum_congr rfl fun c' hc' => ?_
  rw [hg' a b c' (by rw [← (hT j hj).rows g hg]; exact Finset.mem_range.1 hc')]
  ring

end Escnn
