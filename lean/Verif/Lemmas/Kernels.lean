import Verif.Model.Kernels
import Verif.Lemmas.Expansion
import Verif.Props.C14_DirectSum
import Verif.Props.C18_Endo
import Verif.Spec.CG
import Verif.Spec.Kernels
import Verif.Props.C28_Modules

/-!
# Lemmas on kernel bases
-/

namespace Escnn

open NpMat

/-- The coefficients `C` turn vectors moved by `R` into matrices `M` with `M' B = A M`. -/
def CoeffSteer (A B R : NpMat ℝ) (C : ℕ → ℕ → ℕ → ℝ) : Prop :=
  ∀ v v' : ℕ → ℝ, (∀ y < R.rows, v' y = ∑ z ∈ Finset.range R.cols, R.get y z * v z) → ∀ p < A.rows, ∀ q < B.cols,
    ∑ q' ∈ Finset.range B.rows, (∑ y ∈ Finset.range R.rows, C p q' y * v' y) * B.get q' q =
      ∑ p' ∈ Finset.range A.cols, A.get p p' * ∑ y ∈ Finset.range R.rows, C p' q y * v y

theorem ortho_col {B : NpMat ℝ} (hB : IsOrtho B) {q q' : ℕ} (hq : q < B.cols) (hq' : q' < B.cols) :
    ∑ x ∈ Finset.range B.rows, B.get x q * B.get x q' = if q = q' then 1 else 0 := by
  have := hB.2.2.2.2 q q' hq hq'
  exact this

theorem intertwines_steer {A B R : NpMat ℝ} {cg : CGArray} (h : Intertwines A B R cg) (hB : IsOrtho B) (hR : R.rows = R.cols) {s : ℕ} (hs : s < cg.mult) :
    CoeffSteer A B R fun p q y => cg.get p q s y := by
  intro v v' hv p hp q hq
  have hBsq : B.rows = B.cols := hB.1
  have e1 : ∀ q' < B.rows, ∑ y ∈ Finset.range R.rows, cg.get p q' s y * v' y =
      ∑ p' ∈ Finset.range A.cols, ∑ q'' ∈ Finset.range B.cols, A.get p p' * B.get q' q'' * ∑ y ∈ Finset.range R.rows, cg.get p' q'' s y * v y := by
    intro q' hq'
    calc ∑ y ∈ Finset.range R.rows, cg.get p q' s y * v' y
        = ∑ y ∈ Finset.range R.rows, ∑ z ∈ Finset.range R.rows, cg.get p q' s y * R.get y z * v z := by
          refine Finset.sum_congr rfl fun y hy => ?_
          rw [hv y (Finset.mem_range.1 hy), ← hR, Finset.mul_sum]
          exact Finset.sum_congr rfl fun z _ => by ring
      _ = ∑ z ∈ Finset.range R.rows, (∑ y ∈ Finset.range R.rows, cg.get p q' s y * R.get y z) * v z := by
          rw [Finset.sum_comm]
          exact Finset.sum_congr rfl fun z _ => by rw [Finset.sum_mul]
      _ = ∑ z ∈ Finset.range R.rows, (∑ p' ∈ Finset.range A.cols, ∑ q'' ∈ Finset.range B.cols, A.get p p' * B.get q' q'' * cg.get p' q'' s z) * v z := by
          refine Finset.sum_congr rfl fun z hz => ?_
          rw [h p q' s z hp hq' hs (Finset.mem_range.1 hz)]
      _ = _ := by
          simp only [Finset.sum_mul, Finset.mul_sum]
          rw [Finset.sum_comm]
          refine Finset.sum_congr rfl fun p' _ => ?_
          rw [Finset.sum_comm]
          exact Finset.sum_congr rfl fun q'' _ => Finset.sum_congr rfl fun y _ => by ring
  rw [Finset.sum_congr rfl fun q' hq' => by rw [e1 q' (Finset.mem_range.1 hq')]]
  simp only [Finset.sum_mul]
  rw [Finset.sum_comm]
  refine Finset.sum_congr rfl fun p' _ => ?_
  rw [Finset.sum_comm]
  calc ∑ q'' ∈ Finset.range B.cols, ∑ q' ∈ Finset.range B.rows, A.get p p' * B.get q' q'' * (∑ y ∈ Finset.range R.rows, cg.get p' q'' s y * v y) * B.get q' q
      = ∑ q'' ∈ Finset.range B.cols, A.get p p' * (∑ y ∈ Finset.range R.rows, cg.get p' q'' s y * v y) * (if q'' = q then 1 else 0) := by
        refine Finset.sum_congr rfl fun q'' hq'' => ?_
        rw [← ortho_col hB (Finset.mem_range.1 hq'') hq, Finset.mul_sum]
        exact Finset.sum_congr rfl fun q' _ => by ring
    _ = _ := by
        rw [Finset.sum_eq_single q (fun b _ hb => by rw [if_neg hb, mul_zero]) (fun hb => absurd (Finset.mem_range.2 hq) hb), if_pos rfl, mul_one]

/-- Precomposition with a linear map commuting with the representations. -/
theorem CoeffSteer.comp {A B R S : NpMat ℝ} {C : ℕ → ℕ → ℕ → ℝ} (h : CoeffSteer A B R C) (M : ℕ → ℕ → ℝ)
    (hM : ∀ i < R.rows, ∀ y < S.cols, ∑ z ∈ Finset.range S.rows, M i z * S.get z y = ∑ k ∈ Finset.range R.cols, R.get i k * M k y) (hS : S.rows = S.cols) :
    CoeffSteer A B S fun p q y => ∑ i ∈ Finset.range R.rows, C p q i * M i y := by
  intro v v' hv p hp q hq
  have key : ∀ (w : ℕ → ℝ) a b, ∑ y ∈ Finset.range S.rows, (∑ i ∈ Finset.range R.rows, C a b i * M i y) * w y =
      ∑ i ∈ Finset.range R.rows, C a b i * ∑ y ∈ Finset.range S.rows, M i y * w y := by
    intro w a b
    simp only [Finset.sum_mul, Finset.mul_sum]
    rw [Finset.sum_comm]
    exact Finset.sum_congr rfl fun i _ => Finset.sum_congr rfl fun y _ => by ring
  simp only [key]
  refine h (fun i => ∑ y ∈ Finset.range S.rows, M i y * v y) (fun i => ∑ y ∈ Finset.range S.rows, M i y * v' y) (fun i hi => ?_) p hp q hq
  calc ∑ y ∈ Finset.range S.rows, M i y * v' y = ∑ y ∈ Finset.range S.rows, ∑ z ∈ Finset.range S.cols, M i y * S.get y z * v z := by
        refine Finset.sum_congr rfl fun y hy => ?_
        rw [hv y (Finset.mem_range.1 hy), Finset.mul_sum]
        exact Finset.sum_congr rfl fun z _ => by ring
    _ = ∑ z ∈ Finset.range S.cols, (∑ k ∈ Finset.range R.cols, R.get i k * M k z) * v z := by
        rw [Finset.sum_comm]
        exact Finset.sum_congr rfl fun z hz => by rw [← hM i hi z (Finset.mem_range.1 hz), Finset.sum_mul]
    _ = _ := by
        simp only [Finset.sum_mul, Finset.mul_sum]
        rw [Finset.sum_comm, hS]
        exact Finset.sum_congr rfl fun k _ => Finset.sum_congr rfl fun z _ => by ring

/-- The transpose of an endomorphism of an orthogonal matrix. -/
theorem endo_transpose {R E : NpMat ℝ} {d : ℕ} (hr : R.rows = d) (hR : IsOrtho R) (her : E.rows = d) (hec : E.cols = d) (h : mul R E ≈ mul E R) :
    ∀ i < d, ∀ y < d, ∑ z ∈ Finset.range d, E.get z i * R.get z y = ∑ k ∈ Finset.range d, R.get i k * E.get y k := by
  have hc : R.cols = d := hR.1 ▸ hr
  have hT : mul (transpose E) R ≈ mul R (transpose E) := by
    have h1 : mul (transpose R) (mul (mul R E) (transpose R)) ≈ mul (transpose R) (mul (mul E R) (transpose R)) :=
      mul_congr_right _ (mul_congr_left _ h (by simp [hec, hc])) (by simp)
    have i1 : IsInv R (transpose R) := IsInv.of_ortho hR
    have l1 : mul (transpose R) (mul (mul R E) (transpose R)) ≈ mul E (transpose R) := by
      have a1 : mul (mul (transpose R) R) (mul E (transpose R)) ≈ mul E (transpose R) := by
        have : mul (transpose R) R ≈ eye d := by have := hR.2; rw [hr] at this; exact this.2
        exact (mul_congr_left _ this (by simp [hc, her])).trans (eye_mul' _ (by simp [her]))
      refine Eqv.trans ?_ a1
      refine (mul_congr_right _ (mul_assoc' R E (transpose R)) (by simp)).trans (mul_assoc' _ _ _).symm
    have l2 : mul (transpose R) (mul (mul E R) (transpose R)) ≈ mul (transpose R) E := by
      have : mul R (transpose R) ≈ eye d := by have := hR.2; rw [hr] at this; exact this.1
      refine mul_congr_right _ ?_ (by simp [hr, her])
      exact (mul_assoc' E R (transpose R)).trans ((mul_congr_right _ this (by simp [hec, hr])).trans (mul_eye' _ hec))
    have h2 : mul E (transpose R) ≈ mul (transpose R) E := l1.symm.trans (h1.trans l2)
    have h3 := transpose_congr h2
    exact ((transpose_mul (transpose R) E (by simp [hr, her])).symm.trans (h3.symm.trans (transpose_mul E (transpose R) (by simp [hec, hc]))))
  intro i hi y hy
  have := hT.2.2 i y (by simp [hec, hi]) (by simp [hc, hy])
  change ∑ z ∈ Finset.range E.rows, E.get z i * R.get z y = ∑ k ∈ Finset.range R.cols, R.get i k * E.get y k at this
  rwa [her, hc] at this

theorem WE.coeff_steer {A B R E : NpMat ℝ} {cg : CGArray} {d : ℕ} (h : Intertwines A B R cg) (hB : IsOrtho B) (hr : R.rows = d) (hR : IsOrtho R)
    (her : E.rows = d) (hec : E.cols = d) (hE : mul R E ≈ mul E R) {s : ℕ} (hs : s < cg.mult) : CoeffSteer A B R (WE.coeff d cg E s) := by
  have hc : R.cols = d := hR.1 ▸ hr
  have := (intertwines_steer h hB (hr.trans hc.symm) hs).comp (S := R) (fun i y => E.get y i) (fun i hi y hy => by
    rw [hr] at hi
    rw [hc] at hy
    rw [hr, hc]
    exact endo_transpose hr hR her hec hE i hi y hy) (hr.trans hc.symm)
  rw [hr] at this
  exact this

/-- `inv` intertwines: its rows from `p0` on are a copy of `R`. -/
theorem RWE.coeff_steer {A B R E S inv : NpMat ℝ} {cg : CGArray} {d p0 : ℕ} (h : Intertwines A B R cg) (hB : IsOrtho B) (hr : R.rows = d) (hR : IsOrtho R)
    (her : E.rows = d) (hec : E.cols = d) (hE : mul R E ≈ mul E R) {s : ℕ} (hs : s < cg.mult) (hS : S.rows = S.cols)
    (hinv : ∀ o < d, ∀ y < S.cols, ∑ z ∈ Finset.range S.rows, inv.get (p0 + o) z * S.get z y = ∑ k ∈ Finset.range d, R.get o k * inv.get (p0 + k) y) :
    CoeffSteer A B S (RWE.coeff d cg E inv p0 s) := by
  have hc : R.cols = d := hR.1 ▸ hr
  have := (WE.coeff_steer h hB hr hR her hec hE hs).comp (S := S) (fun o y => inv.get (p0 + o) y) (fun o ho y hy => by
    rw [hr] at ho
    rw [hc]
    exact hinv o ho y hy) hS
  rw [hr] at this
  intro v v' hv p hp q hq
  have e : ∀ a b y, RWE.coeff d cg E inv p0 s a b y = ∑ i ∈ Finset.range d, WE.coeff d cg E s a b i * inv.get (p0 + i) y := by
    intro a b y
    simp only [RWE.coeff, WE.coeff, Finset.sum_mul]
    exact Finset.sum_comm
  simp only [e]
  exact this v v' hv p hp q hq


/-! ### Filter bases -/

section

variable {J J' P A : Type} [DecidableEq J]

theorem FBasis.mult_of_mem {F : FBasis J P A} (hF : (F.js.map Prod.fst).Nodup) {j : J} {m : ℕ} (h : (j, m) ∈ F.js) : F.mult j = m := by
  rw [FBasis.mult, (lookupLast_of_nodup hF).2 h]; rfl

theorem FBasis.mem_of_mult {F : FBasis J P A} {j : J} (h : 0 < F.mult j) : (j, F.mult j) ∈ F.js := by
  by_cases hm : j ∈ F.js.map Prod.fst
  · obtain ⟨v, hv, hmem⟩ := lookupLast_mem hm
    rw [FBasis.mult, hv]; exact hmem
  · rw [FBasis.mult, lookupLast_none hm] at h; exact absurd h (lt_irrefl 0)

theorem FBasis.dictLoop_keys (size : J → ℕ) (v : ℕ → ℝ) : ∀ (L : List (J × ℕ)) (p : ℕ), (FBasis.dictLoop size v p L).map Prod.fst = L.map Prod.fst
  | [], _ => rfl
  | (j, m) :: L, p => by rw [FBasis.dictLoop, List.map_cons, List.map_cons, FBasis.dictLoop_keys size v L]

theorem FBasis.dictLoop_mem (size : J → ℕ) (v : ℕ → ℝ) : ∀ (L : List (J × ℕ)) (p k : ℕ) (j : J) (m : ℕ), L[k]? = some (j, m) →
    (j, fun i c => v (p + ((L.take k).map fun e => size e.1 * e.2).sum + (i * size j + c))) ∈ FBasis.dictLoop size v p L
  | [], _, k, j, m, h => by simp at h
  | (j0, m0) :: L, p, 0, j, m, h => by
    obtain ⟨rfl, rfl⟩ : j0 = j ∧ m0 = m := by simpa using h
    rw [FBasis.dictLoop]
    exact List.mem_cons.2 (Or.inl (by simp))
  | (j0, m0) :: L, p, k + 1, j, m, h => by
    have := FBasis.dictLoop_mem size v L (p + size j0 * m0) k j m (by simpa using h)
    rw [FBasis.dictLoop, List.take_succ_cons, List.map_cons, List.sum_cons]
    refine List.mem_cons.2 (Or.inr ?_)
    rw [add_assoc] at this
    exact this

/-- The value of `sample_as_dict` at the harmonic `js[k]`. -/
theorem FBasis.asDict_get {F : FBasis J P A} (size : J → ℕ) (hF : (F.js.map Prod.fst).Nodup) {k : ℕ} {j : J} {m : ℕ} (h : F.js[k]? = some (j, m)) (x : P) :
    dictGet (F.asDict size x) j = .ok fun i c => F.sample x (((F.js.take k).map fun e => size e.1 * e.2).sum + (i * size j + c)) := by
  rw [dictGet_ok, lookupLast_of_nodup (by rw [FBasis.asDict, FBasis.dictLoop_keys]; exact hF)]
  have := FBasis.dictLoop_mem size (F.sample x) F.js 0 k j m h
  rw [zero_add] at this
  exact this

/-! ### Irrep bases: the harmonics and the position of an element -/

namespace IBasis

theorem selectJs_eq (hs : List J) : ∀ (L : List (J × ℕ)) (acc : List J), (L.map Prod.fst).Nodup → (∀ j ∈ acc, j ∉ L.map Prod.fst) →
    selectJs hs acc L = acc ++ (L.map Prod.fst).filter (· ∈ hs)
  | [], acc, _, _ => by simp [selectJs]
  | (j, m) :: L, acc, hn, hd => by
    rw [List.map_cons, List.nodup_cons] at hn
    have hj : j ∉ acc := fun h => hd j h (by simp)
    rw [selectJs]
    by_cases h : j ∈ hs
    · rw [if_pos ⟨hj, h⟩, selectJs_eq hs L _ hn.2 ?_, List.map_cons, List.filter_cons, if_pos (by simpa using h)]
      · simp
      · intro i hi
        rcases List.mem_append.1 hi with hi | hi
        · exact fun h' => hd i hi (List.mem_cons.2 (Or.inr h'))
        · obtain rfl := List.mem_singleton.1 hi
          exact hn.1
    · rw [if_neg (fun h' => h h'.2), selectJs_eq hs L _ hn.2 (fun i hi h' => hd i hi (List.mem_cons.2 (Or.inr h'))), List.map_cons, List.filter_cons,
        if_neg (by simpa using h)]

/-- The harmonic of element `e` and its index there. -/
def locate (dimH : J → ℕ) : List J → ℕ → Option (J × ℕ)
  | [], _ => none
  | j :: L, e => if e < dimH j then some (j, e) else locate dimH L (e - dimH j)

theorem startLoop_keys (dimH : J → ℕ) : ∀ (L : List J) (p : ℕ), (startLoop dimH p L).map Prod.fst = L
  | [], _ => rfl
  | j :: L, p => by rw [startLoop, List.map_cons, startLoop_keys dimH L]

theorem locate_spec (dimH : J → ℕ) : ∀ (L : List J) (p e : ℕ), e < (L.map dimH).sum → ∃ j e', locate dimH L e = some (j, e') ∧ j ∈ L ∧ e' < dimH j ∧
    ∃ s, (j, s) ∈ startLoop dimH p L ∧ s + e' = p + e
  | [], _, e, h => by simp at h
  | j :: L, p, e, h => by
    rw [locate]
    by_cases hlt : e < dimH j
    · rw [if_pos hlt]
      exact ⟨j, e, rfl, by simp, hlt, p, by simp [startLoop], rfl⟩
    · rw [if_neg hlt]
      rw [List.map_cons, List.sum_cons] at h
      obtain ⟨j', e', h1, h2, h3, s, h4, h5⟩ := locate_spec dimH L (p + dimH j) (e - dimH j) (by omega)
      exact ⟨j', e', h1, by simp [h2], h3, s, by simp [startLoop, h4], by omega⟩

theorem locate_start (dimH : J → ℕ) : ∀ (L : List J) (p s e : ℕ) (J0 : J), L.Nodup → (J0, s) ∈ startLoop dimH p L → e < dimH J0 → p ≤ s ∧
    locate dimH L (s + e - p) = some (J0, e) ∧ s + e - p < (L.map dimH).sum
  | [], _, _, _, _, _, h, _ => by simp [startLoop] at h
  | j :: L, p, s, e, J0, hn, h, he => by
    rw [List.nodup_cons] at hn
    rw [startLoop, List.mem_cons] at h
    rw [locate, List.map_cons, List.sum_cons]
    rcases h with h | h
    · obtain ⟨rfl, rfl⟩ := Prod.mk.inj h
      rw [Nat.add_sub_cancel_left, if_pos he]
      exact ⟨le_rfl, rfl, by omega⟩
    · obtain ⟨h1, h2, h3⟩ := locate_start dimH L (p + dimH j) s e J0 hn.2 h he
      rw [if_neg (by omega), show s + e - p - dimH j = s + e - (p + dimH j) by omega]
      exact ⟨by omega, h2, by omega⟩

theorem sampleLoop_eq (b : IBasis J J' A) (d : List (J × (ℕ → ℕ → ℝ))) (Y : J → ℕ → ℕ → ℝ) : ∀ (L : List J), (∀ j ∈ L, dictGet d j = .ok (Y j)) →
    ∀ e j e', locate b.dimH L e = some (j, e') → sampleLoop b d e L = .ok (b.block j (Y j) e')
  | [], _, e, j, e', h => by simp [locate] at h
  | j0 :: L, hY, e, j, e', h => by
    rw [sampleLoop, hY j0 (by simp)]
    simp only [bind, Except.bind]
    rw [locate] at h
    by_cases hlt : e < b.dimH j0
    · rw [if_pos hlt] at h ⊢
      obtain ⟨rfl, rfl⟩ := Prod.mk.inj (Option.some.inj h)
      rfl
    · rw [if_neg hlt] at h ⊢
      exact sampleLoop_eq b d Y L (fun j hj => hY j (by simp [hj])) _ j e' h

end IBasis

/-- What `WignerEckartBasis` and `RestrictedWignerEckartBasis` provide: every element is a harmonic with steering coefficients. -/
structure IBasis.Good {G' : Type} (El : G' → Prop) (size : J → ℕ) (mat : J → G' → NpMat ℝ) (ρin ρout : G' → NpMat ℝ) (F : FBasis J P A) (b : IBasis J J' A) : Prop where
  nodup : b.js.Nodup
  mult : ∀ j ∈ b.js, 0 < F.mult j
  dim : b.dim = (b.js.map b.dimH).sum
  pos : 0 < b.dim
  out : ∀ j, j ∉ b.js → b.dimH j = 0
  coeff : ∀ j ∈ b.js, ∀ e < b.dimH j, ∃ C i, i < F.mult j ∧ (∀ Y p q, b.block j Y e p q = ∑ y ∈ Finset.range (size j), C p q y * Y i y) ∧
    ∀ g, El g → CoeffSteer (ρout g) (ρin g) (mat j g) C

/-- A good basis consists of steerable kernels. -/
theorem IBasis.Good.sample {G' : Type} {El : G' → Prop} {size : J → ℕ} {mat : J → G' → NpMat ℝ} {ρin ρout : G' → NpMat ℝ} {F : FBasis J P A} {b : IBasis J J' A}
    {act : G' → P → P} (hb : b.Good El size mat ρin ρout F) (hF : (F.js.map Prod.fst).Nodup) (hst : F.Steerable size mat El act)
    (hm : ∀ j ∈ b.js, ∀ g, El g → (mat j g).rows = size j ∧ (mat j g).cols = size j)
    (hin : ∀ g, El g → (ρin g).rows = b.cols ∧ (ρin g).cols = b.cols) (hout : ∀ g, El g → (ρout g).rows = b.rows ∧ (ρout g).cols = b.rows)
    {e : ℕ} (he : e < b.dim) : SteerableKernel El act ρin ρout fun x => b.sample size F x e := by
  rw [hb.dim] at he
  obtain ⟨j, e', hloc, hj, he', -⟩ := IBasis.locate_spec b.dimH b.js 0 e he
  obtain ⟨C, i, hi, hblk, hC⟩ := hb.coeff j hj e' he'
  have hmem : ∀ j ∈ b.js, ∃ k, F.js[k]? = some (j, F.mult j) := fun j hj => List.mem_iff_getElem?.1 (FBasis.mem_of_mult (hb.mult j hj))
  have hex : ∀ x, b.sample size F x e = .ok ⟨b.rows, b.cols, b.block j (((dictGet (F.asDict size x) j).toOption.getD fun _ _ => 0)) e'⟩ := by
    intro x
    have := IBasis.sampleLoop_eq b (F.asDict size x) (fun j => (dictGet (F.asDict size x) j).toOption.getD fun _ _ => 0) b.js (fun j hj => by
      obtain ⟨k, hk⟩ := hmem j hj
      rw [FBasis.asDict_get size hF hk]; rfl) e j e' hloc
    rw [IBasis.sample, this]; rfl
  obtain ⟨k, hk⟩ := hmem j hj
  intro x
  refine ⟨_, hex x, fun g hg => ⟨(hout g hg).1.symm, (hin g hg).1.symm, _, hex (act g x), ?_⟩⟩
  rw [FBasis.asDict_get size hF hk x, FBasis.asDict_get size hF hk (act g x)]
  refine ⟨(hout g hg).1.symm, (hin g hg).2.trans rfl, fun p q hp hq => ?_⟩
  change p < b.rows at hp
  change q < (ρin g).cols at hq
  have := hC g hg (fun c => F.sample x (((F.js.take k).map fun e => size e.1 * e.2).sum + (i * size j + c)))
    (fun c => F.sample (act g x) (((F.js.take k).map fun e => size e.1 * e.2).sum + (i * size j + c))) (fun c hc => by
      rw [(hm j hj g hg).1] at hc
      rw [(hm j hj g hg).2]
      exact hst g hg x k j _ hk i hi c hc) p (by rw [(hout g hg).1]; exact hp) q hq
  change ∑ q' ∈ Finset.range b.cols, b.block j _ e' p q' * (ρin g).get q' q = ∑ p' ∈ Finset.range (ρout g).cols, (ρout g).get p p' * b.block j _ e' p' q
  simp only [hblk]
  rw [(hin g hg).1, (hm j hj g hg).1] at this
  exact this

end

end Escnn
