import Verif.Lemmas.CompleteWE

/-!
# C69 — the kernel bases are complete
-/

namespace Escnn

open NpMat

/-- The number of functions of a filter basis. -/
def FBasis.total {J P A : Type} (size : J → ℕ) (F : FBasis J P A) : ℕ := (F.js.map fun e => size e.1 * e.2).sum

/-- The functions of the filter basis are linearly independent. -/
def FBasis.Independent {J P A : Type} (size : J → ℕ) (F : FBasis J P A) : Prop :=
  ∀ c : ℕ → ℝ, (∀ x, ∑ i ∈ Finset.range (F.total size), c i * F.sample x i = 0) → ∀ i < F.total size, c i = 0

/-- The kernel with the coefficients `c`. -/
def spanKernel {J P A : Type} (size : J → ℕ) (F : FBasis J P A) (rows cols : ℕ) (c : ℕ → ℕ → ℕ → ℝ) (x : P) : NpMat ℝ :=
  ⟨rows, cols, fun p q => ∑ i ∈ Finset.range (F.total size), c i p q * F.sample x i⟩

theorem locate_off {α : Type} (w : α → ℕ) : ∀ {L : List α} {k : ℕ} {r : α} {o : ℕ}, L[k]? = some r → o < w r → IBasis.locate w L (chanOffset w L k + o) = some (r, o)
  | [], k, r, o, h, _ => by simp at h
  | r0 :: L, 0, r, o, h, ho => by
    obtain rfl : r0 = r := by simpa using h
    rw [chanOffset_zero, zero_add, IBasis.locate, if_pos ho]
  | r0 :: L, k + 1, r, o, h, ho => by
    rw [chanOffset_cons_succ, IBasis.locate, if_neg (by omega), show w r0 + chanOffset w L k + o - w r0 = chanOffset w L k + o by omega]
    exact locate_off w (by simpa using h) ho

theorem sum_locate {α : Type} (w : α → ℕ) (g : Option (α × ℕ) → ℝ) : ∀ L : List α, ∑ e ∈ Finset.range (L.map w).sum, g (IBasis.locate w L e) = (L.map fun r => ∑ e ∈ Finset.range (w r), g (some (r, e))).sum
  | [] => rfl
  | r :: L => by
    rw [List.map_cons, List.sum_cons, Finset.sum_range_add, List.map_cons, List.sum_cons, ← sum_locate w g L]
    congr 1
    · exact Finset.sum_congr rfl fun e he => by rw [IBasis.locate, if_pos (Finset.mem_range.1 he)]
    · exact Finset.sum_congr rfl fun e _ => by rw [IBasis.locate, if_neg (by omega), Nat.add_sub_cancel_left]

theorem sum_range_getElem {α : Type} (g : α → ℝ) : ∀ (L : List α) (f : ℕ → ℝ), (∀ k e, L[k]? = some e → f k = g e) → ∑ k ∈ Finset.range L.length, f k = (L.map g).sum
  | [], _, _ => rfl
  | a :: L, f, h => by
    rw [List.length_cons, Finset.sum_range_succ', List.map_cons, List.sum_cons, add_comm, h 0 a (by simp), sum_range_getElem g L (fun k => f (k + 1)) fun k e hk => h (k + 1) e (by simpa using hk)]

theorem sum_map_single {α κ : Type} (key : α → κ) (f : α → ℝ) : ∀ {L : List α}, (L.map key).Nodup → ∀ {c0 : α}, c0 ∈ L → (∀ c ∈ L, key c ≠ key c0 → f c = 0) → (L.map f).sum = f c0
  | [], _, c0, h, _ => by simp at h
  | a :: L, hn, c0, h, hz => by
    rw [List.map_cons, List.nodup_cons] at hn
    rw [List.map_cons, List.sum_cons]
    rcases List.mem_cons.1 h with rfl | h
    · rw [List.sum_eq_zero, add_zero]
      intro v hv
      obtain ⟨c, hc, rfl⟩ := List.mem_map.1 hv
      exact hz c (List.mem_cons_of_mem _ hc) fun e => hn.1 (e ▸ List.mem_map.2 ⟨c, hc, rfl⟩)
    · rw [hz a (by simp) (fun e => hn.1 (e ▸ List.mem_map.2 ⟨c0, h, rfl⟩)), zero_add]
      exact sum_map_single key f hn.2 h fun c hc => hz c (List.mem_cons_of_mem _ hc)

variable {J J' P A G' : Type} [DecidableEq J] [DecidableEq J']

/-- A sum over all functions, harmonic by harmonic. -/
theorem FBasis.sum_total {size : J → ℕ} {F : FBasis J P A} (hF : (F.js.map Prod.fst).Nodup) (f : ℕ → ℝ) : ∑ i ∈ Finset.range (F.total size), f i =
    ((F.js.map Prod.fst).map fun j => ∑ t ∈ Finset.range (F.mult j), ∑ y ∈ Finset.range (size j), f (chanOffset (fun e => size e.1 * e.2) F.js ((F.js.map Prod.fst).idxOf j) + (t * size j + y))).sum := by
  have h := sum_range_fields (fun e : J × ℕ => size e.1 * e.2) f F.js 0
  simp only [zero_add] at h
  rw [FBasis.total, h, List.map_map]
  refine sum_range_getElem _ _ _ fun k e hk => ?_
  have hmem := List.mem_of_getElem? hk
  have h1 : (F.js.map Prod.fst)[k]? = some e.1 := by rw [List.getElem?_map, hk]; rfl
  have hidx : (F.js.map Prod.fst).idxOf e.1 = k := by
    obtain ⟨hlt, he⟩ := List.getElem?_eq_some_iff.1 h1
    rw [← he]
    exact hF.idxOf_getElem k hlt
  rw [Function.comp, hidx, FBasis.mult_of_mem hF (m := e.2) hmem]
  have h2 : (F.js.map fun e => size e.1 * e.2).getD k 0 = e.2 * size e.1 := by rw [List.getD_eq_getElem?_getD, List.getElem?_map, hk, Nat.mul_comm]; rfl
  rw [h2]
  have := sum_range_mul' e.2 (size e.1) (fun t y => f (chanOffset (fun e => size e.1 * e.2) F.js k + (t * size e.1 + y)))
  rw [← this]
  exact Finset.sum_congr rfl fun o _ => by rw [Nat.div_add_mod']

theorem FBasis.sum_total' {size : J → ℕ} {F : FBasis J P A} (hF : (F.js.map Prod.fst).Nodup) (f : ℕ → ℝ) : ∑ i ∈ Finset.range (F.total size), f i =
    ∑ j ∈ (F.js.map Prod.fst).toFinset, ∑ t ∈ Finset.range (F.mult j), ∑ y ∈ Finset.range (size j), f (chanOffset (fun e => size e.1 * e.2) F.js ((F.js.map Prod.fst).idxOf j) + (t * size j + y)) := by
  rw [FBasis.sum_total hF, List.sum_toFinset _ hF]

/-- The index of the function `y` of the copy `t` of the harmonic `j`. -/
def FBasis.index (size : J → ℕ) (F : FBasis J P A) (j : J) (t y : ℕ) : ℕ := chanOffset (fun e => size e.1 * e.2) F.js ((F.js.map Prod.fst).idxOf j) + (t * size j + y)

theorem FBasis.getElem_idxOf {F : FBasis J P A} {j : J} (h : 0 < F.mult j) (hF : (F.js.map Prod.fst).Nodup) : F.js[(F.js.map Prod.fst).idxOf j]? = some (j, F.mult j) := by
  have hm := FBasis.mem_of_mult h
  have hj : j ∈ F.js.map Prod.fst := List.mem_map.2 ⟨_, hm, rfl⟩
  have hlt := List.idxOf_lt_length_of_mem hj
  have hlt' : (F.js.map Prod.fst).idxOf j < F.js.length := by simpa using hlt
  have h1 : (F.js[(F.js.map Prod.fst).idxOf j]).1 = j := by
    have := List.getElem_idxOf hlt
    rwa [List.getElem_map] at this
  rw [List.getElem?_eq_getElem hlt']
  congr 1
  have h2 : F.js[(F.js.map Prod.fst).idxOf j] ∈ F.js := List.getElem_mem hlt'
  have h3 := FBasis.mult_of_mem hF (j := (F.js[(F.js.map Prod.fst).idxOf j]).1) (m := (F.js[(F.js.map Prod.fst).idxOf j]).2) h2
  rw [h1] at h3
  exact Prod.ext h1 h3.symm

theorem FBasis.index_lt {size : J → ℕ} {F : FBasis J P A} (hF : (F.js.map Prod.fst).Nodup) {j : J} {t y : ℕ} (ht : t < F.mult j) (hy : y < size j) : F.index size j t y < F.total size := by
  have := FBasis.getElem_idxOf (F := F) (j := j) (by omega) hF
  exact chanOffset_lt (sz := fun e : J × ℕ => size e.1 * e.2) this ((mul_add_lt ht hy).trans_eq (Nat.mul_comm _ _))

/-- The function which is `f j t y` at the index of `j`, `t`, `y`. -/
noncomputable def FBasis.decode (size : J → ℕ) (F : FBasis J P A) (f : J → ℕ → ℕ → ℝ) (i : ℕ) : ℝ :=
  match IBasis.locate (fun e : J × ℕ => size e.1 * e.2) F.js i with
  | some (e, o) => f e.1 (o / size e.1) (o % size e.1)
  | none => 0

theorem FBasis.decode_index {size : J → ℕ} {F : FBasis J P A} (hF : (F.js.map Prod.fst).Nodup) (f : J → ℕ → ℕ → ℝ) {j : J} {t y : ℕ} (ht : t < F.mult j) (hy : y < size j) :
    F.decode size f (F.index size j t y) = f j t y := by
  have := FBasis.getElem_idxOf (F := F) (j := j) (by omega) hF
  rw [FBasis.decode, FBasis.index, locate_off (fun e : J × ℕ => size e.1 * e.2) this ((mul_add_lt ht hy).trans_eq (Nat.mul_comm _ _))]
  simp only
  rw [mul_add_div' hy, mul_add_mod'' hy]

/-- The coefficients of a steerable kernel in the span of independent steerable functions are equivariant tensors. -/
theorem coeff_of_steerable {El : G' → Prop} {act : G' → P → P} {size : J → ℕ} {mat : J → G' → NpMat ℝ} {ρin ρout : G' → NpMat ℝ} {rows cols : ℕ} {F : FBasis J P A} (hF : (F.js.map Prod.fst).Nodup)
    (hst : F.Steerable size mat El act) (hind : F.Independent size) (hm : ∀ e ∈ F.js, ∀ g, El g → (mat e.1 g).rows = size e.1 ∧ (mat e.1 g).cols = size e.1)
    (hin : ∀ g, El g → (ρin g).rows = cols ∧ (ρin g).cols = cols) (hout : ∀ g, El g → (ρout g).rows = rows ∧ (ρout g).cols = rows) {c : ℕ → ℕ → ℕ → ℝ}
    (hκ : SteerableKernel El act ρin ρout fun x => .ok (spanKernel size F rows cols c x)) {j : J} {t : ℕ} (ht : t < F.mult j) {g : G'} (hg : El g) :
    CoeffSteer (ρout g) (ρin g) (mat j g) fun p q y => c (F.index size j t y) p q := by
  obtain ⟨hjr, hjc⟩ := hm _ (FBasis.mem_of_mult (j := j) (by omega)) g hg
  -- the equation for the basis vectors
  have key : ∀ p < rows, ∀ q < cols, ∀ y < size j, ∑ q' ∈ Finset.range cols, (∑ z ∈ Finset.range (size j), c (F.index size j t z) p q' * (mat j g).get z y) * (ρin g).get q' q =
      ∑ p' ∈ Finset.range rows, (ρout g).get p p' * c (F.index size j t y) p' q := by
    intro p hp q hq y hy
    have h0 := hind (fun i => F.decode size (fun j t y => ∑ q' ∈ Finset.range cols, (∑ z ∈ Finset.range (size j), c (F.index size j t z) p q' * (mat j g).get z y) * (ρin g).get q' q) i -
      ∑ p' ∈ Finset.range rows, (ρout g).get p p' * c i p' q) (fun x => ?_) (F.index size j t y) (FBasis.index_lt hF ht hy)
    · rw [FBasis.decode_index hF _ ht hy] at h0
      linarith
    · obtain ⟨k, hk, hx⟩ := hκ x
      obtain rfl := Except.ok.inj hk
      obtain ⟨-, -, k', hk', he⟩ := hx g hg
      obtain rfl := Except.ok.inj hk'
      have e1 := he.2.2 p q (by rw [mul_rows]; exact hp) (by rw [mul_cols, (hin g hg).2]; exact hq)
      simp only [mul, spanKernel] at e1
      rw [(hout g hg).2] at e1
      simp only [sub_mul, Finset.sum_sub_distrib]
      have e2 : ∑ i ∈ Finset.range (F.total size), (∑ p' ∈ Finset.range rows, (ρout g).get p p' * c i p' q) * F.sample x i =
          ∑ p' ∈ Finset.range rows, (ρout g).get p p' * ∑ i ∈ Finset.range (F.total size), c i p' q * F.sample x i := by
        simp only [Finset.sum_mul, Finset.mul_sum]
        rw [Finset.sum_comm]
        exact Finset.sum_congr rfl fun _ _ => Finset.sum_congr rfl fun _ _ => by ring
      rw [e2, ← e1]
      have e3 : ∑ q' ∈ Finset.range cols, (∑ i ∈ Finset.range (F.total size), c i p q' * F.sample (act g x) i) * (ρin g).get q' q =
          ∑ i ∈ Finset.range (F.total size), (∑ q' ∈ Finset.range cols, c i p q' * (ρin g).get q' q) * F.sample (act g x) i := by
        simp only [Finset.sum_mul]
        rw [Finset.sum_comm]
        exact Finset.sum_congr rfl fun _ _ => Finset.sum_congr rfl fun _ _ => by ring
      rw [e3, FBasis.sum_total' hF, FBasis.sum_total' hF, sub_eq_zero]
      refine Finset.sum_congr rfl fun j' hj' => Finset.sum_congr rfl fun t' ht' => ?_
      have ht' := Finset.mem_range.1 ht'
      have hk := FBasis.getElem_idxOf (F := F) (j := j') (by omega) hF
      have hl : ∀ y ∈ Finset.range (size j'), F.decode size (fun j t y => ∑ q' ∈ Finset.range cols, (∑ z ∈ Finset.range (size j), c (F.index size j t z) p q' * (mat j g).get z y) * (ρin g).get q' q)
          (chanOffset (fun e => size e.1 * e.2) F.js ((F.js.map Prod.fst).idxOf j') + (t' * size j' + y)) * F.sample x (chanOffset (fun e => size e.1 * e.2) F.js ((F.js.map Prod.fst).idxOf j') + (t' * size j' + y)) =
          (∑ q' ∈ Finset.range cols, (∑ z ∈ Finset.range (size j'), c (F.index size j' t' z) p q' * (mat j' g).get z y) * (ρin g).get q' q) * F.sample x (F.index size j' t' y) := fun y hy => by
        rw [← FBasis.index, FBasis.decode_index hF _ ht' (Finset.mem_range.1 hy)]
      have hr : ∀ z ∈ Finset.range (size j'), (∑ q' ∈ Finset.range cols, c (chanOffset (fun e => size e.1 * e.2) F.js ((F.js.map Prod.fst).idxOf j') + (t' * size j' + z)) p q' * (ρin g).get q' q) *
          F.sample (act g x) (chanOffset (fun e => size e.1 * e.2) F.js ((F.js.map Prod.fst).idxOf j') + (t' * size j' + z)) =
          (∑ q' ∈ Finset.range cols, c (F.index size j' t' z) p q' * (ρin g).get q' q) * ∑ y ∈ Finset.range (size j'), (mat j' g).get z y * F.sample x (F.index size j' t' y) := fun z hz => by
        have := hst g hg x _ j' _ hk t' ht' z (Finset.mem_range.1 hz)
        rw [← FBasis.index]
        congr 1
      rw [Finset.sum_congr rfl hl, Finset.sum_congr rfl hr]
      simp only [Finset.sum_mul, Finset.mul_sum]
      rw [Finset.sum_comm]
      have hc : ∀ q' ∈ Finset.range cols, ∑ y ∈ Finset.range (size j'), ∑ z ∈ Finset.range (size j'), c (F.index size j' t' z) p q' * (mat j' g).get z y * (ρin g).get q' q * F.sample x (F.index size j' t' y) =
          ∑ z ∈ Finset.range (size j'), ∑ y ∈ Finset.range (size j'), c (F.index size j' t' z) p q' * (ρin g).get q' q * ((mat j' g).get z y * F.sample x (F.index size j' t' y)) := fun q' _ => by
        rw [Finset.sum_comm]
        exact Finset.sum_congr rfl fun _ _ => Finset.sum_congr rfl fun _ _ => by ring
      rw [Finset.sum_congr rfl hc, Finset.sum_comm]
      refine Finset.sum_congr rfl fun z _ => ?_
      rw [Finset.sum_comm]
  intro v v' hv p hp q hq
  rw [(hout g hg).1] at hp
  rw [(hin g hg).2] at hq
  rw [(hin g hg).1, (hout g hg).2, hjr]
  rw [hjr, hjc] at hv
  have l : ∀ q', ∑ y ∈ Finset.range (size j), c (F.index size j t y) p q' * v' y = ∑ z ∈ Finset.range (size j), (∑ y ∈ Finset.range (size j), c (F.index size j t y) p q' * (mat j g).get y z) * v z := by
    intro q'
    simp only [Finset.sum_mul]
    rw [Finset.sum_comm]
    refine Finset.sum_congr rfl fun y hy => ?_
    rw [hv y (Finset.mem_range.1 hy), Finset.mul_sum]
    exact Finset.sum_congr rfl fun _ _ => by ring
  simp only [l]
  calc ∑ q' ∈ Finset.range cols, (∑ z ∈ Finset.range (size j), (∑ y ∈ Finset.range (size j), c (F.index size j t y) p q' * (mat j g).get y z) * v z) * (ρin g).get q' q
      = ∑ z ∈ Finset.range (size j), (∑ q' ∈ Finset.range cols, (∑ y ∈ Finset.range (size j), c (F.index size j t y) p q' * (mat j g).get y z) * (ρin g).get q' q) * v z := by
        simp only [Finset.sum_mul]
        rw [Finset.sum_comm]
        refine Finset.sum_congr rfl fun _ _ => Finset.sum_congr rfl fun _ _ => Finset.sum_congr rfl fun _ _ => by ring
    _ = ∑ z ∈ Finset.range (size j), (∑ p' ∈ Finset.range rows, (ρout g).get p p' * c (F.index size j t z) p' q) * v z := Finset.sum_congr rfl fun z hz => by rw [key p hp q hq z (Finset.mem_range.1 hz)]
    _ = _ := by
        simp only [Finset.sum_mul, Finset.mul_sum]
        rw [Finset.sum_comm]
        exact Finset.sum_congr rfl fun _ _ => Finset.sum_congr rfl fun _ _ => by ring

/-- The kernel at a point, for given values of the angular functions. -/
def vecMat (rows cols d : ℕ) (a : ℕ → ℕ → ℕ → ℝ) (v : ℕ → ℝ) : NpMat ℝ := ⟨rows, cols, fun p q => ∑ y ∈ Finset.range d, a p q y * v y⟩

/-- The coefficients in the bases of the irreps. -/
def conjCoeff (Binv Ain : NpMat ℝ) (rows cols : ℕ) (a : ℕ → ℕ → ℝ) (p q : ℕ) : ℝ := (mul (mul Binv ⟨rows, cols, a⟩) Ain).get p q

theorem conj_sum {ι : Type} (S : Finset ι) (Binv Ain : NpMat ℝ) (rows cols : ℕ) (a : ι → ℕ → ℕ → ℝ) (v : ι → ℝ) (p q : ℕ) :
    ∑ i ∈ S, conjCoeff Binv Ain rows cols (a i) p q * v i = (mul (mul Binv ⟨rows, cols, fun p q => ∑ i ∈ S, a i p q * v i⟩) Ain).get p q := by
  simp only [conjCoeff, mul, Finset.sum_mul, Finset.mul_sum]
  rw [Finset.sum_comm]
  refine Finset.sum_congr rfl fun q' _ => ?_
  rw [Finset.sum_comm]
  exact Finset.sum_congr rfl fun p' _ => Finset.sum_congr rfl fun i _ => by ring

namespace SKB

variable {El : G' → Prop} {op : G' → G' → G'} {one : G'} {T : IrrepTable G' J'} {Fsize : J → ℕ} {mat : J → G' → NpMat ℝ} {F : FBasis J P A} {gen : J' → J' → Except Err (IBasis J J' A)}
  {rin rout : Rep G' J'} {triv : J}

theorem rep_cob {r : Rep G' J'} (hT : T.Valid El op one) (hr : r.WF T El) {g : G'} (hg : El g) :
    mul (r.mat g) r.cob ≈ mul r.cob (blockDiag (r.irreps.map fun i => T.mat i g)) ∧ mul r.cobInv (r.mat g) ≈ mul (blockDiag (r.irreps.map fun i => T.mat i g)) r.cobInv := by
  set D := blockDiag (r.irreps.map fun i => T.mat i g) with hD
  have hDr : D.rows = r.size := (irrepsBlock_rows hT hr.ok hg).trans hr.size
  have hDc : D.cols = r.size := (irrepsBlock_cols hT hr.ok hg).trans hr.size
  have i1 : mul r.cobInv r.cob ≈ eye r.size := hr.inv.2.2.2.2
  constructor
  · refine (mul_congr_left _ (hr.mat g hg) (by rw [hr.cols hg, hr.cob_rows])).trans ((mul_assoc' _ _ _).trans ?_)
    exact (mul_congr_right _ i1 (by rw [mul_cols, hDc, mul_rows, hr.inv_rows])).trans (mul_eye' _ (by rw [mul_cols, hDc]))
  · refine (mul_congr_right _ (hr.mat g hg) (by rw [hr.inv_cols, hr.rows hg])).trans ((mul_assoc' _ _ _).symm.trans (mul_congr_left _ ?_ (by rw [mul_cols, mul_cols, hDc, hr.inv_rows])))
    exact (mul_assoc' _ _ _).symm.trans ((mul_congr_left D i1 (by rw [mul_cols, hr.cob_cols, hDr])).trans (eye_mul' D hDr))

/-- The blocks of the coefficients in the bases of the irreps are equivariant. -/
theorem block_steer (hT : T.Valid El op one) (hin : rin.WF T El) (hout : rout.WF T El) {R : NpMat ℝ} {g : G'} (hg : El g) {a : ℕ → ℕ → ℕ → ℝ} (ha : CoeffSteer (rout.mat g) (rin.mat g) R a)
    {k l : ℕ} {i o : J'} (hi : rin.irreps[k]? = some i) (ho : rout.irreps[l]? = some o) :
    CoeffSteer (T.mat o g) (T.mat i g) R fun p q y => conjCoeff rout.cobInv rin.cob rout.size rin.size (fun p q => a p q y) (chanOffset T.size rout.irreps l + p) (chanOffset T.size rin.irreps k + q) := by
  intro v v' hv p hp q hq
  have hiok : T.ok i = true := hin.ok i (List.mem_of_getElem? hi)
  have hook : T.ok o = true := hout.ok o (List.mem_of_getElem? ho)
  rw [(hT o hook).rows g hg] at hp
  rw [(hT i hiok).cols g hg] at hq
  rw [(hT i hiok).rows g hg, (hT o hook).cols g hg]
  simp only [conj_sum (Finset.range R.rows) rout.cobInv rin.cob rout.size rin.size (fun y p q => a p q y)]
  set K := vecMat rout.size rin.size R.rows a v with hK
  set K' := vecMat rout.size rin.size R.rows a v' with hK'
  set Di := blockDiag (rin.irreps.map fun i => T.mat i g) with hDi
  set Do := blockDiag (rout.irreps.map fun i => T.mat i g) with hDo
  have hDir : Di.rows = rin.size := (irrepsBlock_rows hT hin.ok hg).trans hin.size
  have hDoc : Do.cols = rout.size := (irrepsBlock_cols hT hout.ok hg).trans hout.size
  have hDic : Di.cols = rin.size := (irrepsBlock_cols hT hin.ok hg).trans hin.size
  have hDor : Do.rows = rout.size := (irrepsBlock_rows hT hout.ok hg).trans hout.size
  have h1 : mul K' (rin.mat g) ≈ mul (rout.mat g) K := by
    refine ⟨(hout.rows hg).symm, by rw [mul_cols, mul_cols, hin.cols hg]; rfl, fun p q hp hq => ?_⟩
    have := ha v v' hv p (by rw [hout.rows hg]; exact hp) q hq
    rw [hin.rows hg] at this
    exact this
  have h2 : mul (mul (mul rout.cobInv K') rin.cob) Di ≈ mul Do (mul (mul rout.cobInv K) rin.cob) := by
    have a1 : mul (mul (mul rout.cobInv K') rin.cob) Di ≈ mul (mul rout.cobInv (mul K' (rin.mat g))) rin.cob := by
      refine (mul_assoc' _ _ _).trans ((mul_congr_right _ (rep_cob hT hin hg).1.symm ?_).trans ?_)
      · rw [mul_cols, mul_rows, hin.cob_rows]; rfl
      · exact (mul_assoc' _ _ _).symm.trans (mul_congr_left _ (mul_assoc' _ _ _) (by rw [mul_cols, hin.cols hg, hin.cob_rows]))
    have a2 : mul Do (mul (mul rout.cobInv K) rin.cob) ≈ mul (mul rout.cobInv (mul (rout.mat g) K)) rin.cob := by
      refine (mul_assoc' _ _ _).symm.trans (mul_congr_left _ ?_ (by rw [mul_cols, mul_cols, hin.cob_rows]; rfl))
      refine (mul_assoc' _ _ _).symm.trans ((mul_congr_left _ (rep_cob hT hout hg).2.symm ?_).trans (mul_assoc' _ _ _))
      rw [mul_cols, hout.inv_cols]; rfl
    refine a1.trans (Eqv.trans ?_ a2.symm)
    exact mul_congr_left _ (mul_congr_right _ h1 (by rw [mul_rows, hout.inv_cols]; rfl)) (by rw [mul_cols, mul_cols, hin.cols hg, hin.cob_rows])
  have hL : ∀ r ∈ rin.irreps, (T.mat r g).rows = T.size r ∧ (T.mat r g).cols = T.size r := fun r hr => ⟨(hT r (hin.ok r hr)).rows g hg, (hT r (hin.ok r hr)).cols g hg⟩
  have hM : ∀ r ∈ rout.irreps, (T.mat r g).rows = T.size r ∧ (T.mat r g).cols = T.size r := fun r hr => ⟨(hT r (hout.ok r hr)).rows g hg, (hT r (hout.ok r hr)).cols g hg⟩
  have h3 := h2.2.2 (chanOffset T.size rout.irreps l + p) (chanOffset T.size rin.irreps k + q) (by rw [mul_rows, mul_rows, mul_rows, hout.inv_rows, ← hout.size]; exact chanOffset_lt ho hp)
    (by rw [mul_cols, hDic, ← hin.size]; exact chanOffset_lt hi hq)
  have h4 : ∑ x ∈ Finset.range (rin.irreps.map T.size).sum, (mul (mul rout.cobInv K') rin.cob).get (chanOffset T.size rout.irreps l + p) x * Di.get x (chanOffset T.size rin.irreps k + q) =
      ∑ x ∈ Finset.range (rout.irreps.map T.size).sum, Do.get (chanOffset T.size rout.irreps l + p) x * (mul (mul rout.cobInv K) rin.cob).get x (chanOffset T.size rin.irreps k + q) := by
    rw [hin.size, hout.size, ← hin.cob_cols, ← hDoc]
    exact h3
  rw [hDi, hDo, blockDiag_col hL hi hq, blockDiag_row hM ho hp (fun x => (mul (mul rout.cobInv K) rin.cob).get x (chanOffset T.size rin.irreps k + q))] at h4
  exact h4

/-- The kernel basis of two representations is complete if those of the irreps are. -/
theorem complete (hT : T.Valid El op one) (hin : rin.WF T El) (hout : rout.WF T El)
    (hgen : ∀ i ∈ rin.irreps, ∀ o ∈ rout.irreps, GenGood El Fsize mat T F i o (gen i o)) (hcomp : ∀ i ∈ rin.irreps, ∀ o ∈ rout.irreps, GenComplete El Fsize mat T F i o (gen i o))
    (hF : (F.js.map Prod.fst).Nodup) {c : ℕ → ℕ → ℕ → ℝ} (hc : ∀ j t, t < F.mult j → ∀ g, El g → CoeffSteer (rout.mat g) (rin.mat g) (mat j g) fun p q y => c (F.index Fsize j t y) p q) :
    (init T.size triv F gen rin rout = .error .emptyBasis → ∀ x, spanKernel Fsize F rout.size rin.size c x ≈ zeros rout.size rin.size) ∧
    ∀ s, init T.size triv F gen rin rout = .ok s → ∃ w : ℕ → ℝ, ∀ x, ∃ K : ℕ → NpMat ℝ, (∀ e < s.dim, sample Fsize F s x e = .ok (K e)) ∧
      ∀ p < rout.size, ∀ q < rin.size, (spanKernel Fsize F rout.size rin.size c x).get p q = ∑ e ∈ Finset.range s.dim, w e * (K e).get p q := by
  -- the coefficients in the bases of the irreps
  set c' : ℕ → ℕ → ℕ → ℝ := fun i => conjCoeff rout.cobInv rin.cob rout.size rin.size (c i) with hc'
  have hblk : ∀ (k l : ℕ) (i o : J'), rin.irreps[k]? = some i → rout.irreps[l]? = some o → ∀ j t, t < F.mult j → ∀ g, El g → CoeffSteer (T.mat o g) (T.mat i g) (mat j g)
      (fun p q y => c' (F.index Fsize j t y) (chanOffset T.size rout.irreps l + p) (chanOffset T.size rin.irreps k + q)) := fun k l i o hi ho j t ht g hg =>
    block_steer hT hin hout hg (hc j t ht g hg) hi ho
  have hback : ∀ x, spanKernel Fsize F rout.size rin.size c x ≈ mul (mul rout.cob (spanKernel Fsize F rout.size rin.size c' x)) rin.cobInv := by
    intro x
    have e1 : spanKernel Fsize F rout.size rin.size c' x ≈ mul (mul rout.cobInv (spanKernel Fsize F rout.size rin.size c x)) rin.cob :=
      ⟨hout.inv_rows.symm, hin.cob_cols.symm, fun p q _ _ => conj_sum (Finset.range (F.total Fsize)) rout.cobInv rin.cob rout.size rin.size c (F.sample x) p q⟩
    refine Eqv.symm ((mul_congr_left _ (mul_congr_right _ e1 (by rw [hout.cob_cols]; rfl)) (by rw [mul_cols, hin.inv_rows]; rfl)).trans ?_)
    have i1 : mul rin.cob rin.cobInv ≈ eye rin.size := hin.inv.2.2.2.1
    have i2 : mul rout.cob rout.cobInv ≈ eye rout.size := hout.inv.2.2.2.1
    have e2 : mul rout.cob (mul (mul rout.cobInv (spanKernel Fsize F rout.size rin.size c x)) rin.cob) ≈ mul (spanKernel Fsize F rout.size rin.size c x) rin.cob := by
      refine (mul_assoc' _ _ _).symm.trans (mul_congr_left _ ?_ (by rw [mul_cols, mul_cols, hin.cob_rows]; rfl))
      exact (mul_assoc' _ _ _).symm.trans ((mul_congr_left _ i2 (by rw [mul_cols, hout.inv_cols]; rfl)).trans (eye_mul' _ rfl))
    refine (mul_congr_left _ e2 (by rw [mul_cols, mul_cols, hin.cob_cols, hin.inv_rows])).trans ((mul_assoc' _ _ _).trans ?_)
    exact (mul_congr_right _ i1 (by rw [mul_rows, hin.cob_rows]; rfl)).trans (mul_eye' _ rfl)
  rcases init_spec (triv := triv) hgen hF with ⟨hem, hall⟩ | ⟨s, hs, -, hrows, hcols, hAi, hB, -, hdim, hsnd, hdH, hsl, hsjs, -, hcnd, hex, hcell⟩
  · refine ⟨fun _ x => ?_, fun s hs => by rw [hem] at hs; simp at hs⟩
    have hz : spanKernel Fsize F rout.size rin.size c' x ≈ zeros rout.size rin.size := by
      refine ⟨rfl, rfl, fun p q hp hq => ?_⟩
      change p < rout.size at hp
      change q < rin.size at hq
      rw [← hout.size] at hp
      rw [← hin.size] at hq
      obtain ⟨l, o, p', hl, hp', rfl⟩ := exists_field hp
      obtain ⟨k, i, q', hk, hq', rfl⟩ := exists_field hq
      change ∑ i ∈ Finset.range (F.total Fsize), c' i _ _ * F.sample x i = 0
      rw [FBasis.sum_total' hF]
      refine Finset.sum_eq_zero fun j _ => Finset.sum_eq_zero fun t ht => Finset.sum_eq_zero fun y hy => ?_
      have := ((hcomp i (List.mem_of_getElem? hk) o (List.mem_of_getElem? hl)) _ (hblk k l i o hk hl)).1 (hall i (List.mem_of_getElem? hk) o (List.mem_of_getElem? hl)) j t (Finset.mem_range.1 ht) p' hp' q' hq' y (Finset.mem_range.1 hy)
      rw [← FBasis.index, this, zero_mul]
    refine (hback x).trans ?_
    refine ⟨rfl, hin.inv_cols, fun p q hp hq => ?_⟩
    change ∑ q' ∈ Finset.range rin.size, (∑ p' ∈ Finset.range rout.cob.cols, rout.cob.get p p' * (spanKernel Fsize F rout.size rin.size c' x).get p' q') * rin.cobInv.get q' q = 0
    refine Finset.sum_eq_zero fun q' hq' => ?_
    rw [Finset.sum_eq_zero, zero_mul]
    intro p' hp'
    rw [hout.cob_cols] at hp'
    have : (spanKernel Fsize F rout.size rin.size c' x).get p' q' = 0 := hz.2.2 p' q' (Finset.mem_range.1 hp') (Finset.mem_range.1 hq')
    rw [this, mul_zero]
  · refine ⟨fun h => by rw [h] at hs; simp at hs, fun s' hs' => ?_⟩
    obtain rfl : s = s' := Except.ok.inj (hs.symm.trans hs')
    have hw : ∀ k l : ℕ, ∃ w : J → ℕ → ℝ, ∀ i o b, rin.irreps[k]? = some i → rout.irreps[l]? = some o → gen i o = .ok b → ∀ j (Y : ℕ → ℕ → ℝ), ∀ p < T.size o, ∀ q < T.size i,
        ∑ t ∈ Finset.range (F.mult j), ∑ y ∈ Finset.range (Fsize j), c' (F.index Fsize j t y) (chanOffset T.size rout.irreps l + p) (chanOffset T.size rin.irreps k + q) * Y t y =
          ∑ e ∈ Finset.range (b.dimH j), w j e * b.block j Y e p q := by
      intro k l
      by_cases h : ∃ i o b, rin.irreps[k]? = some i ∧ rout.irreps[l]? = some o ∧ gen i o = .ok b
      · obtain ⟨i, o, b, hi, ho, hb⟩ := h
        obtain ⟨w, hw⟩ := (hcomp i (List.mem_of_getElem? hi) o (List.mem_of_getElem? ho) _ (hblk k l i o hi ho)).2 b hb
        refine ⟨w, fun i' o' b' hi' ho' hb' => ?_⟩
        obtain rfl : i = i' := Option.some.inj (hi.symm.trans hi')
        obtain rfl : o = o' := Option.some.inj (ho.symm.trans ho')
        obtain rfl : b = b' := Except.ok.inj (hb.symm.trans hb')
        exact hw
      · exact ⟨fun _ _ => 0, fun i o b hi ho hb => absurd ⟨i, o, b, hi, ho, hb⟩ h⟩
    choose wc hwc using hw
    -- the kernel in the bases of the irreps, cell by cell
    have hcells : ∀ (Y : J → ℕ → ℕ → ℝ), ∀ P < rout.size, ∀ Q < rin.size,
        ∑ j ∈ (F.js.map Prod.fst).toFinset, ∑ t ∈ Finset.range (F.mult j), ∑ y ∈ Finset.range (Fsize j), c' (F.index Fsize j t y) P Q * Y j t y =
        (s.js.map fun j => (s.cells.map fun d => ∑ b ∈ Finset.range (cw j d), wc d.ii d.oo j b * (placed d rout.size rin.size (d.basis.block j (Y j) b)).get P Q).sum).sum := by
      intro Y P hP Q hQ
      rw [← hout.size] at hP
      rw [← hin.size] at hQ
      obtain ⟨l, o, p, hl, hp, rfl⟩ := exists_field hP
      obtain ⟨k, i, q, hk, hq, rfl⟩ := exists_field hQ
      have him := List.mem_of_getElem? hk
      have hom := List.mem_of_getElem? hl
      -- the cells which do not contain the entry
      have hzero : ∀ d ∈ s.cells, ∀ f : ℕ → ℕ → ℝ, (d.ii, d.oo) ≠ (k, l) → (placed d rout.size rin.size f).get (chanOffset T.size rout.irreps l + p) (chanOffset T.size rin.irreps k + q) = 0 := by
        intro d hd f hne
        obtain ⟨i', o', e1, e2, -, e4, e5, e6, e7, -⟩ := hcell d hd
        simp only [placed]
        rw [if_neg]
        rintro ⟨⟨g1, g2⟩, g3, g4⟩
        refine hne (Prod.ext ?_ ?_)
        · have := (TensorRep.chanOffset_inj (sz := T.size) e1 hk (o := chanOffset T.size rin.irreps k + q - d.iPos) (o' := q) (by omega) hq (by omega)).1
          exact this
        · have := (TensorRep.chanOffset_inj (sz := T.size) e2 hl (o := chanOffset T.size rout.irreps l + p - d.oPos) (o' := p) (by omega) hp (by omega)).1
          exact this
      rcases hgen i him o hom with hempty | ⟨b, hb, -⟩
      · -- no basis: all coefficients vanish
        have hl0 : ∑ j ∈ (F.js.map Prod.fst).toFinset, ∑ t ∈ Finset.range (F.mult j), ∑ y ∈ Finset.range (Fsize j),
            c' (F.index Fsize j t y) (chanOffset T.size rout.irreps l + p) (chanOffset T.size rin.irreps k + q) * Y j t y = 0 :=
          Finset.sum_eq_zero fun j _ => Finset.sum_eq_zero fun t ht => Finset.sum_eq_zero fun y hy => by
            have := ((hcomp i him o hom) _ (hblk k l i o hk hl)).1 hempty j t (Finset.mem_range.1 ht) p hp q hq y (Finset.mem_range.1 hy)
            rw [this, zero_mul]
        rw [hl0]
        symm
        refine List.sum_eq_zero fun v hv => ?_
        obtain ⟨j, -, rfl⟩ := List.mem_map.1 hv
        refine List.sum_eq_zero fun v hv => ?_
        obtain ⟨d, hd, rfl⟩ := List.mem_map.1 hv
        refine Finset.sum_eq_zero fun b _ => ?_
        rw [hzero d hd _ ?_, mul_zero]
        intro hkey
        obtain ⟨h1, h2⟩ := Prod.mk.inj hkey
        obtain ⟨i', o', e1, e2, e3, -⟩ := hcell d hd
        rw [h1, hk] at e1
        rw [h2, hl] at e2
        rw [← Option.some.inj e1, ← Option.some.inj e2, hempty] at e3
        simp at e3
      · obtain ⟨d0, hd0, hii, hoo⟩ := hex k i l o b hk hl hb
        obtain ⟨i', o', e1, e2, e3, e4, e5, e6, e7, -, -, hsub, hG⟩ := hcell d0 hd0
        have hii' : i' = i := by rw [hii, hk] at e1; exact (Option.some.inj e1).symm
        have hoo' : o' = o := by rw [hoo, hl] at e2; exact (Option.some.inj e2).symm
        subst hii' hoo'
        have hbb : b = d0.basis := Except.ok.inj (hb.symm.trans e3)
        subst hbb
        have hinner : ∀ j, (s.cells.map fun d => ∑ b ∈ Finset.range (cw j d), wc d.ii d.oo j b *
            (placed d rout.size rin.size (d.basis.block j (Y j) b)).get (chanOffset T.size rout.irreps l + p) (chanOffset T.size rin.irreps k + q)).sum =
            ∑ t ∈ Finset.range (F.mult j), ∑ y ∈ Finset.range (Fsize j), c' (F.index Fsize j t y) (chanOffset T.size rout.irreps l + p) (chanOffset T.size rin.irreps k + q) * Y j t y := by
          intro j
          rw [sum_map_single (fun d : Cell J J' A => (d.ii, d.oo)) _ hcnd hd0 fun d hd hne => Finset.sum_eq_zero fun b _ => by
            rw [hzero d hd _ (by rw [hii, hoo] at hne; exact hne), mul_zero]]
          rw [hwc k l _ _ _ hk hl e3 j (Y j) p hp q hq]
          have hcw : cw j d0 = d0.basis.dimH j := by
            rw [cw]
            split_ifs with h
            · rfl
            · exact (hG.out j h).symm
          rw [hcw]
          refine Finset.sum_congr rfl fun b _ => ?_
          rw [hii] at e6
          rw [hoo] at e7
          rw [hii, hoo]
          congr 1
          simp only [placed]
          rw [if_pos ⟨⟨by omega, by omega⟩, by omega, by omega⟩]
          congr 1 <;> omega
        rw [show (fun j => (s.cells.map fun d => ∑ b ∈ Finset.range (cw j d), wc d.ii d.oo j b *
            (placed d rout.size rin.size (d.basis.block j (Y j) b)).get (chanOffset T.size rout.irreps l + p) (chanOffset T.size rin.irreps k + q)).sum) = _ from funext hinner]
        rw [← List.sum_toFinset _ hsnd]
        symm
        refine Finset.sum_subset (fun j hj => ?_) fun j _ hj => ?_
        · rw [List.mem_toFinset] at hj ⊢
          obtain ⟨d, hd, hjd⟩ := (hsjs j).1 hj
          obtain ⟨_, _, -, -, -, -, -, -, -, -, -, hsub, -⟩ := hcell d hd
          exact hsub j hjd
        · rw [List.mem_toFinset] at hj
          rw [hwc k l _ _ _ hk hl e3 j (Y j) p hp q hq, hG.out j fun h => hj ((hsjs j).2 ⟨d0, hd0, h⟩), Finset.sum_range_zero]
    -- the weights
    set W : Option (J × ℕ) → ℝ := fun r => match r with
      | some (j, b) => (match IBasis.locate (cw j) s.cells b with
        | some (d, b') => wc d.ii d.oo j b'
        | none => 0)
      | none => 0 with hW
    refine ⟨fun e => W (IBasis.locate s.dimH s.js e), fun x => ?_⟩
    have hsp : ∀ e, ∃ M K : NpMat ℝ, e < s.dim → M.rows = rout.size ∧ M.cols = rin.size ∧ sample Fsize F s x e = .ok K ∧ K ≈ mul (mul rout.cob M) rin.cobInv ∧
        ∃ j b d b', IBasis.locate s.dimH s.js e = some (j, b) ∧ IBasis.locate (cw j) s.cells b = some (d, b') ∧
          M = placed d rout.size rin.size (d.basis.block j (fun t y => F.sample x (F.index Fsize j t y)) b') := by
      intro e
      by_cases he : e < s.dim
      · obtain ⟨j, b, d, b', h1, h2, hd, hj, -, -, hx⟩ := sample_spec (Fsize := Fsize) hF hdim hdH hsl (fun c hc => by
          obtain ⟨i', o', -, -, -, -, -, -, -, -, -, -, hG⟩ := hcell c hc
          exact ⟨hG.nodup, hG.mult⟩) he
        obtain ⟨i', o', -, -, -, -, -, -, -, -, -, -, hG⟩ := hcell d hd
        obtain ⟨Y, hY, hsx⟩ := hx x
        rw [FBasis.asDict_get Fsize hF (FBasis.getElem_idxOf (hG.mult j hj) hF)] at hY
        obtain rfl := Except.ok.inj hY
        rw [hAi, hB, hrows, hcols] at hsx
        refine ⟨placed d rout.size rin.size (d.basis.block j (fun t y => F.sample x (F.index Fsize j t y)) b'), _, fun _ => ⟨rfl, rfl, hsx, ?_, j, b, d, b', h1, h2, rfl⟩⟩
        exact cobApply_eqv (Ainv := rin.cobInv) (B := rout.cob) (by rw [hout.cob_cols, hout.cob_rows]) (by rw [hin.inv_rows, hin.inv_cols]) (by rw [hout.cob_cols]; rfl) (by rw [hin.inv_rows]; rfl)
      · exact ⟨zeros 0 0, zeros 0 0, fun h => absurd h he⟩
    choose M K hMK using hsp
    refine ⟨K, fun e he => (hMK e he).2.2.1, fun p hp q hq => ?_⟩
    -- the combination of the elements in the bases of the irreps
    have hmain : ∀ P < rout.size, ∀ Q < rin.size, (spanKernel Fsize F rout.size rin.size c' x).get P Q = ∑ e ∈ Finset.range s.dim, W (IBasis.locate s.dimH s.js e) * (M e).get P Q := by
      intro P hP Q hQ
      change ∑ i ∈ Finset.range (F.total Fsize), c' i P Q * F.sample x i = _
      rw [FBasis.sum_total' hF]
      have := hcells (fun j t y => F.sample x (F.index Fsize j t y)) P hP Q hQ
      refine this.trans ?_
      set V : Option (J × ℕ) → ℝ := fun r => match r with
        | some (j, b) => (match IBasis.locate (cw j) s.cells b with
          | some (d, b') => wc d.ii d.oo j b' * (placed d rout.size rin.size (d.basis.block j (fun t y => F.sample x (F.index Fsize j t y)) b')).get P Q
          | none => 0)
        | none => 0 with hV
      have h1 : ∀ e ∈ Finset.range s.dim, W (IBasis.locate s.dimH s.js e) * (M e).get P Q = V (IBasis.locate s.dimH s.js e) := by
        intro e he
        obtain ⟨-, -, -, -, j, b, d, b', e1, e2, e3⟩ := hMK e (Finset.mem_range.1 he)
        simp only [hW, hV, e1, e2, e3]
      rw [Finset.sum_congr rfl h1, hdim, sum_locate s.dimH V]
      congr 1
      refine List.map_congr_left fun j _ => ?_
      rw [hdH, dimHarm]
      have := sum_locate (cw j) (fun r => match r with
          | some (d, b') => wc d.ii d.oo j b' * (placed d rout.size rin.size (d.basis.block j (fun t y => F.sample x (F.index Fsize j t y)) b')).get P Q
          | none => 0) s.cells
      exact this.symm
    have hfin := (hback x).2.2 p q hp hq
    rw [hfin]
    have hr : ∀ e ∈ Finset.range s.dim, W (IBasis.locate s.dimH s.js e) * (K e).get p q =
        ∑ q' ∈ Finset.range rin.size, ∑ p' ∈ Finset.range rout.size, rout.cob.get p p' * rin.cobInv.get q' q * (W (IBasis.locate s.dimH s.js e) * (M e).get p' q') := by
      intro e he
      obtain ⟨m1, m2, -, m3, -⟩ := hMK e (Finset.mem_range.1 he)
      rw [m3.2.2 p q (by rw [m3.1]; exact hp) (by rw [m3.2.1, mul_cols, hin.inv_cols]; exact hq)]
      simp only [mul]
      rw [m2, hout.cob_cols, Finset.mul_sum]
      refine Finset.sum_congr rfl fun q' _ => ?_
      rw [Finset.sum_mul, Finset.mul_sum]
      exact Finset.sum_congr rfl fun p' _ => by ring
    rw [Finset.sum_congr rfl hr, Finset.sum_comm]
    change ∑ q' ∈ Finset.range rin.size, (∑ p' ∈ Finset.range rout.cob.cols, rout.cob.get p p' * (spanKernel Fsize F rout.size rin.size c' x).get p' q') * rin.cobInv.get q' q = _
    rw [hout.cob_cols]
    refine Finset.sum_congr rfl fun q' hq' => ?_
    rw [Finset.sum_comm, Finset.sum_mul]
    refine Finset.sum_congr rfl fun p' hp' => ?_
    rw [hmain p' (Finset.mem_range.1 hp') q' (Finset.mem_range.1 hq'), ← Finset.mul_sum]
    ring

end SKB

end Escnn
