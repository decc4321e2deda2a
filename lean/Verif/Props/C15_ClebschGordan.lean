import Verif.Spec.CG
import Verif.Lemmas.Trig
import Verif.Props.C12_RestrictIrrep

/-!
# C15 — Clebsch–Gordan coefficients of SO(2) and C_N
-/

namespace Escnn

open Real NpMat

theorem Intertwines.congr {A A' B B' C C' : NpMat ℝ} {cg : CGArray} (h : Intertwines A B C cg) (hA : A ≈ A') (hB : B ≈ B')
    (hC : C ≈ C') (hs : C.rows = C.cols) : Intertwines A' B' C' cg := by
  intro a b s c ha hb hs' hc
  obtain ⟨a1, a2, a3⟩ := hA
  obtain ⟨b1, b2, b3⟩ := hB
  obtain ⟨c1, c2, c3⟩ := hC
  have := h a b s c (a1 ▸ ha) (b1 ▸ hb) hs' (c1 ▸ hc)
  rw [← a2, ← b2, ← c1]
  calc _ = ∑ a' ∈ Finset.range A.cols, ∑ b' ∈ Finset.range B.cols, A.get a a' * B.get b b' * cg.get a' b' s c := by
        refine Finset.sum_congr rfl fun a' ha' => Finset.sum_congr rfl fun b' hb' => ?_
        rw [a3 a a' (a1 ▸ ha) (Finset.mem_range.1 ha'), b3 b b' (b1 ▸ hb) (Finset.mem_range.1 hb')]
    _ = _ := this
    _ = _ := Finset.sum_congr rfl fun c' hc' => by
        rw [c3 c' c (Finset.mem_range.1 hc') (by rw [← hs, c1]; exact hc)]

theorem intertwines_empty (A B C : NpMat ℝ) : Intertwines A B C emptyCG := fun _ _ _ _ _ _ h => absurd h (Nat.not_lt_zero _)

/-- `1 / √2`. -/
noncomputable irreducible_def rs2 : ℝ := 1 / √2

theorem rs2_sq : rs2 * rs2 = 1 / 2 := by
  rw [rs2, div_mul_div_comm, Real.mul_self_sqrt (by norm_num)]; norm_num

@[simp] theorem cgTab_00 : cgTab 0 0 = rs2 := by simp [cgTab, rs2, neg_div]
@[simp] theorem cgTab_01 : cgTab 0 1 = 0 := by simp [cgTab, rs2, neg_div]
@[simp] theorem cgTab_02 : cgTab 0 2 = rs2 := by simp [cgTab, rs2, neg_div]
@[simp] theorem cgTab_03 : cgTab 0 3 = 0 := by simp [cgTab, rs2, neg_div]
@[simp] theorem cgTab_10 : cgTab 1 0 = 0 := by simp [cgTab, rs2, neg_div]
@[simp] theorem cgTab_11 : cgTab 1 1 = rs2 := by simp [cgTab, rs2, neg_div]
@[simp] theorem cgTab_12 : cgTab 1 2 = 0 := by simp [cgTab, rs2, neg_div]
@[simp] theorem cgTab_13 : cgTab 1 3 = rs2 := by simp [cgTab, rs2, neg_div]
@[simp] theorem cgTab_20 : cgTab 2 0 = 0 := by simp [cgTab, rs2, neg_div]
@[simp] theorem cgTab_21 : cgTab 2 1 = -rs2 := by simp [cgTab, rs2, neg_div]
@[simp] theorem cgTab_22 : cgTab 2 2 = 0 := by simp [cgTab, rs2, neg_div]
@[simp] theorem cgTab_23 : cgTab 2 3 = rs2 := by simp [cgTab, rs2, neg_div]
@[simp] theorem cgTab_30 : cgTab 3 0 = rs2 := by simp [cgTab, rs2, neg_div]
@[simp] theorem cgTab_31 : cgTab 3 1 = 0 := by simp [cgTab, rs2, neg_div]
@[simp] theorem cgTab_32 : cgTab 3 2 = -rs2 := by simp [cgTab, rs2, neg_div]
@[simp] theorem cgTab_33 : cgTab 3 3 = 0 := by simp [cgTab, rs2, neg_div]

@[simp] theorem cgCols_zero (t0 : ℕ) (neg : Bool) (r : ℕ) : cgCols t0 neg r 0 = cgTab r t0 := by simp [cgCols]
@[simp] theorem cgCols_one_false (t0 r : ℕ) : cgCols t0 false r 1 = cgTab r (t0 + 1) := by simp [cgCols]
@[simp] theorem cgCols_one_true (t0 r : ℕ) : cgCols t0 true r 1 = -cgTab r (t0 + 1) := by simp [cgCols]

/-- Rotation matrix with given cosine and sine. -/
noncomputable def rot2 (c s : ℝ) : NpMat ℝ := of2 c (-s) s c

@[simp] theorem rot2_00 (c s : ℝ) : (rot2 c s).get 0 0 = c := rfl
@[simp] theorem rot2_01 (c s : ℝ) : (rot2 c s).get 0 1 = -s := rfl
@[simp] theorem rot2_10 (c s : ℝ) : (rot2 c s).get 1 0 = s := rfl
@[simp] theorem rot2_11 (c s : ℝ) : (rot2 c s).get 1 1 = c := rfl

theorem intertwines_sum2 (ca sa cb sb : ℝ) (neg : Bool) :
    Intertwines (rot2 ca sa) (rot2 cb sb)
      (rot2 (ca * cb - sa * sb) ((if neg then -1 else 1) * (sa * cb + ca * sb))) (reshapeT 2 2 (cgCols 2 neg)) := by
  intro a b s c ha hb hs hc
  have ha' : a < 2 := ha
  have hb' : b < 2 := hb
  have hc' : c < 2 := hc
  have hs0 : s = 0 := by have : s < 2 / 2 := hs; omega
  subst hs0
  clear ha hb hc hs
  show ∑ a' ∈ Finset.range 2, ∑ b' ∈ Finset.range 2, (rot2 ca sa).get a a' * (rot2 cb sb).get b b' * cgCols 2 neg (b' * 2 + a') (0 * 2 + c)
    = ∑ c' ∈ Finset.range 2, cgCols 2 neg (b * 2 + a) (0 * 2 + c') * (rot2 _ _).get c' c
  simp only [Finset.sum_range_succ, Finset.sum_range_zero, zero_add, zero_mul, one_mul, rot2_00, rot2_01, rot2_10, rot2_11]
  cases neg <;> interval_cases a <;> interval_cases b <;> interval_cases c <;>
    simp only [zero_add, zero_mul, one_mul, add_zero, rot2_00, rot2_01, rot2_10, rot2_11, cgCols_zero, cgCols_one_false, cgCols_one_true,
      Nat.reduceAdd, Nat.reduceMul, cgTab_00, cgTab_01, cgTab_02, cgTab_03, cgTab_10, cgTab_11, cgTab_12, cgTab_13, cgTab_20, cgTab_21, cgTab_22, cgTab_23, cgTab_30, cgTab_31, cgTab_32, cgTab_33, if_true, if_false, reduceCtorEq] <;> ring

theorem intertwines_sum1 (ca sa cb sb : ℝ) (neg : Bool) (h0 : sa * cb + ca * sb = 0) :
    Intertwines (rot2 ca sa) (rot2 cb sb) (of1 (ca * cb - sa * sb)) (reshapeT 2 1 (cgCols 2 neg)) := by
  intro a b s c ha hb hs hc
  have ha' : a < 2 := ha
  have hb' : b < 2 := hb
  have hc0 : c = 0 := by have : c < 1 := hc; omega
  have hs' : s < 2 := hs
  subst hc0
  clear ha hb hc hs
  show ∑ a' ∈ Finset.range 2, ∑ b' ∈ Finset.range 2, (rot2 ca sa).get a a' * (rot2 cb sb).get b b' * cgCols 2 neg (b' * 2 + a') (s * 1 + 0)
    = ∑ c' ∈ Finset.range 1, cgCols 2 neg (b * 2 + a) (s * 1 + c') * (ca * cb - sa * sb)
  simp only [Finset.sum_range_succ, Finset.sum_range_zero, zero_add, zero_mul, one_mul, mul_one]
  cases neg <;> interval_cases a <;> interval_cases b <;> interval_cases s <;>
    simp only [zero_add, zero_mul, one_mul, add_zero, rot2_00, rot2_01, rot2_10, rot2_11, cgCols_zero, cgCols_one_false, cgCols_one_true,
      Nat.reduceAdd, Nat.reduceMul, cgTab_00, cgTab_01, cgTab_02, cgTab_03, cgTab_10, cgTab_11, cgTab_12, cgTab_13, cgTab_20, cgTab_21, cgTab_22, cgTab_23, cgTab_30, cgTab_31, cgTab_32, cgTab_33] <;>
    first | ring1 | linear_combination rs2 * h0 | linear_combination (-rs2) * h0

theorem intertwines_diff2 (ca sa cb sb : ℝ) (neg : Bool) :
    Intertwines (rot2 ca sa) (rot2 cb sb)
      (rot2 (ca * cb + sa * sb) ((if neg then -1 else 1) * (sa * cb - ca * sb))) (reshapeT 2 2 (cgCols 0 neg)) := by
  intro a b s c ha hb hs hc
  have ha' : a < 2 := ha
  have hb' : b < 2 := hb
  have hc' : c < 2 := hc
  have hs0 : s = 0 := by have : s < 2 / 2 := hs; omega
  subst hs0
  clear ha hb hc hs
  show ∑ a' ∈ Finset.range 2, ∑ b' ∈ Finset.range 2, (rot2 ca sa).get a a' * (rot2 cb sb).get b b' * cgCols 0 neg (b' * 2 + a') (0 * 2 + c)
    = ∑ c' ∈ Finset.range 2, cgCols 0 neg (b * 2 + a) (0 * 2 + c') * (rot2 _ _).get c' c
  simp only [Finset.sum_range_succ, Finset.sum_range_zero, zero_add, zero_mul, one_mul, rot2_00, rot2_01, rot2_10, rot2_11]
  cases neg <;> interval_cases a <;> interval_cases b <;> interval_cases c <;>
    simp only [zero_add, zero_mul, one_mul, add_zero, rot2_00, rot2_01, rot2_10, rot2_11, cgCols_zero, cgCols_one_false, cgCols_one_true,
      Nat.reduceAdd, Nat.reduceMul, cgTab_00, cgTab_01, cgTab_02, cgTab_03, cgTab_10, cgTab_11, cgTab_12, cgTab_13, cgTab_20, cgTab_21, cgTab_22, cgTab_23, cgTab_30, cgTab_31, cgTab_32, cgTab_33, if_true, if_false, reduceCtorEq] <;> ring

theorem intertwines_diff1 (ca sa cb sb : ℝ) (neg : Bool) (h0 : sa * cb - ca * sb = 0) :
    Intertwines (rot2 ca sa) (rot2 cb sb) (of1 (ca * cb + sa * sb)) (reshapeT 2 1 (cgCols 0 neg)) := by
  intro a b s c ha hb hs hc
  have ha' : a < 2 := ha
  have hb' : b < 2 := hb
  have hc0 : c = 0 := by have : c < 1 := hc; omega
  have hs' : s < 2 := hs
  subst hc0
  clear ha hb hc hs
  show ∑ a' ∈ Finset.range 2, ∑ b' ∈ Finset.range 2, (rot2 ca sa).get a a' * (rot2 cb sb).get b b' * cgCols 0 neg (b' * 2 + a') (s * 1 + 0)
    = ∑ c' ∈ Finset.range 1, cgCols 0 neg (b * 2 + a) (s * 1 + c') * (ca * cb + sa * sb)
  simp only [Finset.sum_range_succ, Finset.sum_range_zero, zero_add, zero_mul, one_mul, mul_one]
  cases neg <;> interval_cases a <;> interval_cases b <;> interval_cases s <;>
    simp only [zero_add, zero_mul, one_mul, add_zero, rot2_00, rot2_01, rot2_10, rot2_11, cgCols_zero, cgCols_one_false, cgCols_one_true,
      Nat.reduceAdd, Nat.reduceMul, cgTab_00, cgTab_01, cgTab_02, cgTab_03, cgTab_10, cgTab_11, cgTab_12, cgTab_13, cgTab_20, cgTab_21, cgTab_22, cgTab_23, cgTab_30, cgTab_31, cgTab_32, cgTab_33] <;>
    first | ring1 | linear_combination rs2 * h0 | linear_combination (-rs2) * h0

/-- Orthonormality of the columns of the constant matrix (with signs). -/
theorem cgCols_inner (t0 t0' : ℕ) (h : t0 = 0 ∨ t0 = 2) (h' : t0' = 0 ∨ t0' = 2) (neg neg' : Bool) (t t' : ℕ) (ht : t < 2) (ht' : t' < 2)
    (hn : t0 = t0' → neg = neg') :
    ∑ a ∈ Finset.range 2, ∑ b ∈ Finset.range 2, cgCols t0 neg (b * 2 + a) t * cgCols t0' neg' (b * 2 + a) t' =
      if (t0, t) = (t0', t') then 1 else 0 := by
  have h2 := rs2_sq
  simp only [Finset.sum_range_succ, Finset.sum_range_zero, zero_add, zero_mul, one_mul, add_zero, Nat.reduceAdd]
  rcases h with rfl | rfl <;> rcases h' with rfl | rfl <;> cases neg <;> cases neg' <;> interval_cases t <;> interval_cases t' <;>
    first
    | exact absurd (hn rfl) (by decide)
    | (simp only [cgCols_zero, cgCols_one_false, cgCols_one_true, Nat.reduceAdd, cgTab_00, cgTab_01, cgTab_02, cgTab_03, cgTab_10, cgTab_11, cgTab_12, cgTab_13, cgTab_20, cgTab_21, cgTab_22, cgTab_23, cgTab_30, cgTab_31, cgTab_32, cgTab_33, Prod.mk.injEq, true_and, and_true, and_self,
        zero_add, zero_ne_one, one_ne_zero, false_and, and_false, if_true, if_false, OfNat.ofNat_ne_zero, OfNat.zero_ne_ofNat]
       linarith)

theorem intertwines_eye11 (a b : ℝ) (neg : Bool) : Intertwines (of1 a) (of1 b) (of1 (a * b)) (reshapeEye 1 1 neg) := by
  intro i j s c hi hj hs hc
  obtain rfl : i = 0 := by have : i < 1 := hi; omega
  obtain rfl : j = 0 := by have : j < 1 := hj; omega
  obtain rfl : s = 0 := by have : s < 1 := hs; omega
  obtain rfl : c = 0 := by have : c < 1 := hc; omega
  simp [of1, reshapeEye]

theorem intertwines_eye12 (a c s : ℝ) (neg : Bool) :
    Intertwines (of1 a) (rot2 c s) (rot2 (a * c) ((if neg then -1 else 1) * (a * s))) (reshapeEye 2 2 neg) := by
  intro i j t k hi hj ht hk
  obtain rfl : i = 0 := by have : i < 1 := hi; omega
  have hj' : j < 2 := hj
  obtain rfl : t = 0 := by have : t < 1 := ht; omega
  have hk' : k < 2 := hk
  clear hi hj hk ht
  cases neg <;> interval_cases j <;> interval_cases k <;> simp [of1, rot2, of2, reshapeEye, Finset.sum_range_succ]

theorem intertwines_eye21 (a c s : ℝ) (neg : Bool) :
    Intertwines (rot2 c s) (of1 a) (rot2 (c * a) ((if neg then -1 else 1) * (s * a))) (reshapeEye 1 2 neg) := by
  intro i j t k hi hj ht hk
  have hi' : i < 2 := hi
  obtain rfl : j = 0 := by have : j < 1 := hj; omega
  obtain rfl : t = 0 := by have : t < 1 := ht; omega
  have hk' : k < 2 := hk
  clear hi hj hk ht
  cases neg <;> interval_cases i <;> interval_cases k <;> simp [of1, rot2, of2, reshapeEye, Finset.sum_range_succ]

/-- Matrix of size `d ∈ {1, 2}` with cosine `c` and sine `s`. -/
noncomputable def matOf (d : ℕ) (c s : ℝ) : NpMat ℝ := if d = 1 then of1 c else rot2 c s

theorem matOf_sq (d : ℕ) (c s : ℝ) : (matOf d c s).rows = (matOf d c s).cols := by
  unfold matOf; split <;> rfl

/-- One of the two factors is one-dimensional. -/
theorem intertwines_eye {dm dn dj : ℕ} {cm sm cn sn cj sj : ℝ} {neg : Bool} (hm : dm = 1 ∨ dm = 2) (hn : dn = 1 ∨ dn = 2)
    (h1 : dm = 1 ∨ dn = 1) (hd : dj = dm * dn) (hm0 : dm = 1 → sm = 0) (hn0 : dn = 1 → sn = 0)
    (hc : cj = cm * cn - sm * sn) (hs : sj = (if neg then -1 else 1) * (sm * cn + cm * sn)) :
    Intertwines (matOf dm cm sm) (matOf dn cn sn) (matOf dj cj sj) (reshapeEye dn dj neg) := by
  subst hd hc hs
  rcases hm with rfl | rfl <;> rcases hn with rfl | rfl
  · rw [hm0 rfl, hn0 rfl]
    simpa [matOf] using intertwines_eye11 cm cn neg
  · rw [hm0 rfl]
    simpa [matOf] using intertwines_eye12 cm cn sn neg
  · rw [hn0 rfl]
    simpa [matOf] using intertwines_eye21 cn cm sm neg
  · omega

/-- Both factors two-dimensional, sum of frequencies. -/
theorem intertwines_sum {dj : ℕ} {cm sm cn sn cj sj : ℝ} {neg : Bool} (hj : dj = 1 ∨ dj = 2) (hj0 : dj = 1 → sj = 0)
    (hc : cj = cm * cn - sm * sn) (hs : sj = (if neg then -1 else 1) * (sm * cn + cm * sn)) :
    Intertwines (matOf 2 cm sm) (matOf 2 cn sn) (matOf dj cj sj) (reshapeT 2 dj (cgCols 2 neg)) := by
  subst hc
  rcases hj with rfl | rfl
  · have h0 : sm * cn + cm * sn = 0 := by
      have := hj0 rfl; rw [hs] at this
      cases neg
      · simpa using this
      · simp at this; linarith
    simpa [matOf] using intertwines_sum1 cm sm cn sn neg h0
  · rw [hs]; simpa [matOf] using intertwines_sum2 cm sm cn sn neg

/-- Both factors two-dimensional, difference of frequencies. -/
theorem intertwines_diff {dj : ℕ} {cm sm cn sn cj sj : ℝ} {neg : Bool} (hj : dj = 1 ∨ dj = 2) (hj0 : dj = 1 → sj = 0)
    (hc : cj = cm * cn + sm * sn) (hs : sj = (if neg then -1 else 1) * (sm * cn - cm * sn)) :
    Intertwines (matOf 2 cm sm) (matOf 2 cn sn) (matOf dj cj sj) (reshapeT 2 dj (cgCols 0 neg)) := by
  subst hc
  rcases hj with rfl | rfl
  · have h0 : sm * cn - cm * sn = 0 := by
      have := hj0 rfl; rw [hs] at this
      cases neg
      · simpa using this
      · simp at this; linarith
    simpa [matOf] using intertwines_diff1 cm sm cn sn neg h0
  · rw [hs]; simpa [matOf] using intertwines_diff2 cm sm cn sn neg

/-- Orthonormality in the one-factor-one-dimensional case. -/
theorem orthonormal_eye {dm dn : ℕ} {size : ℕ → ℕ} {cg : ℕ → CGArray} {j : ℕ} {neg : Bool} (hm : dm = 1 ∨ dm = 2)
    (hn : dn = 1 ∨ dn = 2) (h1 : dm = 1 ∨ dn = 1) (hd : size j = dm * dn) (hcg : cg j = reshapeEye dn (size j) neg) :
    OrthonormalCG dm dn size cg [(j, 1)] := by
  intro p hp q hq s c s' c' hs hc hs' hc'
  obtain rfl : p = (j, 1) := by simpa using hp
  obtain rfl : q = (j, 1) := by simpa using hq
  obtain rfl : s = 0 := by simpa using hs
  obtain rfl : s' = 0 := by simpa using hs'
  simp only [hd] at hc hc'
  simp only [cgInner, hcg, hd]
  rcases hm with rfl | rfl <;> rcases hn with rfl | rfl
  · obtain rfl : c = 0 := by omega
    obtain rfl : c' = 0 := by omega
    simp [reshapeEye]
  · have h : c < 2 := by omega
    have h' : c' < 2 := by omega
    clear hc hc'
    cases neg <;> interval_cases c <;> interval_cases c' <;> simp [reshapeEye, Finset.sum_range_succ]
  · have h : c < 2 := by omega
    have h' : c' < 2 := by omega
    clear hc hc'
    cases neg <;> interval_cases c <;> interval_cases c' <;> simp [reshapeEye, Finset.sum_range_succ]
  · omega

/-- Orthonormality when both factors are two-dimensional. -/
theorem orthonormal_two {size : ℕ → ℕ} {cg : ℕ → CGArray} {j0 j1 mu0 mu1 : ℕ} {n0 n1 : Bool} (hj : j0 ≠ j1)
    (h0 : mu0 * size j0 = 2) (h1 : mu1 * size j1 = 2) (hc0 : cg j0 = reshapeT 2 (size j0) (cgCols 0 n0))
    (hc1 : cg j1 = reshapeT 2 (size j1) (cgCols 2 n1)) :
    OrthonormalCG 2 2 size cg [(j0, mu0), (j1, mu1)] := by
  have hlt : ∀ {mu d s c : ℕ}, mu * d = 2 → s < mu → c < d → s * d + c < 2 := by
    intro mu d s c h hs hc
    calc s * d + c < s * d + d := by omega
      _ = (s + 1) * d := by ring
      _ ≤ mu * d := Nat.mul_le_mul_right _ hs
      _ = 2 := h
  have hinj : ∀ {d s c s' c' : ℕ}, c < d → c' < d → (s * d + c = s' * d + c' ↔ s = s' ∧ c = c') := by
    intro d s c s' c' hc hc'
    constructor
    · intro h
      have e1 : (s * d + c) / d = s := by rw [Nat.mul_comm, Nat.mul_add_div (by omega), Nat.div_eq_of_lt hc, add_zero]
      have e2 : (s' * d + c') / d = s' := by rw [Nat.mul_comm, Nat.mul_add_div (by omega), Nat.div_eq_of_lt hc', add_zero]
      have : s = s' := by rw [← e1, ← e2, h]
      subst this
      exact ⟨rfl, by omega⟩
    · rintro ⟨rfl, rfl⟩; rfl
  intro p hp q hq s c s' c' hs hc hs' hc'
  simp only [List.mem_cons, List.not_mem_nil, or_false] at hp hq
  rcases hp with rfl | rfl <;> rcases hq with rfl | rfl <;> simp only at hs hc hs' hc' <;> simp only [cgInner, hc0, hc1, reshapeT]
  · rw [cgCols_inner 0 0 (.inl rfl) (.inl rfl) _ _ _ _ (hlt h0 hs hc) (hlt h0 hs' hc') (fun _ => rfl)]
    simp only [Prod.mk.injEq, true_and, hinj hc hc']
  · rw [cgCols_inner 0 2 (.inl rfl) (.inr rfl) _ _ _ _ (hlt h0 hs hc) (hlt h1 hs' hc') (by omega)]
    simp [hj]
  · rw [cgCols_inner 2 0 (.inr rfl) (.inl rfl) _ _ _ _ (hlt h1 hs hc) (hlt h0 hs' hc') (by omega)]
    simp [hj.symm]
  · rw [cgCols_inner 2 2 (.inr rfl) (.inr rfl) _ _ _ _ (hlt h1 hs hc) (hlt h1 hs' hc') (fun _ => rfl)]
    simp only [Prod.mk.injEq, true_and, hinj hc hc']

namespace Cyclic

theorem irrepMat_matOf (N k : ℕ) (e : ℤ) :
    matOf (irrepSize N k) (cos (k * radians N e)) (sin (k * radians N e)) ≈ irrepMat N k e := by
  unfold matOf irrepMat irrepSize
  by_cases h0 : k = 0
  · subst h0; simp only [if_pos, Nat.cast_zero, zero_mul, cos_zero]; exact of1_eye
  · rw [if_neg h0, if_neg h0]
    by_cases h : N % 2 = 0 ∧ k = N / 2
    · rw [if_pos h, if_pos h]; exact Eqv.refl _
    · rw [if_neg h, if_neg h]; exact Eqv.refl _

theorem sin_size_one {N k : ℕ} (hN : 0 < N) (h : irrepSize N k = 1) (e : ℤ) : sin (k * radians N e) = 0 := by
  unfold irrepSize at h
  split_ifs at h with h0 h1
  · simp [h0]
  · exact sin_half N k hN (by omega) e
  · omega

theorem cos_wrap (N a b : ℕ) (hN : 0 < N) (h : a + b = N) (e : ℤ) :
    cos (a * radians N e) = cos (b * radians N e) ∧ sin (a * radians N e) = -sin (b * radians N e) := by
  have hr : (N : ℝ) ≠ 0 := by positivity
  have : (a : ℝ) * radians N e = e * (2 * π) - b * radians N e := by
    have ha : (a : ℝ) = N - b := by rw [← h]; push_cast; ring
    rw [ha]; unfold radians; field_simp
  rw [this, cos_int_mul_two_pi_sub, sin_int_mul_two_pi_sub]
  exact ⟨rfl, rfl⟩

/-- **C15** for `C_N`: for any two irreps `m, n`,
* every array returned by `_clebsh_gordan_coeff` intertwines `ρ_m ⊗ ρ_n` and `ρ_j`;
* `_tensor_product_irreps` lists exactly the irreps with a non-empty array, with their multiplicity;
* dimensions add up; all columns together are orthonormal. -/
theorem C15_cyclic (N m n : ℕ) (hN : 0 < N) (hm : m ≤ N / 2) (hn : n ≤ N / 2) :
    (∀ j ≤ N / 2, ∀ e, Intertwines (irrepMat N m e) (irrepMat N n e) (irrepMat N j e) (cg N m n j)) ∧
    (∀ p ∈ tensorIrreps N m n, p.1 ≤ N / 2 ∧ 0 < p.2 ∧ (cg N m n p.1).mult = p.2) ∧
    (∀ j ≤ N / 2, (∀ p ∈ tensorIrreps N m n, p.1 ≠ j) → (cg N m n j).mult = 0) ∧
    ((tensorIrreps N m n).map (fun p => p.2 * irrepSize N p.1)).sum = irrepSize N m * irrepSize N n ∧
    OrthonormalCG (irrepSize N m) (irrepSize N n) (irrepSize N) (cg N m n) (tensorIrreps N m n) := by
  have key : ∀ j ≤ N / 2, ∀ e, Intertwines (irrepMat N m e) (irrepMat N n e) (irrepMat N j e) (cg N m n j) := by
    intro j hj e
    refine Intertwines.congr ?_ (irrepMat_matOf N m e) (irrepMat_matOf N n e) (irrepMat_matOf N j e) (matOf_sq _ _ _)
    have c1 : ∀ {j : ℕ}, j = m + n → cos (j * radians N e) = cos (m * radians N e) * cos (n * radians N e) - sin (m * radians N e) * sin (n * radians N e) ∧
        sin (j * radians N e) = sin (m * radians N e) * cos (n * radians N e) + cos (m * radians N e) * sin (n * radians N e) := by
      rintro j rfl
      push_cast
      rw [add_mul, cos_add, sin_add]
      exact ⟨rfl, rfl⟩
    have c2 : j + m + n = N → cos (j * radians N e) = cos (m * radians N e) * cos (n * radians N e) - sin (m * radians N e) * sin (n * radians N e) ∧
        sin (j * radians N e) = -(sin (m * radians N e) * cos (n * radians N e) + cos (m * radians N e) * sin (n * radians N e)) := by
      intro h
      obtain ⟨h1, h2⟩ := cos_wrap N j (m + n) hN (by omega) e
      obtain ⟨h3, h4⟩ := c1 rfl
      rw [h1, h2, h3, h4]
      exact ⟨rfl, rfl⟩
    have c3 : j + n = m → cos (j * radians N e) = cos (m * radians N e) * cos (n * radians N e) + sin (m * radians N e) * sin (n * radians N e) ∧
        sin (j * radians N e) = sin (m * radians N e) * cos (n * radians N e) - cos (m * radians N e) * sin (n * radians N e) := by
      intro h
      have : (j : ℝ) = m - n := by rw [← h]; push_cast; ring
      rw [this, sub_mul, cos_sub, sin_sub]
      exact ⟨rfl, rfl⟩
    have c4 : j + m = n → cos (j * radians N e) = cos (m * radians N e) * cos (n * radians N e) + sin (m * radians N e) * sin (n * radians N e) ∧
        sin (j * radians N e) = -(sin (m * radians N e) * cos (n * radians N e) - cos (m * radians N e) * sin (n * radians N e)) := by
      intro h
      have : (j : ℝ) = n - m := by rw [← h]; push_cast; ring
      rw [this, sub_mul, cos_sub, sin_sub]
      constructor <;> ring
    have zm := fun h => sin_size_one (k := m) hN h e
    have zn := fun h => sin_size_one (k := n) hN h e
    have zj := fun h => sin_size_one (k := j) hN h e
    unfold cg
    split_ifs with h1 h2 h3 h4 h5 h6 h7 h8 h9
    · refine intertwines_eye (irrepSize_one_or_two _ _) (irrepSize_one_or_two _ _) ?_ ?_ zm zn (c1 h2).1 (by simpa using (c1 h2).2)
      · unfold irrepSize; split_ifs <;> omega
      · unfold irrepSize; split_ifs <;> omega
    · exact intertwines_empty _ _ _
    · refine intertwines_eye (irrepSize_one_or_two _ _) (irrepSize_one_or_two _ _) ?_ ?_ zm zn (c1 h4).1 (by simpa using (c1 h4).2)
      · unfold irrepSize; split_ifs <;> omega
      · unfold irrepSize; split_ifs <;> omega
    · refine intertwines_eye (irrepSize_one_or_two _ _) (irrepSize_one_or_two _ _) ?_ ?_ zm zn (c2 h5).1 ?_
      · unfold irrepSize; split_ifs <;> omega
      · unfold irrepSize; split_ifs <;> omega
      · rcases irrepSize_one_or_two N j with hj1 | hj2
        · have h := zj hj1
          have h' := (c2 h5).2
          rw [h] at h' ⊢
          have : sin (m * radians N e) * cos (n * radians N e) + cos (m * radians N e) * sin (n * radians N e) = 0 := by linarith
          rw [this, mul_zero]
        · rw [(c2 h5).2, hj2]; simp
    · exact intertwines_empty _ _ _
    all_goals
      try exact intertwines_empty _ _ _
    all_goals
      have sm : irrepSize N m = 2 := by unfold irrepSize; split_ifs <;> omega
      have sn : irrepSize N n = 2 := by unfold irrepSize; split_ifs <;> omega
      rw [sm, sn]
    · exact intertwines_sum (irrepSize_one_or_two _ _) zj (c1 h6).1 (by simpa using (c1 h6).2)
    · exact intertwines_sum (irrepSize_one_or_two _ _) zj (c2 h7).1 (by simpa using (c2 h7).2)
    · exact intertwines_diff (irrepSize_one_or_two _ _) zj (c3 h8).1 (by simpa using (c3 h8).2)
    · exact intertwines_diff (irrepSize_one_or_two _ _) zj (c4 h9).1 (by simpa using (c4 h9).2)
  refine ⟨key, ?_⟩
  by_cases h1 : m = 0 ∨ n = 0
  · have hL : tensorIrreps N m n = [(n + m, 1)] := by unfold tensorIrreps; rw [if_pos h1]
    have hcg : ∀ j, cg N m n j = if j = m + n then reshapeEye (irrepSize N n) (irrepSize N j) false else emptyCG := by
      intro j; unfold cg; rw [if_pos h1]
    have hsz : irrepSize N (n + m) = irrepSize N m * irrepSize N n := by unfold irrepSize; split_ifs <;> omega
    have hone : irrepSize N m = 1 ∨ irrepSize N n = 1 := by unfold irrepSize; split_ifs <;> omega
    rw [hL]
    refine ⟨?_, ?_, by simpa using hsz, ?_⟩
    · intro p hp; obtain rfl : p = (n + m, 1) := by simpa using hp
      refine ⟨by simp only; omega, Nat.one_pos, ?_⟩
      simp only; rw [hcg, if_pos (by omega)]; rfl
    · intro j _ h
      have := h (n + m, 1) (by simp)
      rw [hcg, if_neg (by simp only at this; omega)]; rfl
    · exact orthonormal_eye (irrepSize_one_or_two _ _) (irrepSize_one_or_two _ _) hone hsz (by rw [hcg, if_pos (by omega)])
  by_cases h2 : N % 2 = 0 ∧ (m = N / 2 ∨ n = N / 2)
  · have hL : tensorIrreps N m n = [(foldSum N m n, 1)] := by unfold tensorIrreps; rw [if_neg h1, if_pos h2]
    have hF : foldSum N m n ≤ N / 2 ∧ (foldSum N m n = m + n ∨ foldSum N m n + m + n = N) := by unfold foldSum; split_ifs <;> omega
    generalize foldSum N m n = F at hL hF
    have hcg : ∀ j, cg N m n j = if j = m + n then reshapeEye (irrepSize N n) (irrepSize N j) false
        else if j + m + n = N then reshapeEye (irrepSize N n) (irrepSize N j) (decide (irrepSize N j > 1)) else emptyCG := by
      intro j; unfold cg; rw [if_neg h1, if_pos h2]
    have hsz : irrepSize N F = irrepSize N m * irrepSize N n := by unfold irrepSize; split_ifs <;> omega
    have hone : irrepSize N m = 1 ∨ irrepSize N n = 1 := by unfold irrepSize; split_ifs <;> omega
    have hex : ∃ neg, cg N m n F = reshapeEye (irrepSize N n) (irrepSize N F) neg := by
      rw [hcg]
      by_cases h : F = m + n
      · exact ⟨_, if_pos h⟩
      · rw [if_neg h, if_pos (by omega)]; exact ⟨_, rfl⟩
    obtain ⟨neg, hex⟩ := hex
    rw [hL]
    refine ⟨?_, ?_, by simpa using hsz, ?_⟩
    · intro p hp; obtain rfl : p = (F, 1) := by simpa using hp
      exact ⟨hF.1, Nat.one_pos, by simp only; rw [hex]; rfl⟩
    · intro j hj h
      have := h (F, 1) (by simp)
      simp only at this
      rw [hcg, if_neg (by omega), if_neg (by omega)]; rfl
    · exact orthonormal_eye (irrepSize_one_or_two _ _) (irrepSize_one_or_two _ _) hone hsz hex
  · have sm : irrepSize N m = 2 := by unfold irrepSize; split_ifs <;> omega
    have sn : irrepSize N n = 2 := by unfold irrepSize; split_ifs <;> omega
    have hL : tensorIrreps N m n = [(natDist n m, if n = m then 2 else 1), (foldSum N m n, if 2 * foldSum N m n < N then 1 else 2)] := by
      unfold tensorIrreps; rw [if_neg h1, if_neg h2]
      by_cases h : n = m
      · rw [if_pos h, if_pos h]; simp [natDist, h]
      · rw [if_neg h, if_neg h]
    have hF : foldSum N m n ≤ N / 2 ∧ foldSum N m n ≠ 0 ∧ (foldSum N m n = m + n ∨ foldSum N m n + m + n = N) := by
      unfold foldSum; split_ifs <;> omega
    have hD : natDist n m ≤ N / 2 ∧ (natDist n m + n = m ∨ natDist n m + m = n) ∧ natDist n m ≠ foldSum N m n ∧ natDist n m ≠ m + n
        ∧ natDist n m + m + n ≠ N ∧ 2 * natDist n m ≠ N := by
      unfold natDist foldSum; split_ifs <;> omega
    generalize foldSum N m n = F at hL hF hD
    generalize natDist n m = D at hL hD
    have hcg : ∀ j, cg N m n j = if j = m + n then reshapeT 2 (irrepSize N j) (cgCols 2 false)
        else if j + m + n = N then reshapeT 2 (irrepSize N j) (cgCols 2 true)
        else if j + n = m then reshapeT 2 (irrepSize N j) (cgCols 0 false)
        else if j + m = n then reshapeT 2 (irrepSize N j) (cgCols 0 true) else emptyCG := by
      intro j; unfold cg; rw [if_neg h1, if_neg h2, sm]
    have hexF : ∃ neg, cg N m n F = reshapeT 2 (irrepSize N F) (cgCols 2 neg) := by
      rw [hcg]
      by_cases h : F = m + n
      · exact ⟨_, if_pos h⟩
      · rw [if_neg h, if_pos (by omega)]; exact ⟨_, rfl⟩
    have hexD : ∃ neg, cg N m n D = reshapeT 2 (irrepSize N D) (cgCols 0 neg) := by
      rw [hcg, if_neg (by omega), if_neg (by omega)]
      by_cases h : D + n = m
      · exact ⟨_, if_pos h⟩
      · rw [if_neg h, if_pos (by omega)]; exact ⟨_, rfl⟩
    obtain ⟨nF, hexF⟩ := hexF
    obtain ⟨nD, hexD⟩ := hexD
    have muF : (if 2 * F < N then 1 else 2) * irrepSize N F = 2 := by unfold irrepSize; split_ifs <;> omega
    have muD : (if n = m then 2 else 1) * irrepSize N D = 2 := by unfold irrepSize; split_ifs <;> omega
    have div2 : ∀ {a b : ℕ}, a * b = 2 → 2 / b = a := by
      intro a b h
      rw [← h, Nat.mul_div_cancel _ (Nat.pos_of_ne_zero (by rintro rfl; omega))]
    rw [hL, sm, sn]
    refine ⟨?_, ?_, ?_, ?_⟩
    · intro p hp
      simp only [List.mem_cons, List.not_mem_nil, or_false] at hp
      rcases hp with rfl | rfl
      · exact ⟨hD.1, by simp only; split_ifs <;> omega, by simp only [hexD]; exact div2 muD⟩
      · exact ⟨hF.1, by simp only; split_ifs <;> omega, by simp only [hexF]; exact div2 muF⟩
    · intro j hj h
      have e1 := h (D, _) (List.mem_cons_self ..)
      have e2 := h (F, _) (List.mem_cons_of_mem _ (List.mem_cons_self ..))
      simp only at e1 e2
      rw [hcg, if_neg (by omega), if_neg (by omega), if_neg (by omega), if_neg (by omega)]; rfl
    · simp only [List.map_cons, List.map_nil, List.sum_cons, List.sum_nil, muF, muD]; rfl
    · exact orthonormal_two hD.2.2.1 muD muF hexD hexF

example : tensorIrreps 6 2 1 = [(1, 1), (3, 2)] ∧ tensorIrreps 6 2 2 = [(0, 2), (2, 1)] := by decide

end Cyclic

namespace SO2

theorem irrepMat_matOf (k : ℕ) (θ : ℝ) : matOf (irrepSize k) (cos (k * θ)) (sin (k * θ)) ≈ irrepMat k θ := by
  unfold matOf irrepMat irrepSize
  by_cases h0 : k = 0
  · subst h0; simp only [if_pos, Nat.cast_zero, zero_mul, cos_zero]; exact of1_eye
  · rw [if_neg h0, if_neg h0]; exact Eqv.refl _

theorem irrepSize_one_or_two (k : ℕ) : irrepSize k = 1 ∨ irrepSize k = 2 := by unfold irrepSize; split_ifs <;> simp

/-- **C15** for `SO(2)`. -/
theorem C15_so2 (m n : ℕ) :
    (∀ j θ, Intertwines (irrepMat m θ) (irrepMat n θ) (irrepMat j θ) (cg m n j)) ∧
    (∀ p ∈ tensorIrreps m n, 0 < p.2 ∧ (cg m n p.1).mult = p.2) ∧
    (∀ j, (∀ p ∈ tensorIrreps m n, p.1 ≠ j) → (cg m n j).mult = 0) ∧
    ((tensorIrreps m n).map (fun p => p.2 * irrepSize p.1)).sum = irrepSize m * irrepSize n ∧
    OrthonormalCG (irrepSize m) (irrepSize n) irrepSize (cg m n) (tensorIrreps m n) := by
  have key : ∀ j θ, Intertwines (irrepMat m θ) (irrepMat n θ) (irrepMat j θ) (cg m n j) := by
    intro j θ
    refine Intertwines.congr ?_ (irrepMat_matOf m θ) (irrepMat_matOf n θ) (irrepMat_matOf j θ) (matOf_sq _ _ _)
    have c1 : ∀ {j : ℕ}, j = m + n → cos (j * θ) = cos (m * θ) * cos (n * θ) - sin (m * θ) * sin (n * θ) ∧
        sin (j * θ) = sin (m * θ) * cos (n * θ) + cos (m * θ) * sin (n * θ) := by
      rintro j rfl
      push_cast
      rw [add_mul, cos_add, sin_add]
      exact ⟨rfl, rfl⟩
    have c3 : j + n = m → cos (j * θ) = cos (m * θ) * cos (n * θ) + sin (m * θ) * sin (n * θ) ∧
        sin (j * θ) = sin (m * θ) * cos (n * θ) - cos (m * θ) * sin (n * θ) := by
      intro h
      have : (j : ℝ) = m - n := by rw [← h]; push_cast; ring
      rw [this, sub_mul, cos_sub, sin_sub]
      exact ⟨rfl, rfl⟩
    have c4 : j + m = n → cos (j * θ) = cos (m * θ) * cos (n * θ) + sin (m * θ) * sin (n * θ) ∧
        sin (j * θ) = -(sin (m * θ) * cos (n * θ) - cos (m * θ) * sin (n * θ)) := by
      intro h
      have : (j : ℝ) = n - m := by rw [← h]; push_cast; ring
      rw [this, sub_mul, cos_sub, sin_sub]
      constructor <;> ring
    have z : ∀ k : ℕ, irrepSize k = 1 → sin (k * θ) = 0 := by
      intro k h; unfold irrepSize at h; split_ifs at h with h0
      · simp [h0]
      · omega
    unfold cg
    split_ifs with h1 h2 h6 h8 h9
    · refine intertwines_eye (irrepSize_one_or_two _) (irrepSize_one_or_two _) ?_ ?_ (z m) (z n) (c1 h2).1 (by simpa using (c1 h2).2)
      · unfold irrepSize; split_ifs <;> omega
      · unfold irrepSize; split_ifs <;> omega
    · exact intertwines_empty _ _ _
    all_goals
      try exact intertwines_empty _ _ _
    all_goals
      have sm : irrepSize m = 2 := by unfold irrepSize; split_ifs <;> omega
      have sn : irrepSize n = 2 := by unfold irrepSize; split_ifs <;> omega
      rw [sm, sn]
    · exact intertwines_sum (irrepSize_one_or_two _) (z j) (c1 h6).1 (by simpa using (c1 h6).2)
    · exact intertwines_diff (irrepSize_one_or_two _) (z j) (c3 h8).1 (by simpa using (c3 h8).2)
    · exact intertwines_diff (irrepSize_one_or_two _) (z j) (c4 h9).1 (by simpa using (c4 h9).2)
  refine ⟨key, ?_⟩
  by_cases h1 : m = 0 ∨ n = 0
  · have hL : tensorIrreps m n = [(n + m, 1)] := by
      unfold tensorIrreps
      by_cases h : m = 0
      · rw [if_pos h, h]; simp
      · rw [if_neg h, if_pos (by omega), show n = 0 by omega]; simp
    have hcg : ∀ j, cg m n j = if j = m + n then reshapeEye (irrepSize n) (irrepSize j) false else emptyCG := by
      intro j; unfold cg; rw [if_pos h1]
    have hsz : irrepSize (n + m) = irrepSize m * irrepSize n := by unfold irrepSize; split_ifs <;> omega
    have hone : irrepSize m = 1 ∨ irrepSize n = 1 := by unfold irrepSize; split_ifs <;> omega
    rw [hL]
    refine ⟨?_, ?_, by simpa using hsz, ?_⟩
    · intro p hp; obtain rfl : p = (n + m, 1) := by simpa using hp
      refine ⟨Nat.one_pos, ?_⟩
      simp only; rw [hcg, if_pos (by omega)]; rfl
    · intro j h
      have := h (n + m, 1) (by simp)
      rw [hcg, if_neg (by simp only at this; omega)]; rfl
    · exact orthonormal_eye (irrepSize_one_or_two _) (irrepSize_one_or_two _) hone hsz (by rw [hcg, if_pos (by omega)])
  · have sm : irrepSize m = 2 := by unfold irrepSize; split_ifs <;> omega
    have sn : irrepSize n = 2 := by unfold irrepSize; split_ifs <;> omega
    have hL : tensorIrreps m n = [(natDist n m, if n = m then 2 else 1), (n + m, 1)] := by
      unfold tensorIrreps; rw [if_neg (by omega), if_neg (by omega)]
      by_cases h : n = m
      · rw [if_pos h, if_pos h]; simp [natDist, h]
      · rw [if_neg h, if_neg h]
    have hD : (natDist n m + n = m ∨ natDist n m + m = n) ∧ natDist n m ≠ n + m := by
      unfold natDist; split_ifs <;> omega
    generalize natDist n m = D at hL hD
    have hcg : ∀ j, cg m n j = if j = m + n then reshapeT 2 (irrepSize j) (cgCols 2 false)
        else if j + n = m then reshapeT 2 (irrepSize j) (cgCols 0 false)
        else if j + m = n then reshapeT 2 (irrepSize j) (cgCols 0 true) else emptyCG := by
      intro j; unfold cg; rw [if_neg h1, sm]
    have hexF : cg m n (n + m) = reshapeT 2 (irrepSize (n + m)) (cgCols 2 false) := by rw [hcg, if_pos (by omega)]
    have hexD : ∃ neg, cg m n D = reshapeT 2 (irrepSize D) (cgCols 0 neg) := by
      rw [hcg, if_neg (by omega)]
      by_cases h : D + n = m
      · exact ⟨_, if_pos h⟩
      · rw [if_neg h, if_pos (by omega)]; exact ⟨_, rfl⟩
    obtain ⟨nD, hexD⟩ := hexD
    have muF : 1 * irrepSize (n + m) = 2 := by unfold irrepSize; split_ifs <;> omega
    have muD : (if n = m then 2 else 1) * irrepSize D = 2 := by unfold irrepSize; split_ifs <;> omega
    have div2 : ∀ {a b : ℕ}, a * b = 2 → 2 / b = a := by
      intro a b h
      rw [← h, Nat.mul_div_cancel _ (Nat.pos_of_ne_zero (by rintro rfl; omega))]
    rw [hL, sm, sn]
    refine ⟨?_, ?_, ?_, ?_⟩
    · intro p hp
      simp only [List.mem_cons, List.not_mem_nil, or_false] at hp
      rcases hp with rfl | rfl
      · exact ⟨by simp only; split_ifs <;> omega, by simp only [hexD]; exact div2 muD⟩
      · exact ⟨Nat.one_pos, by simp only [hexF]; exact div2 muF⟩
    · intro j h
      have e1 := h (D, _) (List.mem_cons_self ..)
      have e2 := h (n + m, _) (List.mem_cons_of_mem _ (List.mem_cons_self ..))
      simp only at e1 e2
      rw [hcg, if_neg (by omega), if_neg (by omega), if_neg (by omega)]; rfl
    · simp only [List.map_cons, List.map_nil, List.sum_cons, List.sum_nil, muF, muD]; rfl
    · exact orthonormal_two hD.2 muD muF hexD hexF

example : tensorIrreps 3 3 = [(0, 2), (6, 1)] ∧ (cg 3 3 0).mult = 2 := by
  refine ⟨by decide, ?_⟩
  simpa using ((C15_so2 3 3).2.1 (0, 2) (by decide)).2

end SO2

end Escnn
