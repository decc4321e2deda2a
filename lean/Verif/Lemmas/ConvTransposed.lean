import Verif.Model.ConvTransposed
import Verif.Lemmas.Conv

/-!
# Transposed convolution and the action on the grid
-/

namespace Escnn

open NpMat NdArr

variable {n : ℕ} {B : Type}

theorem backPos_eq_some {w s d pad u p q : ℕ} (hs : 0 < s) : backPos w s d pad u p = some q ↔ q * s + u * d = p + pad ∧ q < w := by
  unfold backPos
  constructor
  · intro h
    split_ifs at h with hc
    obtain rfl := Option.some.inj h
    refine ⟨?_, hc.2.2⟩
    have := Nat.div_mul_cancel (Nat.dvd_of_mod_eq_zero hc.2.1)
    omega
  · rintro ⟨h1, h2⟩
    have e : p + pad - u * d = q * s := by omega
    rw [e, Nat.mul_mod_left, Nat.mul_div_cancel _ hs, if_pos ⟨by omega, rfl, h2⟩]

/-- Without output padding, the two ends of an axis are treated alike. -/
theorem backPos_rev {w s d pad k u p L : ℕ} (hs : 0 < s) (hu : u < k) (hL : L + 2 * pad = (w - 1) * s + d * (k - 1) + 1) (hp : p < L) :
    backPos w s d pad (k - 1 - u) (L - 1 - p) = (backPos w s d pad u p).map fun q => w - 1 - q := by
  have hd : (k - 1 - u) * d + u * d = d * (k - 1) := by rw [← Nat.add_mul, Nat.mul_comm]; congr 1; omega
  refine Option.ext fun q => ?_
  rw [backPos_eq_some hs, Option.map_eq_some_iff]
  constructor
  · rintro ⟨h1, h2⟩
    have hw : (w - 1 - q) * s + q * s = (w - 1) * s := by rw [← Nat.add_mul]; congr 1; omega
    exact ⟨w - 1 - q, (backPos_eq_some hs).2 ⟨by omega, by omega⟩, by omega⟩
  · rintro ⟨q', h1, rfl⟩
    obtain ⟨h1, h2⟩ := (backPos_eq_some hs).1 h1
    have hw : (w - 1 - q') * s + q' * s = (w - 1) * s := by rw [← Nat.add_mul]; congr 1; omega
    exact ⟨by omega, by omega⟩

/-- The entries of a block of the representation of a sum of equal groups, by columns. -/
theorem groups_cols {A A' : NpMat ℝ} {groups s : ℕ}
    (h : ∀ t < groups, ∀ c < s, ∀ f : ℕ → ℝ, ∑ c' ∈ Finset.range (groups * s), A.get (t * s + c) c' * f c' = ∑ c' ∈ Finset.range s, A'.get c c' * f (t * s + c')) {t : ℕ} (ht : t < groups) {c : ℕ} (hc : c < s)
    (f : ℕ → ℝ) : ∑ c' ∈ Finset.range (groups * s), f c' * A.get c' (t * s + c) = ∑ c' ∈ Finset.range s, f (t * s + c') * A'.get c' c := by
  have hlt : ∀ t < groups, ∀ c < s, t * s + c < groups * s := fun t ht c hc =>
    calc t * s + c < t * s + s := by omega
      _ = (t + 1) * s := by ring
      _ ≤ groups * s := Nat.mul_le_mul_right _ ht
  have hpos : 0 < s := by omega
  have key : ∀ t' < groups, ∀ c' < s, A.get (t' * s + c') (t * s + c) = if t' = t then A'.get c' c else 0 := by
    intro t' ht' c' hc'
    have e := h t' ht' c' hc' fun i => if i = t * s + c then 1 else 0
    simp only [mul_ite, mul_one, mul_zero] at e
    rw [Finset.sum_ite_eq', if_pos (Finset.mem_range.2 (hlt t ht c hc))] at e
    rw [e]
    by_cases htt : t' = t
    · subst htt
      rw [if_pos rfl, Finset.sum_eq_single c]
      · simp
      · intro i _ hi; rw [if_neg (by omega)]
      · intro hn; exact absurd (Finset.mem_range.2 hc) hn
    · rw [if_neg htt]
      refine Finset.sum_eq_zero fun i hi => if_neg fun e' => htt ?_
      have := congrArg (· / s) e'
      simp only [Nat.mul_comm _ s] at this
      rwa [Nat.mul_add_div hpos, Nat.mul_add_div hpos, Nat.div_eq_of_lt (Finset.mem_range.1 hi), Nat.div_eq_of_lt hc, Nat.add_zero, Nat.add_zero] at this
  have e1 : ∑ c' ∈ Finset.range (groups * s), f c' * A.get c' (t * s + c) = ∑ t' ∈ Finset.range groups, ∑ c' ∈ Finset.range s, f (t' * s + c') * A.get (t' * s + c') (t * s + c) := by
    clear h key hlt ht
    induction groups with
    | zero => simp
    | succ m ih => rw [Nat.succ_mul, Finset.sum_range_add, ih, Finset.sum_range_succ]
  rw [e1, Finset.sum_eq_single t]
  · exact Finset.sum_congr rfl fun c' hc' => by rw [key t ht c' (Finset.mem_range.1 hc'), if_pos rfl]
  · intro t' ht' hne
    exact Finset.sum_eq_zero fun c' hc' => by rw [key t' (Finset.mem_range.1 ht') c' (Finset.mem_range.1 hc'), if_neg hne, mul_zero]
  · intro hn; exact absurd (Finset.mem_range.2 ht) hn

/-- The transposed convolution without output padding commutes with the transformation, if the filter intertwines. -/
theorem Moved.convT {τ : Equiv.Perm (Fin n)} {δ : Fin n → ℝ} {Ai A' Ao Ao' : NpMat ℝ} {F : Kern} {k stride dil groups ci : ℕ} {pad opad : Fin n → ℕ} {bias : Option (ℕ → ℝ)} {x y x' : FMap n B} (h : Moved τ δ Ai x y)
    (hx : convTransposeNd F.swap k stride pad opad dil groups bias x = .ok x') (hp : ∀ i j, pad i = pad j) (hop : ∀ i, opad i = 0) (hro : Ao.rows = F.rows * groups) (hco : Ao.cols = F.rows * groups)
    (hci : F.cols = groups * ci)
    (hA : ∀ t < groups, ∀ c < ci, ∀ f : ℕ → ℝ, ∑ c' ∈ Finset.range (groups * ci), Ai.get (t * ci + c) c' * f c' = ∑ c' ∈ Finset.range ci, A'.get c c' * f (t * ci + c'))
    (hO : ∀ t < groups, ∀ o < F.rows, ∀ f : ℕ → ℝ, ∑ o' ∈ Finset.range (groups * F.rows), Ao.get (t * F.rows + o) o' * f o' = ∑ o' ∈ Finset.range F.rows, Ao'.get o o' * f (t * F.rows + o'))
    (hF : ∀ (u : Fin n → Fin k), ∀ o < F.rows, ∀ c' < F.cols, ∑ c ∈ Finset.range F.cols, F.get o c (flatIndex k u) * Ai.get c c' = ∑ o' ∈ Finset.range F.rows, Ao'.get o o' * F.get o' c' (flatIndex k (sourceFin τ δ u)))
    (hb : ∀ o < F.rows * groups, ∑ o' ∈ Finset.range (F.rows * groups), Ao.get o o' * Linear.biasAt bias o' = Linear.biasAt bias o) :
    ∃ y', convTransposeNd F.swap k stride pad opad dil groups bias y = .ok y' ∧ Moved τ δ Ao x' y' := by
  unfold convTransposeNd at hx
  split_ifs at hx with hok
  obtain rfl := Except.ok.inj hx
  obtain ⟨hk, hs, hd, hg, hch, hmod, hsh⟩ := hok
  have hok' : 0 < k ∧ 0 < stride ∧ 0 < dil ∧ 0 < groups ∧ y.chans = F.swap.rows ∧ F.swap.rows % groups = 0 ∧
      ∀ i, 0 < y.shape i ∧ (opad i < stride ∨ opad i < dil) ∧ 0 < ((y.shape i : ℤ) - 1) * stride - 2 * pad i + dil * ((k : ℤ) - 1) + opad i + 1 := by
    refine ⟨hk, hs, hd, hg, h.chans.trans hch, hmod, fun i => ?_⟩
    have := hsh (τ i)
    rw [h.shape, hp i (τ i), hop]
    rwa [hop] at this
  refine ⟨_, (if_pos hok' : convTransposeNd F.swap k stride pad opad dil groups bias y = _), hro, hco, rfl, fun i => by simp only [h.shape, hp i (τ i), hop], fun b o ho p hpb => ?_⟩
  simp only
  have ho : o < F.rows * groups := ho
  simp only [show F.swap.cols = F.rows from rfl, show F.swap.rows = F.cols from rfl, show ∀ i j p, F.swap.get i j p = F.get j i p from fun _ _ _ => rfl] at *
  have hci' : F.cols / groups = ci := by rw [hci, Nat.mul_div_cancel_left _ hg]
  rw [hci']
  set L : Fin n → ℕ := fun i => (((x.shape i : ℤ) - 1) * stride - 2 * pad i + dil * ((k : ℤ) - 1) + opad i + 1).toNat with hL
  have hLe : ∀ i, L i + 2 * pad i = (x.shape i - 1) * stride + dil * (k - 1) + 1 := by
    intro i
    obtain ⟨h1, -, h2⟩ := hsh i
    simp only [hL, hop] at h2 ⊢
    have e1 : ((x.shape i : ℤ) - 1) * stride = (((x.shape i - 1) * stride : ℕ) : ℤ) := by push_cast [Nat.cast_sub (show 1 ≤ x.shape i by omega)]; ring
    have e2 : (dil : ℤ) * ((k : ℤ) - 1) = ((dil * (k - 1) : ℕ) : ℤ) := by push_cast [Nat.cast_sub (show 1 ≤ k by omega)]; ring
    rw [e1, e2] at h2 ⊢
    omega
  have hpL : ∀ i, p i < L (τ i) := by
    intro i
    have := hpb i
    simp only [h.shape, hop] at this
    simp only [hL, hop, ← hp i (τ i)]
    exact this
  have hpF : 0 < F.rows := Nat.pos_of_ne_zero fun e => by rw [e] at ho; omega
  have ht : o / F.rows < groups := (Nat.div_lt_iff_lt_mul hpF).2 (by rw [Nat.mul_comm]; exact ho)
  set t := o / F.rows with htdef
  set o1 := o % F.rows with ho1def
  have ho1 : o1 < F.rows := Nat.mod_lt _ hpF
  have hoe : t * F.rows + o1 = o := by rw [Nat.mul_comm]; exact Nat.div_add_mod o F.rows
  -- the position read for each entry of the filter
  have hsrc : ∀ (u : Fin n → Fin k) j, backPos (x.shape j) stride dil (pad j) (sourceFin τ δ u j) (source L τ δ p j) =
      (backPos (y.shape (τ.symm j)) stride dil (pad (τ.symm j)) (u (τ.symm j)) (p (τ.symm j))).map fun q => if δ (τ.symm j) = -1 then x.shape j - 1 - q else q := by
    intro u j
    have hpj := hpL (τ.symm j)
    rw [Equiv.apply_symm_apply] at hpj
    rw [h.shape, Equiv.apply_symm_apply, hp (τ.symm j) j]
    unfold source sourceFin
    simp only [source]
    by_cases hδ : δ (τ.symm j) = -1
    · simp only [if_pos hδ]
      exact backPos_rev hs (u _).2 (hLe j) hpj
    · simp only [if_neg hδ]
      rw [Option.map_id']
  have hall : ∀ (u : Fin n → Fin k), (∀ i, (backPos (y.shape i) stride dil (pad i) (u i) (p i)).isSome) ↔ ∀ j, (backPos (x.shape j) stride dil (pad j) (sourceFin τ δ u j) (source L τ δ p j)).isSome := by
    intro u
    constructor
    · intro hi j
      rw [hsrc, Option.isSome_map]
      exact hi _
    · intro hj i
      have := hj (τ i)
      rwa [hsrc, Option.isSome_map, Equiv.symm_apply_apply] at this
  have hcl : ∀ c < ci, t * ci + c < x.chans := fun c hc => by
    rw [hch, hci]
    calc t * ci + c < t * ci + ci := by omega
      _ = (t + 1) * ci := by ring
      _ ≤ groups * ci := Nat.mul_le_mul_right _ ht
  -- the value read by the transposed convolution
  set X : (Fin n → Fin k) → ℕ → ℝ := fun u c => if ∀ j, (backPos (x.shape j) stride dil (pad j) (u j) (source L τ δ p j)).isSome then
    x.get b c fun j => (backPos (x.shape j) stride dil (pad j) (u j) (source L τ δ p j)).getD 0 else 0 with hX
  have e1 : ∀ (u : Fin n → Fin k), ∀ c < ci, (if ∀ i, (backPos (y.shape i) stride dil (pad i) (u i) (p i)).isSome then
      F.get o1 (t * ci + c) (flatIndex k u) * y.get b (t * ci + c) (fun i => (backPos (y.shape i) stride dil (pad i) (u i) (p i)).getD 0) else 0) =
      ∑ c' ∈ Finset.range ci, F.get o1 (t * ci + c) (flatIndex k u) * A'.get c c' * X (sourceFin τ δ u) (t * ci + c') := by
    intro u c hc
    by_cases ha : ∀ i, (backPos (y.shape i) stride dil (pad i) (u i) (p i)).isSome
    · rw [if_pos ha, h.get b _ (hcl c hc), hch, hci, hA t ht c hc, Finset.mul_sum]
      · refine Finset.sum_congr rfl fun c' _ => ?_
        rw [hX]
        simp only
        rw [if_pos ((hall u).1 ha), mul_assoc]
        congr 3
        funext j
        obtain ⟨v, hv⟩ := Option.isSome_iff_exists.1 (ha (τ.symm j))
        rw [hsrc u j, hv, Option.map_some]
        simp only [source, hv, Option.getD_some]
      · intro i
        obtain ⟨v, hv⟩ := Option.isSome_iff_exists.1 (ha i)
        simp only [hv, Option.getD_some]
        exact ((backPos_eq_some hs).1 hv).2
    · rw [if_neg ha]
      refine (Finset.sum_eq_zero fun c' _ => ?_).symm
      rw [hX]
      simp only
      rw [if_neg fun hh => ha ((hall u).2 hh), mul_zero]
  have e2 : ∑ c ∈ Finset.range ci, ∑ u : Fin n → Fin k, (if ∀ i, (backPos (y.shape i) stride dil (pad i) (u i) (p i)).isSome then
      F.get o1 (t * ci + c) (flatIndex k u) * y.get b (t * ci + c) (fun i => (backPos (y.shape i) stride dil (pad i) (u i) (p i)).getD 0) else 0) =
      ∑ u : Fin n → Fin k, ∑ c' ∈ Finset.range ci, ∑ o' ∈ Finset.range F.rows, Ao'.get o1 o' * (F.get o' (t * ci + c') (flatIndex k (sourceFin τ δ u)) * X (sourceFin τ δ u) (t * ci + c')) := by
    rw [Finset.sum_comm]
    refine Finset.sum_congr rfl fun u _ => ?_
    rw [Finset.sum_congr rfl fun c hc => e1 u c (Finset.mem_range.1 hc), Finset.sum_comm]
    refine Finset.sum_congr rfl fun c' hc' => ?_
    have hc' := Finset.mem_range.1 hc'
    rw [← Finset.sum_mul, ← groups_cols hA ht hc' (fun c => F.get o1 c (flatIndex k u)), ← hci, hF u o1 ho1 _ (by rw [← hch]; exact hcl c' hc'), Finset.sum_mul]
    exact Finset.sum_congr rfl fun o' _ => by ring
  rw [e2]
  have e3 : ∑ u : Fin n → Fin k, ∑ c' ∈ Finset.range ci, ∑ o' ∈ Finset.range F.rows, Ao'.get o1 o' * (F.get o' (t * ci + c') (flatIndex k (sourceFin τ δ u)) * X (sourceFin τ δ u) (t * ci + c')) =
      ∑ o' ∈ Finset.range F.rows, Ao'.get o1 o' * ∑ c' ∈ Finset.range ci, ∑ u : Fin n → Fin k, F.get o' (t * ci + c') (flatIndex k u) * X u (t * ci + c') := by
    rw [(sourceFin_bij (k := k) τ δ).sum_comp fun u => ∑ c' ∈ Finset.range ci, ∑ o' ∈ Finset.range F.rows, Ao'.get o1 o' * (F.get o' (t * ci + c') (flatIndex k u) * X u (t * ci + c'))]
    simp only [Finset.mul_sum]
    rw [Finset.sum_comm]
    rw [Finset.sum_congr rfl fun c' _ => Finset.sum_comm]
    exact Finset.sum_comm
  rw [e3]
  -- the other side
  have e4 : ∀ o' < F.rows, ∑ c ∈ Finset.range ci, ∑ u : Fin n → Fin k, F.get o' (t * ci + c) (flatIndex k u) * X u (t * ci + c) =
      ∑ c ∈ Finset.range ci, ∑ u : Fin n → Fin k, (if ∀ i, (backPos (x.shape i) stride dil (pad i) (u i) (source L τ δ p i)).isSome then
        F.get ((t * F.rows + o') % F.rows) ((t * F.rows + o') / F.rows * ci + c) (flatIndex k u) *
          x.get b ((t * F.rows + o') / F.rows * ci + c) (fun i => (backPos (x.shape i) stride dil (pad i) (u i) (source L τ δ p i)).getD 0) else 0) := by
    intro o' ho'
    have d1 : (t * F.rows + o') / F.rows = t := by rw [Nat.mul_comm, Nat.mul_add_div hpF, Nat.div_eq_of_lt ho', Nat.add_zero]
    have d2 : (t * F.rows + o') % F.rows = o' := by rw [Nat.mul_comm, Nat.mul_add_mod, Nat.mod_eq_of_lt ho']
    rw [d1, d2]
    refine Finset.sum_congr rfl fun c _ => Finset.sum_congr rfl fun u _ => ?_
    rw [hX]
    simp only [mul_ite, mul_zero]
  have e5 := hO t ht o1 ho1 fun o' => ∑ c ∈ Finset.range ci, ∑ u : Fin n → Fin k, (if ∀ i, (backPos (x.shape i) stride dil (pad i) (u i) (source L τ δ p i)).isSome then
        F.get (o' % F.rows) (o' / F.rows * ci + c) (flatIndex k u) * x.get b (o' / F.rows * ci + c) (fun i => (backPos (x.shape i) stride dil (pad i) (u i) (source L τ δ p i)).getD 0) else 0)
  rw [Finset.sum_congr rfl fun o' ho' => by rw [e4 o' (Finset.mem_range.1 ho')], ← e5, hoe, ← hb o ho, Nat.mul_comm groups, ← Finset.sum_add_distrib]
  exact Finset.sum_congr rfl fun o' _ => by ring

end Escnn
