import Verif.Model.Concatenated
import Verif.Spec.FinGroup
import Verif.Props.C48_Pointwise
import Verif.Props.C47_Shapes
import Verif.Lemmas.Gated

/-!
# C52: the concatenated nonlinearity maps signed permutations to permutations of twice the size
-/

namespace Escnn

open Finset

variable {B P S G Id C : Type}

theorem filter_range_single {s : ℕ} {p : ℕ → Bool} {j : ℕ} (hj : j < s) (h : ∀ i < s, p i = true ↔ i = j) : (List.range s).filter p = [j] := by
  have h1 : (List.range s).filter p = (List.range s).filter (· == j) := List.filter_congr fun i hi => by
    rw [Bool.eq_iff_iff, h i (List.mem_range.1 hi), beq_iff_eq]
  rw [h1, List.filter_beq, List.count_eq_one_of_mem List.nodup_range (List.mem_range.2 hj)]
  rfl

theorem rowEntry_ok {s : ℕ} {r : NpMat ℝ} {i : ℕ} {e : ℤ} (h : rowEntry s r i = .ok e) :
    (e = -1 ∧ ∀ j < s, r.get i j = 0) ∨ ∃ j < s, e = j ∧ r.get i j ≠ 0 ∧ ∀ j' < s, j' ≠ j → r.get i j' = 0 := by
  unfold rowEntry at h
  split at h
  · rename_i hl
    left
    refine ⟨(Except.ok.inj h).symm, fun j hj => ?_⟩
    have := List.filter_eq_nil_iff.1 hl j (List.mem_range.2 hj)
    simpa using this
  · rename_i j hl
    right
    have hm : ∀ j', j' < s ∧ r.get i j' ≠ 0 ↔ j' = j := fun j' => by
      have : j' ∈ (List.range s).filter (fun j => decide (r.get i j ≠ 0)) ↔ j' = j := by rw [hl]; simp
      simpa using this
    obtain ⟨h1, h2⟩ := (hm j).2 rfl
    exact ⟨j, h1, (Except.ok.inj h).symm, h2, fun j' hj' hne => by by_contra h0; exact hne ((hm j').1 ⟨hj', h0⟩)⟩
  · cases h

theorem rowEntry_single {s : ℕ} {r : NpMat ℝ} {i j : ℕ} (hj : j < s) (h : ∀ j' < s, r.get i j' ≠ 0 ↔ j' = j) : rowEntry s r i = .ok j := by
  unfold rowEntry
  rw [filter_range_single hj fun j' hj' => by rw [decide_eq_true_iff]; exact h j' hj']

/-- The matrix built by `doubledMat`. -/
noncomputable def doubled (s : ℕ) (r : NpMat ℝ) : NpMat ℝ := ⟨2 * s, 2 * s, fun a c => signBlock (r.get (a / 2) (c / 2)) (a % 2) (c % 2)⟩

/-- **C52** A signed permutation matrix is accepted and becomes the matrix with a `2 × 2` identity for each `1`, a `2 × 2` exchange for each `-1` and zeros elsewhere. -/
theorem C52_accepts {s : ℕ} {r : NpMat ℝ} (h : IsSignedPermMat s r) : ∃ M, doubledMat s r = .ok M ∧ M.rows = 2 * s ∧ M.cols = 2 * s ∧
    ∀ i j : Fin s, ∀ p q : Fin 2, M.get (2 * i + p) (2 * j + q) = if r.get i j = 1 ∧ p = q ∨ r.get i j = -1 ∧ p ≠ q then 1 else 0 := by
  obtain ⟨σ, t, ht, hr, -⟩ := h.perm
  have hne : ∀ i : Fin s, t i ≠ 0 := fun i => by rcases ht i with h | h <;> rw [h] <;> norm_num
  have hrow : ∀ i : Fin s, rowEntry s r i = .ok ((σ i : ℕ) : ℤ) := fun i => rowEntry_single (σ i).2 fun j hj => by
    rw [hr i ⟨j, hj⟩]
    constructor
    · intro h
      by_contra hc
      exact h (if_neg fun e => hc (by rw [← e]))
    · intro e
      rw [if_pos (Fin.ext e)]
      exact hne i
  have hmap : mapE (rowEntry s r) (List.range s) = .ok ((List.range s).map fun i => if h : i < s then ((σ ⟨i, h⟩ : ℕ) : ℤ) else 0) := mapE_map fun i hi => by
    rw [dif_pos (List.mem_range.1 hi)]
    exact hrow ⟨i, List.mem_range.1 hi⟩
  refine ⟨doubled s r, ?_, rfl, rfl, fun i j p q => ?_⟩
  · unfold doubledMat
    simp only [hmap, bind, Except.bind]
    rw [if_neg (not_not.2 ?_), if_neg ?_]
    · rfl
    · rintro ⟨i, hi, j, hj, h1, h2, h3⟩
      rw [hr ⟨i, hi⟩ ⟨j, hj⟩] at h1 h2 h3
      split_ifs at h1 h2 h3
      · rcases ht ⟨i, hi⟩ with h | h
        · exact h1 h
        · exact h2 h
      · exact h3 rfl
    · refine List.Nodup.map_on ?_ List.nodup_range
      intro a ha c hc e
      rw [dif_pos (List.mem_range.1 ha), dif_pos (List.mem_range.1 hc)] at e
      have := σ.injective (Fin.ext (Int.natCast_inj.1 e))
      simpa using this
  · show signBlock (r.get ((2 * (i : ℕ) + p) / 2) ((2 * (j : ℕ) + q) / 2)) ((2 * (i : ℕ) + p) % 2) ((2 * (j : ℕ) + q) % 2) = _
    have hp := p.2
    have hq := q.2
    rw [show (2 * (i : ℕ) + p) / 2 = i by omega, show (2 * (j : ℕ) + q) / 2 = j by omega, show (2 * (i : ℕ) + p) % 2 = p by omega, show (2 * (j : ℕ) + q) % 2 = q by omega]
    unfold signBlock
    by_cases h1 : r.get i j = 1
    · rw [if_pos h1, h1]
      by_cases e : p = q
      · simp [e]
      · rw [if_neg fun e' => e (Fin.ext e'), if_neg (by norm_num [e])]
    · rw [if_neg h1]
      by_cases h2 : r.get i j = -1
      · rw [if_pos h2, h2]
        by_cases e : p = q
        · subst e
          rw [if_neg (by omega), if_neg (by norm_num)]
        · rw [if_pos (by have : (p : ℕ) ≠ q := fun e' => e (Fin.ext e')
                         omega), if_pos (.inr ⟨rfl, e⟩)]
      · rw [if_neg h2, if_neg (by tauto)]

theorem doubledMat_eq {s : ℕ} {r M : NpMat ℝ} (h : doubledMat s r = .ok M) : M = doubled s r := by
  unfold doubledMat at h
  obtain ⟨e, -, h⟩ := bind_ok h
  split_ifs at h
  exact (Except.ok.inj h).symm

/-- **C52** Conversely, a matrix with no zero column is accepted only if it is a signed permutation matrix. -/
theorem C52_only_signed {s : ℕ} {r M : NpMat ℝ} (h1 : r.rows = s) (h2 : r.cols = s) (hcol : ∀ j < s, ∃ i < s, r.get i j ≠ 0) (h : doubledMat s r = .ok M) : IsSignedPermMat s r := by
  unfold doubledMat at h
  obtain ⟨e, he, h⟩ := bind_ok h
  split_ifs at h with h3 h4
  rw [mapE_ok_iff] at he
  push Not at h4
  -- every row has at most one entry
  have hrow : ∀ i < s, (∀ j < s, r.get i j = 0) ∨ ∃ j < s, r.get i j ≠ 0 ∧ ∀ j' < s, j' ≠ j → r.get i j' = 0 := by
    intro i hi
    have hlen := he.length_eq
    rw [List.length_range] at hlen
    have := List.forall₂_iff_get.1 he
    have h5 := this.2 i (by simpa using hi) (by omega)
    rcases rowEntry_ok h5 with ⟨-, h⟩ | ⟨j, a, -, b, c⟩
    · left
      intro j hj
      have := h j hj
      simpa using this
    · right
      exact ⟨j, a, by simpa using b, fun j' hj' hne => by have := c j' hj' hne; simpa using this⟩
  choose f hf hfne using fun j : Fin s => hcol j j.2
  have hinj : Function.Injective fun j : Fin s => (⟨f j, hf j⟩ : Fin s) := by
    intro j j' e
    have e : f j = f j' := congrArg Fin.val e
    rcases hrow (f j) (hf j) with h | ⟨j0, -, -, h⟩
    · exact absurd (h j j.2) (hfne j)
    · have a : (j : ℕ) = j0 := by by_contra hc; exact hfne j (h j j.2 hc)
      have b : (j' : ℕ) = j0 := by by_contra hc; exact hfne j' (by rw [← e]; exact h j' j'.2 hc)
      exact Fin.ext (a.trans b.symm)
  refine ⟨h1, h2, Equiv.ofBijective _ (Finite.injective_iff_bijective.1 hinj), fun j => r.get (f j) j, fun j => ?_, fun i j => ?_⟩
  · by_contra hc
    push Not at hc
    exact hfne j (h4 (f j) (hf j) j j.2 hc.1 hc.2)
  · by_cases e : i = ⟨f j, hf j⟩
    · refine Eq.trans ?_ (if_pos e).symm
      rw [e]
    · refine Eq.trans ?_ (if_neg e).symm
      obtain ⟨j', hj'⟩ := (Finite.injective_iff_bijective.1 hinj).2 i
      have hj'' : f j' = i := congrArg Fin.val hj'
      rcases hrow i i.2 with h | ⟨j0, -, -, h⟩
      · exact h j j.2
      · have a : (j' : ℕ) = j0 := by by_contra hc; exact hfne j' (by rw [hj'']; exact h j' j'.2 hc)
        refine h j j.2 fun hc => e ?_
        obtain rfl : j = j' := Fin.ext (hc.trans a.symm)
        exact hj'.symm

theorem signBlock_flip {t u : ℝ} (ht : t = 1 ∨ t = -1) (hu : u = 0 ∨ u = 1 ∨ u = -1) {p q : ℕ} (hp : p < 2) (hq : q < 2) :
    signBlock (t * u) p q = signBlock u (if t = 1 then p else 1 - p) q := by
  have h0 : (-1 : ℝ) ≠ 1 := by norm_num
  have h3 : (1 : ℝ) ≠ -1 := by norm_num
  have h4 : (0 : ℝ) ≠ -1 := by norm_num
  rcases ht with rfl | rfl
  · simp
  · rcases hu with rfl | rfl | rfl <;> interval_cases p <;> interval_cases q <;> simp [signBlock, h0, h3]

/-- Where the rows of `doubled` have their ones. -/
theorem doubled_rows {s : ℕ} {r : NpMat ℝ} (h : IsSignedPermMat s r) : ∃ (σ : Equiv.Perm (Fin s)) (t : Fin s → ℝ) (τ : Fin (2 * s) → Fin (2 * s)), (∀ i, t i = 1 ∨ t i = -1) ∧
    (∀ i j : Fin s, r.get i j = if j = σ i then t i else 0) ∧ Function.Injective τ ∧
    (∀ (i : Fin s) (p : ℕ) (hp : p < 2), ((τ ⟨2 * i + p, by omega⟩ : Fin (2 * s)) : ℕ) = 2 * (σ i) + if t i = 1 then p else 1 - p) ∧
    ∀ a c : Fin (2 * s), (doubled s r).get a c = if c = τ a then 1 else 0 := by
  obtain ⟨σ, t, ht, hr, -⟩ := h.perm
  have hb : ∀ (i : Fin s) (p : ℕ), p < 2 → 2 * (σ i : ℕ) + (if t i = 1 then p else 1 - p) < 2 * s := fun i p hp => by
    have := (σ i).2
    split_ifs <;> omega
  let τ : Fin (2 * s) → Fin (2 * s) := fun a => ⟨_, hb ⟨(a : ℕ) / 2, by have := a.2; omega⟩ ((a : ℕ) % 2) (Nat.mod_lt _ two_pos)⟩
  refine ⟨σ, t, τ, ht, hr, ?_, ?_, ?_⟩
  · intro a a' e
    have ha := a.2
    have ha' := a'.2
    have e : 2 * (σ ⟨(a : ℕ) / 2, by omega⟩ : ℕ) + (if t ⟨(a : ℕ) / 2, by omega⟩ = 1 then (a : ℕ) % 2 else 1 - (a : ℕ) % 2) =
        2 * (σ ⟨(a' : ℕ) / 2, by omega⟩ : ℕ) + (if t ⟨(a' : ℕ) / 2, by omega⟩ = 1 then (a' : ℕ) % 2 else 1 - (a' : ℕ) % 2) := congrArg Fin.val e
    have e1 : (σ ⟨(a : ℕ) / 2, by omega⟩ : ℕ) = σ ⟨(a' : ℕ) / 2, by omega⟩ := by split_ifs at e <;> omega
    have e2 : (⟨(a : ℕ) / 2, by omega⟩ : Fin s) = ⟨(a' : ℕ) / 2, by omega⟩ := σ.injective (Fin.ext e1)
    have e3 : (a : ℕ) / 2 = (a' : ℕ) / 2 := congrArg Fin.val e2
    rw [e2] at e
    apply Fin.ext
    split_ifs at e <;> omega
  · intro i p hp
    show 2 * (σ ⟨(2 * i + p) / 2, _⟩ : ℕ) + (if t ⟨(2 * i + p) / 2, _⟩ = 1 then (2 * i + p) % 2 else 1 - (2 * i + p) % 2) = _
    have h1 : (⟨(2 * (i : ℕ) + p) / 2, by omega⟩ : Fin s) = i := Fin.ext (show (2 * (i : ℕ) + p) / 2 = i by omega)
    rw [h1, show (2 * (i : ℕ) + p) % 2 = p by omega]
  · intro a c
    have hc := c.2
    have ha := a.2
    show signBlock (r.get ((a : ℕ) / 2) ((c : ℕ) / 2)) ((a : ℕ) % 2) ((c : ℕ) % 2) = _
    have := hr ⟨(a : ℕ) / 2, by omega⟩ ⟨(c : ℕ) / 2, by omega⟩
    simp only at this
    rw [this]
    by_cases e : (⟨(c : ℕ) / 2, by omega⟩ : Fin s) = σ ⟨(a : ℕ) / 2, by omega⟩
    · rw [if_pos e]
      have e' : (c : ℕ) / 2 = σ ⟨(a : ℕ) / 2, by omega⟩ := congrArg Fin.val e
      rcases ht ⟨(a : ℕ) / 2, by omega⟩ with h | h
      · rw [h, signBlock, if_pos rfl]
        refine if_congr ?_ rfl rfl
        rw [Fin.ext_iff]
        show _ ↔ (c : ℕ) = 2 * _ + if t _ = 1 then _ else _
        rw [if_pos h]
        omega
      · have h0 : (-1 : ℝ) ≠ 1 := by norm_num
        rw [h, signBlock, if_neg h0, if_pos rfl]
        refine if_congr ?_ rfl rfl
        rw [Fin.ext_iff]
        show _ ↔ (c : ℕ) = 2 * _ + if t _ = 1 then _ else _
        rw [h, if_neg h0]
        omega
    · rw [if_neg e, if_neg]
      · norm_num [signBlock]
      · intro hc
        apply e
        apply Fin.ext
        have hc : (c : ℕ) = 2 * (σ ⟨(a : ℕ) / 2, by omega⟩ : ℕ) + if t ⟨(a : ℕ) / 2, by omega⟩ = 1 then (a : ℕ) % 2 else 1 - (a : ℕ) % 2 := congrArg Fin.val hc
        show (c : ℕ) / 2 = _
        split_ifs at hc <;> omega

/-- **C52** The doubled matrix of a signed permutation matrix is a permutation matrix. -/
theorem C52_perm {s : ℕ} {r : NpMat ℝ} (h : IsSignedPermMat s r) : IsPermMat (2 * s) (doubled s r) := by
  obtain ⟨-, -, τ, -, -, hi, -, hd⟩ := doubled_rows h
  refine ⟨rfl, rfl, (Equiv.ofBijective τ (Finite.injective_iff_bijective.1 hi)).symm, fun a c => ?_⟩
  rw [hd]
  refine if_congr ?_ rfl rfl
  rw [Equiv.eq_symm_apply]
  exact eq_comm

theorem doubled_congr {s : ℕ} {r r' : NpMat ℝ} (h : ∀ i < s, ∀ j < s, r.get i j = r'.get i j) : doubled s r ≈ doubled s r' :=
  ⟨rfl, rfl, fun a c (ha : a < 2 * s) (hc : c < 2 * s) => by
    show signBlock _ _ _ = signBlock _ _ _
    rw [h _ (by omega) _ (by omega)]⟩

theorem doubled_eye (s : ℕ) : doubled s (NpMat.eye s) ≈ NpMat.eye (2 * s) :=
  ⟨rfl, rfl, fun a c (ha : a < 2 * s) (hc : c < 2 * s) => by
    show signBlock (if a / 2 = c / 2 then 1 else 0) (a % 2) (c % 2) = if a = c then 1 else 0
    by_cases e : a / 2 = c / 2
    · rw [if_pos e, signBlock, if_pos rfl]
      exact if_congr (by omega) rfl rfl
    · rw [if_neg e, signBlock, if_neg (by norm_num), if_neg (by norm_num), if_neg (by omega)]⟩

theorem doubled_mul {s : ℕ} {r r' : NpMat ℝ} (h : IsSignedPermMat s r) (h' : IsSignedPermMat s r') : doubled s (r.mul r') ≈ (doubled s r).mul (doubled s r') := by
  obtain ⟨σ, t, τ, ht, hr, -, hτ, hd⟩ := doubled_rows h
  obtain ⟨σ', t', ht', hr', -⟩ := h'.perm
  refine ⟨rfl, rfl, fun a c (ha : a < 2 * s) (hc : c < 2 * s) => ?_⟩
  show signBlock (∑ k ∈ range r.cols, r.get (a / 2) k * r'.get k (c / 2)) (a % 2) (c % 2) = ∑ k ∈ range (2 * s), (doubled s r).get a k * (doubled s r').get k c
  rw [h.2.1]
  have e1 : ∑ k ∈ range s, r.get (a / 2) k * r'.get k (c / 2) = t ⟨a / 2, by omega⟩ * r'.get (σ ⟨a / 2, by omega⟩) (c / 2) := by
    rw [sum_eq_single (σ ⟨a / 2, by omega⟩ : ℕ)]
    · have := hr ⟨a / 2, by omega⟩ (σ ⟨a / 2, by omega⟩)
      rw [if_pos rfl] at this
      rw [← this]
    · intro k hk hne
      have := hr ⟨a / 2, by omega⟩ ⟨k, mem_range.1 hk⟩
      rw [if_neg fun e => hne (congrArg Fin.val e)] at this
      simp only at this
      rw [this, zero_mul]
    · intro hn
      exact absurd (mem_range.2 (σ _).2) hn
  have e2 : ∑ k ∈ range (2 * s), (doubled s r).get a k * (doubled s r').get k c = (doubled s r').get (τ ⟨a, ha⟩) c := by
    rw [sum_eq_single (τ ⟨a, ha⟩ : ℕ)]
    · have := hd ⟨a, ha⟩ (τ ⟨a, ha⟩)
      rw [if_pos rfl] at this
      simp only at this
      rw [this, one_mul]
    · intro k hk hne
      have := hd ⟨a, ha⟩ ⟨k, mem_range.1 hk⟩
      rw [if_neg fun e => hne (congrArg Fin.val e)] at this
      simp only at this
      rw [this, zero_mul]
    · intro hn
      exact absurd (mem_range.2 (τ _).2) hn
  have e3 : (τ ⟨a, ha⟩ : ℕ) = 2 * (σ ⟨a / 2, by omega⟩) + if t ⟨a / 2, by omega⟩ = 1 then a % 2 else 1 - a % 2 := by
    have := hτ ⟨a / 2, by omega⟩ (a % 2) (Nat.mod_lt _ two_pos)
    rw [← this]
    congr 2
    apply Fin.ext
    show a = 2 * (a / 2) + a % 2
    omega
  have h4 : (if t ⟨a / 2, by omega⟩ = 1 then a % 2 else 1 - a % 2) < 2 := by split_ifs <;> omega
  rw [e1, e2, e3]
  show _ = signBlock (r'.get ((2 * (σ ⟨a / 2, _⟩ : ℕ) + _) / 2) (c / 2)) ((2 * (σ ⟨a / 2, _⟩ : ℕ) + _) % 2) (c % 2)
  rw [Nat.mul_add_div two_pos, Nat.div_eq_of_lt h4, Nat.add_zero, Nat.mul_add_mod, Nat.mod_eq_of_lt h4]
  refine signBlock_flip (ht _) ?_ (Nat.mod_lt _ two_pos) (Nat.mod_lt _ two_pos)
  have := hr' (σ ⟨a / 2, by omega⟩) ⟨c / 2, by omega⟩
  simp only at this
  rw [this]
  split_ifs
  · exact .inr (ht' _)
  · exact .inl rfl

/-- **C52** For a signed permutation representation of a finite group, the doubled matrices form a representation by permutation matrices, of twice the size. -/
theorem C52_representation {els : List G} {mul : G → G → G} {inv : G → G} {one : G} (hG : FinGroup els mul inv one) {r : Rep G Id} (hr : LinRep (· ∈ els) mul one r.size r.mat) (hsig : ∀ g ∈ els, IsSignedPermMat r.size (r.mat g))
    {known : List (Rep G Id)} (hk : ∀ k ∈ known, k.name ≠ "concatenated_" ++ r.name) (decomp : (G → NpMat ℝ) → NpMat ℝ × NpMat ℝ × List Id) :
    ∃ q, concatRep (some els) known decomp r = .ok q ∧ q.name = "concatenated_" ++ r.name ∧ "pointwise" ∈ q.nonlin ∧ LinRep (· ∈ els) mul one (2 * r.size) q.mat ∧
      ∀ g ∈ els, IsPermMat (2 * r.size) (q.mat g) := by
  have hok : ∀ g ∈ els, doubledMat r.size (r.mat g) = .ok (doubled r.size (r.mat g)) := fun g hg => by
    obtain ⟨M, h, -⟩ := C52_accepts (hsig g hg)
    rw [h, doubledMat_eq h]
  have hfun : ∀ g ∈ els, doubledFun r.size r.mat g = doubled r.size (r.mat g) := fun g hg => by
    unfold doubledFun
    rw [hok g hg]
  have hfind : known.find? (fun k => k.name = "concatenated_" ++ r.name) = none := List.find?_eq_none.2 fun k h => by simpa using hk k h
  refine ⟨⟨"concatenated_" ++ r.name, (decomp (doubledFun r.size r.mat)).2.2, (decomp (doubledFun r.size r.mat)).1, (decomp (doubledFun r.size r.mat)).2.1, doubledFun r.size r.mat,
    insert "pointwise" r.nonlin⟩, ?_, rfl, Finset.mem_insert_self _ _, ⟨?_, ?_, ?_, ?_⟩, ?_⟩
  · unfold concatRep
    simp only [hfind, mapE_map (g := fun g => doubled r.size (r.mat g)) hok, bind, Except.bind]
  · intro g hg
    show (doubledFun r.size r.mat g).rows = _
    rw [hfun g hg]
    rfl
  · intro g hg
    show (doubledFun r.size r.mat g).cols = _
    rw [hfun g hg]
    rfl
  · show doubledFun r.size r.mat one ≈ _
    rw [hfun one hG.one_mem]
    exact (doubled_congr fun i hi j hj => hr.map_one.2.2 i j (by rw [hr.rows one hG.one_mem]; exact hi) (by rw [hr.cols one hG.one_mem]; exact hj)).trans (doubled_eye _)
  · intro g h hg hh
    show doubledFun r.size r.mat (mul g h) ≈ (doubledFun r.size r.mat g).mul (doubledFun r.size r.mat h)
    have hm := hG.mul_mem g hg h hh
    rw [hfun _ hm, hfun g hg, hfun h hh]
    exact (doubled_congr fun i hi j hj => (hr.map_mul g h hg hh).2.2 i j (by rw [hr.rows _ hm]; exact hi) (by rw [hr.cols _ hm]; exact hj)).trans (doubled_mul (hsig g hg) (hsig h hh))
  · intro g hg
    show IsPermMat _ (doubledFun r.size r.mat g)
    rw [hfun g hg]
    exact C52_perm (hsig g hg)

namespace ConcatNL

/-- The representations of the type are representations of the group, and none of them has a doubled representation in the dictionary of the group already. -/
structure Good (els : List G) (mul : G → G → G) (one : G) (known : List (Rep G Id)) (t : FType S (Rep G Id)) : Prop where
  rep : ∀ r ∈ t.reprs, LinRep (· ∈ els) mul one r.size r.mat
  fresh : ∀ r ∈ t.reprs, ∀ k ∈ known, k.name ≠ "concatenated_" ++ r.name

theorem concatRep_ok {els : List G} {known : List (Rep G Id)} {decomp : (G → NpMat ℝ) → NpMat ℝ × NpMat ℝ × List Id} {r q : Rep G Id} (hk : ∀ k ∈ known, k.name ≠ "concatenated_" ++ r.name)
    (h : concatRep (some els) known decomp r = .ok q) : q.size = (decomp q.mat).1.rows ∧ ∀ g ∈ els, doubledMat r.size (r.mat g) = .ok (q.mat g) := by
  have hfind : known.find? (fun k => k.name = "concatenated_" ++ r.name) = none := List.find?_eq_none.2 fun k h => by simpa using hk k h
  unfold concatRep at h
  simp only [hfind] at h
  obtain ⟨l, hl, h⟩ := bind_ok h
  obtain rfl := Except.ok.inj h
  refine ⟨rfl, fun g hg => ?_⟩
  rw [mapE_ok_iff] at hl
  obtain ⟨i, hi, e⟩ := List.getElem_of_mem hg
  have := (List.forall₂_iff_get.1 hl).2 i hi (by rw [← hl.length_eq]; exact hi)
  simp only [List.get_eq_getElem, e] at this
  show _ = Except.ok (doubledFun r.size r.mat g)
  unfold doubledFun
  rw [this]

theorem signed_of_ok {els : List G} {mul : G → G → G} {inv : G → G} {one : G} (hG : FinGroup els mul inv one) {r : Rep G Id} (hr : LinRep (· ∈ els) mul one r.size r.mat) {g : G} (hg : g ∈ els) {M : NpMat ℝ}
    (h : doubledMat r.size (r.mat g) = .ok M) : IsSignedPermMat r.size (r.mat g) := by
  refine C52_only_signed (hr.rows g hg) (hr.cols g hg) (fun j hj => ?_) h
  by_contra hc
  push Not at hc
  have hig := hG.inv_mem g hg
  have h1 : (r.mat (inv g)).mul (r.mat g) ≈ NpMat.eye r.size := (hr.map_mul (inv g) g hig hg).symm.trans (by rw [hG.inv_mul g hg]; exact hr.map_one)
  have h2 := h1.2.2 j j (by show j < (r.mat (inv g)).rows; rw [hr.rows _ hig]; exact hj) (by show j < (r.mat g).cols; rw [hr.cols _ hg]; exact hj)
  have h3 : ∑ k ∈ range (r.mat (inv g)).cols, (r.mat (inv g)).get j k * (r.mat g).get k j = 0 := sum_eq_zero fun k hk => by
    rw [hr.cols _ hig] at hk
    rw [hc k (mem_range.1 hk), mul_zero]
  have h4 : (0 : ℝ) = if j = j then 1 else 0 := h3.symm.trans h2
  norm_num at h4

/-- **C52** Whenever the constructor accepts a type (of representations of a finite group whose doubled representations it builds itself), all the representations act by signed permutations, the
representations of the output type act by permutations of twice the size, and the module computes `f(x), f(-x)` for every channel and is equivariant, whatever the function is. -/
theorem C52_equivariant {els : List G} {mul : G → G → G} {inv : G → G} {one : G} (hG : FinGroup els mul inv one) {known : List (Rep G Id)}
    (decomp : (G → NpMat ℝ) → NpMat ℝ × NpMat ℝ × List Id) (hdec : ∀ ρ, (decomp ρ).1.rows = (ρ one).rows) {t : FType S (Rep G Id)} (ht : Good els mul one known t) {function : String} {m : ConcatNL S (Rep G Id)}
    (hm : init (some els) known decomp t function = .ok m) (f : ℝ → ℝ) :
    (∀ r ∈ t.reprs, ∀ g ∈ els, IsSignedPermMat r.size (r.mat g)) ∧
    List.Forall₂ (fun r q : Rep G Id => q.size = 2 * r.size ∧ ∀ g ∈ els, IsPermMat (2 * r.size) (q.mat g)) t.reprs m.outType.reprs ∧
    FibreEquivariant (B := B) (P := P) (C := C) (· ∈ els) t m.outType (forward { m with function := f }) ∧
    PositionLocal (B := B) (P := P) (C := C) Rep.size t (forward { m with function := f }) ∧
    ∀ x : GTensor B P S (Rep G Id) C, x.type = t → x.tensor.chans = t.size Rep.size → ∃ y, forward { m with function := f } x = .ok y ∧ y.type = m.outType ∧ y.tensor.chans = 2 * x.tensor.chans ∧
      ∀ b c p, y.tensor.get b (2 * c) p = f (x.tensor.get b c p) ∧ y.tensor.get b (2 * c + 1) p = f (-(x.tensor.get b c p)) := by
  unfold init at hm
  obtain ⟨-, -, hm⟩ := bind_ok hm
  obtain ⟨out, hout, hm⟩ := bind_ok hm
  obtain ⟨f0, -, hm⟩ := bind_ok hm
  obtain rfl := Except.ok.inj hm
  clear hm
  rw [mapE_ok_iff] at hout
  have hsig : ∀ (k : ℕ) r q, t.reprs[k]? = some r → out[k]? = some q → q.size = 2 * r.size ∧ ∀ g ∈ els, IsSignedPermMat r.size (r.mat g) ∧ q.mat g = doubled r.size (r.mat g) := by
    intro k r q hr hq
    obtain ⟨q', hq', h⟩ := forall₂_get hout hr
    obtain rfl : q' = q := Option.some.inj (hq'.symm.trans hq)
    have hmem := List.mem_of_getElem? hr
    obtain ⟨h1, h2⟩ := concatRep_ok (ht.fresh r hmem) h
    have h3 := fun g hg => doubledMat_eq (h2 g hg)
    refine ⟨?_, fun g hg => ⟨signed_of_ok hG (ht.rep r hmem) hg (h2 g hg), h3 g hg⟩⟩
    rw [h1, hdec, h3 one hG.one_mem]
    rfl
  have hpair : List.Forall₂ (fun r q : Rep G Id => q.size = 2 * r.size ∧ ∀ g ∈ els, IsPermMat (2 * r.size) (q.mat g)) t.reprs out := by
    rw [List.forall₂_iff_get]
    refine ⟨hout.length_eq, fun k h1 h2 => ?_⟩
    obtain ⟨h3, h4⟩ := hsig k _ _ (List.getElem?_eq_getElem h1) (List.getElem?_eq_getElem h2)
    exact ⟨h3, fun g hg => by simp only [List.get_eq_getElem]; rw [(h4 g hg).2]; exact C52_perm (h4 g hg).1⟩
  have hoff : ∀ k, chanOffset Rep.size out k = 2 * chanOffset Rep.size t.reprs k := by
    clear * - hpair
    generalize t.reprs = rs at hpair
    induction hpair with
    | nil => intro k; cases k <;> rfl
    | cons h _ ih =>
      intro k
      cases k with
      | zero => rfl
      | succ k => rw [chanOffset_cons_succ, chanOffset_cons_succ, ih, h.1, Nat.mul_add]
  have hsize : (⟨t.gspace, out⟩ : FType S (Rep G Id)).size Rep.size = 2 * t.size Rep.size := by
    rw [FType.size_eq, FType.size_eq]
    show (out.map Rep.size).sum = _
    rw [← chanOffset_length, hoff, ← hout.length_eq, chanOffset_length]
  have hget : ∀ (k : ℕ) (q : Rep G Id), out[k]? = some q → ∃ r, t.reprs[k]? = some r := fun k q hq => by
    have := (List.getElem?_eq_some_iff.1 hq).1
    rw [← hout.length_eq] at this
    exact ⟨_, List.getElem?_eq_getElem this⟩
  have hsq : t.Square (· ∈ els) := fun r hr g hg => ⟨(ht.rep r hr).rows g hg, (ht.rep r hr).cols g hg⟩
  have hsqo : (⟨t.gspace, out⟩ : FType S (Rep G Id)).Square (· ∈ els) := by
    intro q hq g hg
    obtain ⟨k, hk⟩ := List.mem_iff_getElem?.1 hq
    obtain ⟨r, hr⟩ := hget k q hk
    obtain ⟨h1, h2⟩ := hsig k r q hr hk
    rw [(h2 g hg).2, h1]
    exact ⟨rfl, rfl⟩
  have hfwd : ∀ x : GTensor B P S (Rep G Id) C, x.type = t → x.tensor.chans = t.size Rep.size → forward (⟨t, ⟨t.gspace, out⟩, f⟩ : ConcatNL S (Rep G Id)) x =
      .ok ⟨⟨2 * x.tensor.chans, fun b c p => if c % 2 = 0 then f (x.tensor.get b (c / 2) p) else f (-1 * x.tensor.get b (c / 2) p)⟩, ⟨t.gspace, out⟩, x.coords⟩ := by
    intro x hx hc
    rw [forward, if_pos hx]
    exact if_pos (by rw [hsize]; show 2 * x.tensor.chans = _; rw [hc])
  have hval : ∀ x : GTensor B P S (Rep G Id) C, x.type = t → x.tensor.chans = t.size Rep.size → ∃ y, forward (⟨t, ⟨t.gspace, out⟩, f⟩ : ConcatNL S (Rep G Id)) x = .ok y ∧ y.type = ⟨t.gspace, out⟩ ∧
      y.coords = x.coords ∧ y.tensor.chans = (⟨t.gspace, out⟩ : FType S (Rep G Id)).size Rep.size ∧
      ∀ (k : ℕ) (r : Rep G Id), out[k]? = some r → ∀ o < r.size, ∀ b p, y.tensor.get b (chanOffset Rep.size out k + o) p =
        if o % 2 = 0 then f (x.tensor.get b (chanOffset Rep.size t.reprs k + o / 2) p) else f (-1 * x.tensor.get b (chanOffset Rep.size t.reprs k + o / 2) p) := by
    intro x hx hc
    refine ⟨_, hfwd x hx hc, rfl, rfl, by rw [hsize]; show 2 * x.tensor.chans = _; rw [hc], fun k r _ o _ b p => ?_⟩
    simp only [hoff]
    rw [Nat.mul_add_mod, Nat.mul_add_div two_pos]
  refine ⟨fun r hr g hg => ?_, hpair, ?_, ?_, fun x hx hc => ⟨_, hfwd x hx hc, rfl, rfl, fun b c p => ⟨?_, ?_⟩⟩⟩
  · obtain ⟨k, hk⟩ := List.mem_iff_getElem?.1 hr
    obtain ⟨q, hq, -⟩ := forall₂_get hout hk
    exact ((hsig k r q hk hq).2 g hg).1
  · refine FibreEquivariant.of_fields hsq hsqo (fun x k o b p => if o % 2 = 0 then f (x.get b (chanOffset Rep.size t.reprs k + o / 2) p) else f (-1 * x.get b (chanOffset Rep.size t.reprs k + o / 2) p)) hval ?_
    intro g hg x gx _ _ hact k q hk o ho b p
    obtain ⟨r, hr⟩ := hget k q hk
    obtain ⟨h1, h2⟩ := hsig k r q hr hk
    obtain ⟨h2, h3⟩ := h2 g hg
    obtain ⟨σ, s, τ, hs, hrg, -, hτ, hd⟩ := doubled_rows h2
    rw [h1] at ho
    have hsum : ∀ v : ℕ → ℝ, ∑ j ∈ range q.size, (q.mat g).get o j * v j = v (τ ⟨o, ho⟩) := by
      intro v
      rw [h1, h3, sum_eq_single (τ ⟨o, ho⟩ : ℕ)]
      · have := hd ⟨o, ho⟩ (τ ⟨o, ho⟩)
        rw [if_pos rfl] at this
        simp only at this
        rw [this, one_mul]
      · intro j hj hne
        have := hd ⟨o, ho⟩ ⟨j, mem_range.1 hj⟩
        rw [if_neg fun e => hne (congrArg Fin.val e)] at this
        simp only at this
        rw [this, zero_mul]
      · intro hn
        exact absurd (mem_range.2 (τ _).2) hn
    have hx : gx.get b (chanOffset Rep.size t.reprs k + o / 2) p = s ⟨o / 2, by omega⟩ * x.get b (chanOffset Rep.size t.reprs k + σ ⟨o / 2, by omega⟩) p := by
      rw [hact k r hr b (o / 2) p (by omega), sum_eq_single (σ ⟨o / 2, by omega⟩ : ℕ)]
      · have := hrg ⟨o / 2, by omega⟩ (σ ⟨o / 2, by omega⟩)
        rw [if_pos rfl] at this
        rw [← this]
      · intro j hj hne
        have := hrg ⟨o / 2, by omega⟩ ⟨j, mem_range.1 hj⟩
        rw [if_neg fun e => hne (congrArg Fin.val e)] at this
        simp only at this
        rw [this, zero_mul]
      · intro hn
        exact absurd (mem_range.2 (σ _).2) hn
    have hτo : (τ ⟨o, ho⟩ : ℕ) = 2 * (σ ⟨o / 2, by omega⟩) + if s ⟨o / 2, by omega⟩ = 1 then o % 2 else 1 - o % 2 := by
      have := hτ ⟨o / 2, by omega⟩ (o % 2) (Nat.mod_lt _ two_pos)
      rw [← this]
      congr 2
      apply Fin.ext
      show o = 2 * (o / 2) + o % 2
      omega
    rw [hsum fun j => if j % 2 = 0 then f (x.get b (chanOffset Rep.size t.reprs k + j / 2) p) else f (-1 * x.get b (chanOffset Rep.size t.reprs k + j / 2) p)]
    simp only [hx, hτo, Nat.mul_add_mod, Nat.mul_add_div two_pos]
    have h0 : (-1 : ℝ) ≠ 1 := by norm_num
    rcases Nat.mod_two_eq_zero_or_one o with ho2 | ho2 <;> rcases hs ⟨o / 2, by omega⟩ with h | h <;> simp [h, ho2, h0]
  · exact PositionLocal.of_fields (outT := ⟨t.gspace, out⟩)
      (fun x k o b p => if o % 2 = 0 then f (x.get b (chanOffset Rep.size t.reprs k + o / 2) p) else f (-1 * x.get b (chanOffset Rep.size t.reprs k + o / 2) p)) hval fun _ _ _ _ _ _ => rfl
  · show (if 2 * c % 2 = 0 then _ else _) = _
    rw [if_pos (by omega), Nat.mul_div_cancel_left _ two_pos]
  · show (if (2 * c + 1) % 2 = 0 then _ else _) = _
    rw [if_neg (by omega), show (2 * c + 1) / 2 = c by omega, neg_one_mul]

/-- **C52** The constructor accepts every type of signed permutation representations with the flag, for the three names of functions. -/
theorem C52_init {els : List G} {mul : G → G → G} {inv : G → G} {one : G} (hG : FinGroup els mul inv one) {known : List (Rep G Id)} (decomp : (G → NpMat ℝ) → NpMat ℝ × NpMat ℝ × List Id)
    {t : FType S (Rep G Id)} (ht : Good els mul one known t) (hflag : ∀ r ∈ t.reprs, "concatenated" ∈ r.nonlin) (hsig : ∀ r ∈ t.reprs, ∀ g ∈ els, IsSignedPermMat r.size (r.mat g)) {function : String}
    (hf : function ∈ ["c_relu", "c_sigmoid", "c_tanh"]) : ∃ m, init (some els) known decomp t function = .ok m ∧ m.inType = t ∧
      (function = "c_relu" → m.function = fun t => max t 0) ∧ (function = "c_sigmoid" → m.function = fun t => 1 / (1 + Real.exp (-t))) ∧ (function = "c_tanh" → m.function = Real.tanh) := by
  have hrep : ∀ r ∈ t.reprs, ∃ q, concatRep (some els) known decomp r = .ok q := fun r hr => by
    obtain ⟨q, h, -⟩ := C52_representation hG (ht.rep r hr) (hsig r hr) (ht.fresh r hr) decomp
    exact ⟨q, h⟩
  have hall : ∃ out, mapE (concatRep (some els) known decomp) t.reprs = .ok out := by
    clear hsig hflag ht
    generalize t.reprs = rs at hrep
    induction rs with
    | nil => exact ⟨_, rfl⟩
    | cons r rs ih =>
      obtain ⟨q, hq⟩ := hrep r (by simp)
      obtain ⟨out, hout⟩ := ih fun r' hr' => hrep r' (List.mem_cons_of_mem _ hr')
      exact ⟨q :: out, by rw [mapE, hq, hout]⟩
  obtain ⟨out, hout⟩ := hall
  have hfun : ∃ f, functionOf function = .ok f ∧ (function = "c_relu" → f = fun t => max t 0) ∧ (function = "c_sigmoid" → f = fun t => 1 / (1 + Real.exp (-t))) ∧ (function = "c_tanh" → f = Real.tanh) := by
    simp only [List.mem_cons, List.not_mem_nil, or_false] at hf
    rcases hf with rfl | rfl | rfl
    · exact ⟨torchRelu, rfl, fun _ => rfl, fun h => absurd h (by decide), fun h => absurd h (by decide)⟩
    · exact ⟨torchSigmoid, rfl, fun h => absurd h (by decide), fun _ => rfl, fun h => absurd h (by decide)⟩
    · exact ⟨Real.tanh, rfl, fun h => absurd h (by decide), fun h => absurd h (by decide), fun _ => rfl⟩
  obtain ⟨f, hf1, hf2⟩ := hfun
  refine ⟨⟨t, ⟨t.gspace, out⟩, f⟩, ?_, rfl, hf2⟩
  unfold init
  rw [checkFlags, if_pos hflag]
  simp only [bind, Except.bind, hout, hf1]

/-- **C52** On feature maps, the module commutes with `transform`. -/
theorem C52_transform {n : ℕ} {els : List G} {mul : G → G → G} {inv : G → G} {one : G} (hG : FinGroup els mul inv one) {known : List (Rep G Id)}
    (decomp : (G → NpMat ℝ) → NpMat ℝ × NpMat ℝ × List Id) (hdec : ∀ ρ, (decomp ρ).1.rows = (ρ one).rows) {t : FType S (Rep G Id)} (ht : Good els mul one known t) {function : String} {m : ConcatNL S (Rep G Id)}
    (hm : init (some els) known decomp t function = .ok m) (base : G → NpMat ℝ) : GridEquivariant (n := n) (B := B) (· ∈ els) base t m.outType (onGrid m.forward) := by
  have h := C52_equivariant (B := B) (P := Fin n → ℕ) (C := Unit) hG decomp hdec ht hm m.function
  refine h.2.2.1.onGrid (fun r hr g hg => ⟨(ht.rep r hr).rows g hg, (ht.rep r hr).cols g hg⟩) (fun q hq g hg => ?_) h.2.2.2.1 base
  obtain ⟨k, hk⟩ := List.mem_iff_getElem?.1 hq
  have hlen := (List.getElem?_eq_some_iff.1 hk).1
  rw [← h.2.1.length_eq] at hlen
  obtain ⟨q', hq', h1, h2⟩ := forall₂_get h.2.1 (List.getElem?_eq_getElem hlen)
  obtain rfl : q' = q := Option.some.inj (hq'.symm.trans hk)
  rw [h1]
  exact ⟨(h2 g hg).1, (h2 g hg).2.1⟩

/-- The sign representation of the group with two elements. -/
example : ∃ m, init (some [false, true]) [] (fun ρ : Bool → NpMat ℝ => (NpMat.eye (ρ false).rows, NpMat.eye (ρ false).rows, [()])) (⟨(), [signRep, signRep]⟩ : FType Unit (Rep Bool Unit)) "c_relu" = .ok m ∧
    FibreEquivariant (B := Unit) (P := Unit) (C := Unit) (· ∈ [false, true]) ⟨(), [signRep, signRep]⟩ m.outType m.forward := by
  have hG : FinGroup [false, true] xor id false := ⟨by decide, by decide, by decide, by decide, by decide, by decide, by decide, by decide, by decide⟩
  have hgood : Good [false, true] xor false [] (⟨(), [signRep, signRep]⟩ : FType Unit (Rep Bool Unit)) := by
    refine ⟨fun r hr => ?_, by simp⟩
    obtain rfl : r = signRep := by simpa using hr
    refine ⟨fun _ _ => rfl, fun _ _ => rfl, ⟨rfl, rfl, fun i j hi hj => ?_⟩, fun g h _ _ => ⟨rfl, rfl, fun i j hi hj => ?_⟩⟩
    · have hi : i < 1 := hi
      have hj : j < 1 := hj
      obtain rfl : i = 0 := by omega
      obtain rfl : j = 0 := by omega
      simp [signRep, NpMat.eye]
    · simp only [signRep, NpMat.mul, Finset.sum_range_one]
      cases g <;> cases h <;> norm_num
  obtain ⟨m, hm, -⟩ := C52_init (function := "c_relu") hG (fun ρ : Bool → NpMat ℝ => (NpMat.eye (ρ false).rows, NpMat.eye (ρ false).rows, [()])) hgood
    (fun r hr => by obtain rfl : r = signRep := by simpa using hr
                    simp [signRep])
    (fun r hr g _ => by obtain rfl : r = signRep := by simpa using hr
                        exact signRep_signed g) (by simp)
  exact ⟨m, hm, (C52_equivariant hG _ (fun _ => rfl) hgood hm m.function).2.2.1⟩

end ConcatNL

end Escnn
