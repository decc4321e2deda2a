import Verif.Lemmas.IcoIrreps

/-!
# The icosahedral group: which rotations `_is_element` accepts
-/

namespace Escnn

open Real Quaternion NpMat
open scoped Matrix

namespace Ico

open Gold

/-- The vector part. -/
def im (q : UQuat) : Fin 3 → ℝ := ![q.imI, q.imJ, q.imK]

theorem cycle_iff {w : ℝ} (h1 : -1 ≤ w) (h2 : w ≤ 1) {n : ℕ} (hn : 0 < n) : CycleZero (2 * arccos w) (2 * π / n) ↔ ∃ k ≤ n, w = cos (k * (π / n)) := by
  have hn' : (0 : ℝ) < n := by exact_mod_cast hn
  have hp := pi_pos
  constructor
  · rintro ⟨k, hk⟩
    have e : arccos w = k * (π / n) := by
      have : 2 * arccos w = 2 * (k * (π / n)) := by rw [hk]; ring
      linarith
    have l0 : (0 : ℝ) ≤ k := by
      by_contra hc
      have : (k : ℝ) * (π / n) < 0 := mul_neg_of_neg_of_pos (not_le.1 hc) (by positivity)
      linarith [arccos_nonneg w]
    have l1 : (k : ℝ) ≤ n := by
      have := arccos_le_pi w
      rw [e, ← mul_div_assoc, div_le_iff₀ hn'] at this
      exact le_of_mul_le_mul_right (by linarith) hp
    have l0' : 0 ≤ k := by exact_mod_cast l0
    obtain ⟨m, rfl⟩ := Int.eq_ofNat_of_zero_le l0'
    refine ⟨m, by exact_mod_cast l1, ?_⟩
    rw [← cos_arccos h1 h2, e, Int.cast_natCast]
  · rintro ⟨k, hk, rfl⟩
    have hk' : (k : ℝ) ≤ n := by exact_mod_cast hk
    refine ⟨k, ?_⟩
    rw [arccos_cos (by positivity) (by rw [← mul_div_assoc, div_le_iff₀ hn']; nlinarith), Int.cast_natCast]
    ring

theorem cycle1 {w : ℝ} (h1 : -1 ≤ w) (h2 : w ≤ 1) : CycleZero (2 * arccos w) (2 * π) ↔ |w| = 1 := by
  have h := cycle_iff h1 h2 (n := 1) one_pos
  rw [Nat.cast_one, div_one, div_one] at h
  rw [h, abs_eq one_pos.le]
  constructor
  · rintro ⟨k, hk, rfl⟩
    interval_cases k <;> simp
  · rintro (rfl | rfl)
    · exact ⟨0, by norm_num, by simp⟩
    · exact ⟨1, by norm_num, by simp⟩

theorem cycle2 {w : ℝ} (h1 : -1 ≤ w) (h2 : w ≤ 1) : CycleZero (2 * arccos w) (2 * π / 2) ↔ |w| = 1 ∨ |w| = 0 := by
  have h := cycle_iff h1 h2 (n := 2) two_pos
  rw [show ((2 : ℕ) : ℝ) = 2 by norm_num] at h
  have c2 : cos (2 * (π / 2)) = -1 := by rw [show 2 * (π / 2) = π by ring, cos_pi]
  rw [h, abs_eq one_pos.le, abs_eq_zero]
  constructor
  · rintro ⟨k, hk, rfl⟩
    interval_cases k <;> simp [c2]
  · rintro ((rfl | rfl) | rfl)
    · exact ⟨0, by norm_num, by simp⟩
    · exact ⟨2, by norm_num, by push_cast; rw [c2]⟩
    · exact ⟨1, by norm_num, by simp⟩

theorem cycle3 {w : ℝ} (h1 : -1 ≤ w) (h2 : w ≤ 1) : CycleZero (2 * arccos w) (2 * π / 3) ↔ |w| = 1 ∨ |w| = 1 / 2 := by
  have h := cycle_iff h1 h2 (n := 3) three_pos
  rw [show ((3 : ℕ) : ℝ) = 3 by norm_num] at h
  have c2 : cos (2 * (π / 3)) = -(1 / 2) := by rw [show 2 * (π / 3) = π - π / 3 by ring, cos_pi_sub, cos_pi_div_three]
  have c3 : cos (3 * (π / 3)) = -1 := by rw [show 3 * (π / 3) = π by ring, cos_pi]
  rw [h, abs_eq one_pos.le, abs_eq (by norm_num)]
  constructor
  · rintro ⟨k, hk, rfl⟩
    interval_cases k
    · simp
    · right; left; simp
    · right; right; push_cast; rw [c2]
    · left; right; push_cast; rw [c3]
  · rintro ((rfl | rfl) | rfl | rfl)
    · exact ⟨0, by norm_num, by simp⟩
    · exact ⟨3, by norm_num, by push_cast; rw [c3]⟩
    · exact ⟨1, by norm_num, by simp⟩
    · exact ⟨2, by norm_num, by push_cast; rw [c2]⟩

theorem cycle5 {w : ℝ} (h1 : -1 ≤ w) (h2 : w ≤ 1) : CycleZero (2 * arccos w) (2 * π / 5) ↔ |w| = 1 ∨ |w| = phi / 2 ∨ |w| = (phi - 1) / 2 := by
  have h := cycle_iff h1 h2 (n := 5) (by norm_num)
  rw [show ((5 : ℕ) : ℝ) = 5 by norm_num] at h
  have hp := one_lt_phi
  have c2 : cos (2 * (π / 5)) = (phi - 1) / 2 := by rw [← cos72]; congr 1; ring
  have c3 : cos (3 * (π / 5)) = -((phi - 1) / 2) := by rw [show 3 * (π / 5) = π - 2 * (π / 5) by ring, cos_pi_sub, c2]
  have c4 : cos (4 * (π / 5)) = -(phi / 2) := by rw [show 4 * (π / 5) = π - π / 5 by ring, cos_pi_sub, cos36]
  have c5 : cos (5 * (π / 5)) = -1 := by rw [show 5 * (π / 5) = π by ring, cos_pi]
  rw [h, abs_eq one_pos.le, abs_eq (by linarith), abs_eq (by linarith)]
  constructor
  · rintro ⟨k, hk, rfl⟩
    interval_cases k
    · simp
    · right; left; left; rw [Nat.cast_one, one_mul, cos36]
    · right; right; left; push_cast; rw [c2]
    · right; right; right; push_cast; rw [c3]
    · right; left; right; push_cast; rw [c4]
    · left; right; push_cast; rw [c5]
  · rintro ((rfl | rfl) | (rfl | rfl) | rfl | rfl)
    · exact ⟨0, by norm_num, by simp⟩
    · exact ⟨5, by norm_num, by push_cast; rw [c5]⟩
    · exact ⟨1, by norm_num, by rw [Nat.cast_one, one_mul, cos36]⟩
    · exact ⟨4, by norm_num, by push_cast; rw [c4]⟩
    · exact ⟨2, by norm_num, by push_cast; rw [c2]⟩
    · exact ⟨3, by norm_num, by push_cast; rw [c3]⟩

theorem argmax_of {v : Fin 3 → ℝ} {m : Fin 3} (h : ∀ j, j ≠ m → v j < v m) : argmax v = m := by
  have h0 := h 0
  have h1 := h 1
  have h2 := h 2
  unfold argmax
  fin_cases m
  · have h1 := h1 (by decide); have h2 := h2 (by decide)
    exact if_pos ⟨h1.le, h2.le⟩
  · have h0 : v 0 < v 1 := h0 (by decide)
    have h2 : v 2 < v 1 := h2 (by decide)
    rw [if_neg fun hc => absurd h0 (not_lt.2 hc.1), if_pos h2.le]; rfl
  · have h0 : v 0 < v 2 := h0 (by decide)
    have h1 : v 1 < v 2 := h1 (by decide)
    rw [if_neg fun hc => absurd h0 (not_lt.2 hc.2), if_neg fun hc => absurd h1 (not_lt.2 hc)]; rfl

/-- What `rolled` computes on the axis of a rotation: the sizes of the coordinates up to the cyclic permutation that begins with the largest. -/
theorem rolled_iff {u t c : Fin 3 → ℝ} {s : ℝ} (hs : 0 < s) (hu : u 0 ^ 2 + u 1 ^ 2 + u 2 ^ 2 = s ^ 2) (ht : ∀ i, s * t i = c i) (hc : (∀ i, i ≠ 0 → c i < c 0) ∨ ∀ i, c i = c 0) :
    rolled (fun i => u i / s) = t ↔ ∃ m, ∀ i, |u (i + m)| = c i := by
  have hn : norm (fun i => u i / s) = 1 := by
    rw [norm, show (u 0 / s) ^ 2 + (u 1 / s) ^ 2 + (u 2 / s) ^ 2 = 1 by rw [div_pow, div_pow, div_pow, ← add_div, ← add_div, hu, div_self (by positivity)], Real.sqrt_one]
  have hv : rolled (fun i => u i / s) = fun i => |u (i + argmax fun i => |u i| / s)| / s := by
    unfold rolled
    simp only [hn, div_one, abs_div, abs_of_pos hs]
  rw [hv]
  constructor
  · intro h
    refine ⟨argmax fun i => |u i| / s, fun i => ?_⟩
    rw [← ht i, ← congrFun h i]
    field_simp
  · rintro ⟨m, hm⟩
    have hi : ∀ i, t i = c i / s := fun i => by rw [← ht]; field_simp
    rcases hc with hc | hc
    · have ha : (argmax fun i => |u i| / s) = m := by
        refine argmax_of fun j hj => ?_
        have e1 := hm (j - m)
        have e0 := hm 0
        rw [sub_add_cancel] at e1
        rw [zero_add] at e0
        rw [e1, e0]
        exact div_lt_div_of_pos_right (hc _ (sub_ne_zero.2 hj)) hs
      funext i
      rw [ha, hm, hi]
    · funext i
      have : ∀ j, |u j| = c 0 := fun j => by have := hm (j - m); rwa [sub_add_cancel, hc] at this
      rw [this, hi, hc i]

theorem unit_scaled {p : Fin 3 → ℝ} {s l : ℝ} (hs : 0 ≤ s) (hl : 0 ≤ l) (hp : 0 < p 0 ^ 2 + p 1 ^ 2 + p 2 ^ 2) (h : s ^ 2 = l ^ 2 * (p 0 ^ 2 + p 1 ^ 2 + p 2 ^ 2)) (i : Fin 3) : s * unit p i = l * p i := by
  have hn : 0 < norm p := Real.sqrt_pos.2 hp
  have e : s = l * norm p := (pow_left_inj₀ hs (by positivity) two_ne_zero).1 (by rw [h, mul_pow, norm, Real.sq_sqrt hp.le])
  rw [unit, e]
  field_simp

/-- The rotations: the size of the scalar part and the ones of the vector part. -/
def classes : List (Gold × Gold × Gold × Gold) :=
  [(0, 1, 0, 0), (0, hC, hA, hB), (hA, hA, hA, hA), (hA, hC, hB, 0), (hC, hA, 0, hB), (hB, hC, 0, hA)]

/-- The sizes of the coordinates are the ones of the class `k`, rolled. -/
def InClass (q : UQuat) (k : Gold × Gold × Gold × Gold) : Prop :=
  |q.re| = k.1.val ∧ ∃ m : Fin 3, ∀ i, |im q (i + m)| = (![k.2.1, k.2.2.1, k.2.2.2] i).val

theorem val_hA : hA.val = 1 / 2 := by simp [hA, Gold.val]
theorem val_hB : hB.val = (phi - 1) / 2 := by simp [hB, Gold.val]; ring
theorem val_hC : hC.val = phi / 2 := by simp [hC, Gold.val]

theorem phi_lt_two : phi < 2 := by nlinarith [phi_sq, one_lt_phi]

theorem phi_inv : 1 / phi = phi - 1 := by
  have := one_lt_phi
  rw [div_eq_iff (by linarith)]; linarith [phi_sq]

theorem isElement_class {q : UQuat} (hq : normSq q = 1) : IsElement q ↔ |q.re| = 1 ∨ ∃ k ∈ classes, InClass q k := by
  have hp := one_lt_phi
  have hp2 := phi_lt_two
  have hps := phi_sq
  have hsum : q.re ^ 2 + (q.imI ^ 2 + q.imJ ^ 2 + q.imK ^ 2) = 1 := by
    have := normSq_def' q
    rw [hq] at this
    linarith
  have h1 : -1 ≤ q.re := by nlinarith [sq_nonneg q.imI, sq_nonneg q.imJ, sq_nonneg q.imK]
  have h2 : q.re ≤ 1 := by nlinarith [sq_nonneg q.imI, sq_nonneg q.imJ, sq_nonneg q.imK]
  have hclip : max (-1) (min q.re 1) = q.re := by rw [min_eq_left h2, max_eq_right h1]
  have hsin : sin (2 * arccos q.re / 2) = √(1 - q.re ^ 2) := by rw [mul_div_cancel_left₀ _ two_ne_zero, sin_arccos]
  unfold IsElement
  rw [hclip]
  simp only [hq, true_and, cycle1 h1 h2, cycle2 h1 h2, cycle3 h1 h2, cycle5 h1 h2, hsin]
  by_cases hw : |q.re| = 1
  · simp [hw]
  · have hlt : q.re ^ 2 < 1 := by
      rw [sq_lt_one_iff_abs_lt_one]
      exact lt_of_le_of_ne (abs_le.2 ⟨h1, h2⟩) hw
    have hs : 0 < √(1 - q.re ^ 2) := Real.sqrt_pos.2 (by linarith)
    have hss : √(1 - q.re ^ 2) ^ 2 = 1 - q.re ^ 2 := Real.sq_sqrt (by linarith)
    have hu : im q 0 ^ 2 + im q 1 ^ 2 + im q 2 ^ 2 = √(1 - q.re ^ 2) ^ 2 := by
      rw [hss]; show q.imI ^ 2 + q.imJ ^ 2 + q.imK ^ 2 = _; linarith
    generalize √(1 - q.re ^ 2) = s at hs hss hu ⊢
    have hab : |q.re| ^ 2 = q.re ^ 2 := sq_abs _
    have hcl : ∀ (k : Gold × Gold × Gold × Gold) {t : Fin 3 → ℝ}, |q.re| = k.1.val → (∀ i, s * t i = (![k.2.1, k.2.2.1, k.2.2.2] i).val) →
        ((∀ i : Fin 3, i ≠ 0 → (![k.2.1, k.2.2.1, k.2.2.2] i).val < (![k.2.1, k.2.2.1, k.2.2.2] 0).val) ∨ ∀ i : Fin 3, (![k.2.1, k.2.2.1, k.2.2.2] i).val = (![k.2.1, k.2.2.1, k.2.2.2] 0).val) →
        (rolled (fun i => im q i / s) = t ↔ InClass q k) := fun k t hk ht hc =>
      (rolled_iff (c := fun i => (![k.2.1, k.2.2.1, k.2.2.2] i).val) hs hu ht hc).trans ⟨fun h => ⟨hk, h⟩, fun h => h.2⟩
    simp only [hw, false_or, if_false, classes, List.mem_cons, List.not_mem_nil, or_false, exists_eq_or_imp, exists_eq_left]
    change (if |q.re| = 0 then AxisAligned (fun i => im q i / s) 2 else if |q.re| = 1 / 2 then AxisAligned (fun i => im q i / s) 3 else
      if |q.re| = phi / 2 ∨ |q.re| = (phi - 1) / 2 then AxisAligned (fun i => im q i / s) 5 else False) ↔ _
    have ne : ∀ {k : Gold × Gold × Gold × Gold}, |q.re| ≠ k.1.val → (InClass q k ↔ False) := fun h => ⟨fun h' => h h'.1, False.elim⟩
    have hsl : ∀ {p : Fin 3 → ℝ} {l : ℝ}, 0 ≤ l → 0 < p 0 ^ 2 + p 1 ^ 2 + p 2 ^ 2 → s ^ 2 = l ^ 2 * (p 0 ^ 2 + p 1 ^ 2 + p 2 ^ 2) → ∀ i, s * unit p i = l * p i := fun hl hp h => unit_scaled hs.le hl hp h
    by_cases c0 : |q.re| = 0
    · have hs1 : s ^ 2 = 1 := by rw [hss, ← hab, c0]; norm_num
      have hs1' : s = 1 := by nlinarith
      have eA := hcl (0, 1, 0, 0) (t := ![1, 0, 0]) (by rw [c0, val_zero]) (fun i => by rw [hs1']; fin_cases i <;> simp) (.inl fun i hi => by fin_cases i <;> simp at hi ⊢)
      have eB := hcl (0, hC, hA, hB) (t := unit ![phi + 1, phi, 1]) (by rw [c0, val_zero])
        (fun i => by
          rw [hsl (l := (phi - 1) / 2) (by linarith) (by simp; positivity) (by rw [hs1]; simp; grind)]
          fin_cases i <;> simp [val_hA, val_hB, val_hC] <;> grind)
        (.inl fun i hi => by fin_cases i <;> simp [val_hA, val_hB, val_hC] at hi ⊢ <;> linarith)
      rw [if_pos c0, AxisAligned, if_pos rfl, ne (k := (hA, hA, hA, hA)) (by rw [c0, val_hA]; norm_num), ne (k := (hA, hC, hB, 0)) (by rw [c0, val_hA]; norm_num),
        ne (k := (hC, hA, 0, hB)) (by rw [c0, val_hC]; linarith), ne (k := (hB, hC, 0, hA)) (by rw [c0, val_hB]; linarith), eA, eB]
      simp
    rw [if_neg c0, ne (k := (0, 1, 0, 0)) (by rw [val_zero]; exact c0), ne (k := (0, hC, hA, hB)) (by rw [val_zero]; exact c0)]
    by_cases c1 : |q.re| = 1 / 2
    · have hs1 : s ^ 2 = 3 / 4 := by rw [hss, ← hab, c1]; norm_num
      have eA := hcl (hA, hA, hA, hA) (t := unit ![1, 1, 1]) (by rw [c1, val_hA])
        (fun i => by
          rw [hsl (l := 1 / 2) (by linarith) (by simp; norm_num) (by rw [hs1]; simp; norm_num)]
          fin_cases i <;> simp [val_hA])
        (.inr fun i => by fin_cases i <;> simp)
      have eB := hcl (hA, hC, hB, 0) (t := unit ![phi, 1 / phi, 0]) (by rw [c1, val_hA])
        (fun i => by
          rw [phi_inv, hsl (l := 1 / 2) (by linarith) (by simp; positivity) (by rw [hs1]; simp; grind)]
          fin_cases i <;> simp [val_hB, val_hC] <;> ring)
        (.inl fun i hi => by fin_cases i <;> simp [val_hA, val_hB, val_hC] at hi ⊢ <;> linarith)
      rw [if_pos c1, AxisAligned, if_neg (by norm_num), if_pos rfl,
        ne (k := (hC, hA, 0, hB)) (by rw [c1, val_hC]; linarith), ne (k := (hB, hC, 0, hA)) (by rw [c1, val_hB]; linarith), eA, eB]
      simp
    rw [if_neg c1, ne (k := (hA, hA, hA, hA)) (by rw [val_hA]; exact c1), ne (k := (hA, hC, hB, 0)) (by rw [val_hA]; exact c1)]
    by_cases c2 : |q.re| = phi / 2
    · have eA := hcl (hC, hA, 0, hB) (t := unit ![phi, 0, 1]) (by rw [c2, val_hC])
        (fun i => by
          rw [hsl (l := (phi - 1) / 2) (by linarith) (by simp; positivity) (by rw [hss, ← hab, c2]; simp; grind)]
          fin_cases i <;> simp [val_hA, val_hB] <;> grind)
        (.inl fun i hi => by fin_cases i <;> simp [val_hA, val_hB, val_hC] at hi ⊢ <;> linarith)
      rw [if_pos (.inl c2), AxisAligned, if_neg (by norm_num), if_neg (by norm_num), ne (k := (hB, hC, 0, hA)) (by rw [c2, val_hB]; linarith), eA]
      simp
    rw [ne (k := (hC, hA, 0, hB)) (by rw [val_hC]; exact c2)]
    by_cases c3 : |q.re| = (phi - 1) / 2
    · have eA := hcl (hB, hC, 0, hA) (t := unit ![phi, 0, 1]) (by rw [c3, val_hB])
        (fun i => by
          rw [hsl (l := 1 / 2) (by linarith) (by simp; positivity) (by rw [hss, ← hab, c3]; simp; grind)]
          fin_cases i <;> simp [val_hA, val_hC] <;> ring)
        (.inl fun i hi => by fin_cases i <;> simp [val_hA, val_hB, val_hC] at hi ⊢ <;> linarith)
      rw [if_pos (.inr c3), AxisAligned, if_neg (by norm_num), if_neg (by norm_num), eA]
      simp
    rw [if_neg (by rintro (h | h) <;> contradiction), ne (k := (hB, hC, 0, hA)) (by rw [val_hB]; exact c3)]
    simp

/-- A quaternion with the sizes of a class and the given signs. -/
def signed (k : Gold × Gold × Gold × Gold) (m : Fin 3) (s : Fin 4 → Bool) : Gold × Gold × Gold × Gold :=
  let c : Fin 3 → Gold := fun i => ![k.2.1, k.2.2.1, k.2.2.2] (i - m)
  let g : Bool → Gold → Gold := fun b x => if b then -x else x
  (g (s 0) (c 0), g (s 1) (c 1), g (s 2) (c 2), g (s 3) k.1)

/-- The opposite. -/
def opp (p : Gold × Gold × Gold × Gold) : Gold × Gold × Gold × Gold := (-p.1, -p.2.1, -p.2.2.1, -p.2.2.2)

theorem classes_quats : ∀ k ∈ classes, ∀ m : Fin 3, ∀ s0 s1 s2 s3 : Bool, signed k m ![s0, s1, s2, s3] ∈ quats ∨ opp (signed k m ![s0, s1, s2, s3]) ∈ quats := by decide +kernel

theorem quats_classes : ∀ p ∈ quats, p = (0, 0, 0, 1) ∨ ∃ k ∈ classes, ∃ m : Fin 3, (p.2.2.2 = k.1 ∨ p.2.2.2 = -k.1) ∧
    ∀ i : Fin 3, ![p.1, p.2.1, p.2.2.1] (i + m) = ![k.2.1, k.2.2.1, k.2.2.2] i ∨ ![p.1, p.2.1, p.2.2.1] (i + m) = -![k.2.1, k.2.2.1, k.2.2.2] i := by decide +kernel

theorem goldQ_opp (p : Gold × Gold × Gold × Gold) : goldQ (opp p) = -goldQ p := by
  simp only [goldQ, opp, val_neg]
  rfl

theorem abs_signed {x : ℝ} {c : Gold} (h : |x| = c.val) : ∃ b : Bool, x = (if b then -c else c).val := by
  rcases abs_choice x with e | e
  · exact ⟨false, by rw [← e, h]; rfl⟩
  · refine ⟨true, ?_⟩
    rw [if_pos rfl, val_neg, ← h, e, neg_neg]

theorem abs_of_signed {x c : Gold} (hc : 0 ≤ c.val) (h : x = c ∨ x = -c) : |x.val| = c.val := by
  rcases h with rfl | rfl
  · exact abs_of_nonneg hc
  · rw [val_neg, abs_neg, abs_of_nonneg hc]

theorem classes_nonneg : ∀ k ∈ classes, 0 ≤ k.1.val ∧ ∀ i : Fin 3, 0 ≤ (![k.2.1, k.2.2.1, k.2.2.2] i).val := by
  have hp := one_lt_phi
  have hA0 : 0 ≤ hA.val := by rw [val_hA]; norm_num
  have hB0 : 0 ≤ hB.val := by rw [val_hB]; linarith
  have hC0 : 0 ≤ hC.val := by rw [val_hC]; linarith
  intro k hk
  simp only [classes, List.mem_cons, List.not_mem_nil, or_false] at hk
  rcases hk with rfl | rfl | rfl | rfl | rfl | rfl <;> refine ⟨by simp [hA0, hB0, hC0], fun i => ?_⟩ <;> fin_cases i <;> simp [hA0, hB0, hC0]

/-- `_is_element` accepts the quaternions of the elements. -/
theorem isElement_iff {q : UQuat} (hq : normSq q = 1) : IsElement q ↔ ∃ e ∈ elements, rotOf q = mat e := by
  rw [isElement_class hq]
  constructor
  · rintro (h | ⟨k, hk, hw, m, hm⟩)
    · refine ⟨identity, identity_mem, ?_⟩
      have hsum := normSq_def' q
      have hre : q.re ^ 2 = 1 := by rw [← sq_abs, h]; norm_num
      have h1 : q.imI = 0 := by nlinarith [sq_nonneg q.imI, sq_nonneg q.imJ, sq_nonneg q.imK]
      have h2 : q.imJ = 0 := by nlinarith [sq_nonneg q.imI, sq_nonneg q.imJ, sq_nonneg q.imK]
      have h3 : q.imK = 0 := by nlinarith [sq_nonneg q.imI, sq_nonneg q.imJ, sq_nonneg q.imK]
      rw [mat_identity]
      ext i j
      fin_cases i <;> fin_cases j <;> simp [rotOf, h1, h2, h3, hre]
    · have hj : ∀ j, |im q j| = (![k.2.1, k.2.2.1, k.2.2.2] (j - m)).val := fun j => by rw [← hm, sub_add_cancel]
      obtain ⟨b3, e3⟩ := abs_signed hw
      obtain ⟨b0, e0⟩ := abs_signed (hj 0)
      obtain ⟨b1, e1⟩ := abs_signed (hj 1)
      obtain ⟨b2, e2⟩ := abs_signed (hj 2)
      have hqe : q = goldQ (signed k m ![b0, b1, b2, b3]) := by
        ext
        · exact e3
        · exact e0
        · exact e1
        · exact e2
      rcases classes_quats k hk m b0 b1 b2 b3 with h | h
      · exact ⟨_, List.mem_map_of_mem h, by rw [hqe, rotOf_goldQ h]⟩
      · exact ⟨_, List.mem_map_of_mem h, by rw [← rotOf_goldQ h, goldQ_opp, rotOf_neg, ← hqe]⟩
  · rintro ⟨e, he, h⟩
    obtain ⟨p, hp, rfl⟩ := List.mem_map.1 he
    rw [← rotOf_goldQ hp, rotOf_eq_iff hq (goldQ_unit hp)] at h
    have habs : |q.re| = |p.2.2.2.val| ∧ ∀ i, |im q i| = |(![p.1, p.2.1, p.2.2.1] i).val| := by
      rcases h with rfl | h
      · exact ⟨rfl, fun i => by fin_cases i <;> rfl⟩
      · have hre := congrArg QuaternionAlgebra.re h
        have hi := congrArg QuaternionAlgebra.imI h
        have hj := congrArg QuaternionAlgebra.imJ h
        have hk := congrArg QuaternionAlgebra.imK h
        refine ⟨by rw [← abs_neg]; exact congrArg abs hre, fun i => ?_⟩
        rw [← abs_neg]
        fin_cases i
        · exact congrArg abs hi
        · exact congrArg abs hj
        · exact congrArg abs hk
    rcases quats_classes p hp with rfl | ⟨k, hk, m, hw, hm⟩
    · left; rw [habs.1, val_one, abs_one]
    · right
      refine ⟨k, hk, ?_, m, fun i => ?_⟩
      · rw [habs.1, abs_of_signed (classes_nonneg k hk).1 hw]
      · rw [habs.2, abs_of_signed ((classes_nonneg k hk).2 i) (hm i)]

end Ico

end Escnn
