import Verif.Props.C61_ProductIrreps
import Verif.Props.C03_SO2O2
import Verif.Props.C06_DihedralSubgroups

/-!
# C61: the types of the irreps of direct products
-/

namespace Escnn

open NpMat

variable {G₁ I₁ G₂ I₂ : Type}
variable {El₁ : G₁ → Prop} {op₁ : G₁ → G₁ → G₁} {one₁ : G₁} {T₁ : IrrepTable G₁ I₁} {typ₁ : I₁ → IrrType}
variable {El₂ : G₂ → Prop} {op₂ : G₂ → G₂ → G₂} {one₂ : G₂} {T₂ : IrrepTable G₂ I₂} {typ₂ : I₂ → IrrType}

theorem kron_endo {t : IrrType} {m n k : ℕ} (hm : t.sizeOk m) (hk : k < t.sumsq) : (endoBasis t (m * n)).getD k (zeros 0 0) ≈ kron ((endoBasis t m).getD k (zeros 0 0)) (eye n) := by
  have main : ∀ (C : NpMat ℝ) (d : ℕ), m % d = 0 → 0 < d → kron C (eye (m * n / d)) ≈ kron (kron C (eye (m / d))) (eye n) := by
    intro C d h0 hd
    have e : m * n / d = m / d * n := by
      obtain ⟨q, rfl⟩ := Nat.dvd_of_mod_eq_zero h0
      rw [Nat.mul_div_cancel_left _ hd, mul_assoc, Nat.mul_div_cancel_left _ hd]
    rw [e]
    exact (kron_congr (Eqv.refl C) (kron_eye_eye _ _).symm).trans (kron_assoc _ _ _).symm
  cases t
  · simp only [IrrType.sumsq] at hk
    obtain rfl : k = 0 := by omega
    exact (kron_eye_eye m n).symm
  · simp only [IrrType.sumsq] at hk
    have h := hm.2
    interval_cases k <;> exact main _ 2 h (by norm_num)
  · simp only [IrrType.sumsq] at hk
    have h := hm.2
    interval_cases k <;> exact main _ 4 h (by norm_num)

theorem endo_length (t : IrrType) (n : ℕ) : (endoBasis t n).length = t.sumsq := by cases t <;> rfl

theorem HasType.of_congr {E : Type} {El : E → Prop} {ρ σ : E → NpMat ℝ} {t : IrrType} {d : ℕ} (ht : t.sizeOk d) (h : HasType El σ t d) (hσ : ∀ g, El g → (σ g).rows = d ∧ (σ g).cols = d) (e : ∀ g, El g → ρ g ≈ σ g) :
    HasType El ρ t d := by
  have sh := (C18_endo_orthogonal t d ht).2.1
  refine ⟨fun B hB g hg => ?_, fun M m1 m2 hM => h.full M m1 m2 fun g hg => ?_⟩
  · have eg := e g hg
    exact (mul_congr eg (Eqv.refl B) (by rw [eg.2.1, (hσ g hg).2, (sh B hB).1])).trans ((h.commute B hB g hg).trans (mul_congr (Eqv.refl B) eg.symm (by rw [(hσ g hg).1, (sh B hB).2])))
  · have eg := e g hg
    exact (mul_congr (Eqv.refl M) eg.symm (by rw [(hσ g hg).1, m2])).trans ((hM g hg).trans (mul_congr eg (Eqv.refl M) (by rw [eg.2.1, (hσ g hg).2, m1])))

/-- A factor of real type on the right keeps the type. -/
theorem HasType.kron_real {ρ : G₁ → NpMat ℝ} {σ : G₂ → NpMat ℝ} {t : IrrType} {m n : ℕ} (h₁ : OrthoRep El₁ op₁ one₁ m ρ) (h₂ : OrthoRep El₂ op₂ one₂ n σ) (o₁ : El₁ one₁) (o₂ : El₂ one₂) (ht : t.sizeOk m) (hn : 0 < n)
    (t₁ : HasType El₁ ρ t m) (t₂ : HasType El₂ σ .R n) : HasType (prodEl El₁ El₂) (fun g => NpMat.kron (ρ g.1) (σ g.2)) t (m * n) := by
  have sh := (C18_endo_orthogonal t m ht).2.1
  have hmem : ∀ k, k < t.sumsq → (endoBasis t m).getD k (zeros 0 0) ∈ endoBasis t m := fun k hk => by
    rw [← endo_length t m] at hk
    rw [List.getD_eq_getElem _ _ hk]
    exact List.getElem_mem hk
  refine ⟨fun B hB g hg => ?_, fun M m1 m2 hM => ?_⟩
  · obtain ⟨k, hk, rfl⟩ := List.getElem_of_mem hB
    have hk' : k < t.sumsq := by rwa [endo_length] at hk
    have e := kron_endo (n := n) ht hk'
    rw [List.getD_eq_getElem _ _ hk] at e
    have sE := sh _ (hmem k hk')
    obtain ⟨E, hE⟩ : ∃ E, E = (endoBasis t m).getD k (zeros 0 0) := ⟨_, rfl⟩
    have cE := t₁.commute E (hE ▸ hmem k hk') g.1 hg.1
    rw [← hE] at e sE
    have r1 := h₁.rows _ hg.1
    have c1 := h₁.cols _ hg.1
    have r2 := h₂.rows _ hg.2
    have c2 := h₂.cols _ hg.2
    refine (mul_congr (Eqv.refl _) e (by rw [e.1]; simp [c1, c2, sE])).trans (Eqv.trans ?_ (mul_congr e.symm (Eqv.refl _) (by simp [r1, r2, sE])))
    exact (kron_mul _ _ _ _ (by rw [c1, sE.1]) (by simp [c2])).trans ((kron_congr cE (commute_eye r2 c2)).trans (kron_mul _ _ _ _ (by rw [sE.2, r1]) (by simp [r2])).symm)
  · have ins := fun g hg => inner_of_kron (M := M) (A := ρ) (A' := ρ) (B := σ) (B' := σ) o₂ (fun g hg => ⟨⟨h₁.rows g hg, h₁.cols g hg⟩, h₁.rows g hg, h₁.cols g hg⟩) h₂.map_one h₂.map_one m1 m2 hM g hg hn hn
    obtain ⟨c, hc⟩ := t₁.full _ rfl rfl ins
    refine ⟨c, fun x y hx hy => ?_⟩
    obtain ⟨x1, x2, x3⟩ := index_split hx
    obtain ⟨y1, y2, y3⟩ := index_split hy
    have out := fun g hg => outer_of_kron (M := M) (A := ρ) (A' := ρ) (B := σ) (B' := σ) o₁ (fun g hg => ⟨⟨h₂.rows g hg, h₂.cols g hg⟩, h₂.rows g hg, h₂.cols g hg⟩) h₁.map_one h₁.map_one m1 m2 hM g hg x1 y1
    obtain ⟨d, hd⟩ := t₂.full _ rfl rfl out
    simp only [IrrType.sumsq, Finset.sum_range_one, endoBasis, List.getD_cons_zero] at hd
    have e1 : M.get x y = d 0 * (eye n : NpMat ℝ).get (x % n) (y % n) := by rw [← hd _ _ x2 y2]; simp only [outer]; rw [← x3, ← y3]
    have e2 : d 0 = ∑ k ∈ Finset.range t.sumsq, c k * ((endoBasis t m).getD k (zeros 0 0)).get (x / n) (y / n) := by
      have a := hd 0 0 hn hn
      have b := hc _ _ x1 y1
      simp only [eye, if_true, mul_one] at a
      rw [← b, ← a]
      rfl
    rw [e1, e2, Finset.sum_mul]
    refine Finset.sum_congr rfl fun k hk => ?_
    have hk' := Finset.mem_range.1 hk
    have e := kron_endo (n := n) ht hk'
    have sE := sh _ (hmem k hk')
    rw [e.2.2 x y (by rw [e.1, kron_rows, sE.1]; exact hx) (by rw [e.2.1, kron_cols, sE.2]; exact hy)]
    simp only [kron, eye_rows, eye_cols, mul_assoc]

theorem LinType.twist {E : Type} {El : E → Prop} {Z : E → NpMat ℂ} {n : ℕ} (h : LinType El Z n) (hr : ∀ g, El g → (Z g).rows = n) (i : ℤ) : LinType El (fun g => Escnn.twist i (Z g)) n := by
  by_cases hi : i = 1
  · simp only [Escnn.twist, hi, if_true]; exact h.conj hr
  · simp only [Escnn.twist, hi, if_false]; exact h

/-- The entries of the basis of type `H`. -/
theorem endoH_get (q i j : ℕ) (c : ℕ → ℝ) : ∑ k ∈ Finset.range (IrrType.sumsq .H), c k * ((endoBasis .H (4 * q)).getD k (zeros 0 0)).get i j =
    (c 0 * (eye 4 : NpMat ℝ).get (i / q) (j / q) + c 1 * (ofRows 4 [[0, 0, 0, -1], [0, 0, 1, 0], [0, -1, 0, 0], [1, 0, 0, 0]] : NpMat ℝ).get (i / q) (j / q) +
      c 2 * (ofRows 4 [[0, 0, -1, 0], [0, 0, 0, -1], [1, 0, 0, 0], [0, 1, 0, 0]] : NpMat ℝ).get (i / q) (j / q) +
      c 3 * (ofRows 4 [[0, -1, 0, 0], [1, 0, 0, 0], [0, 0, 0, 1], [0, 0, -1, 0]] : NpMat ℝ).get (i / q) (j / q)) * (eye q : NpMat ℝ).get (i % q) (j % q) := by
  have e : 4 * q / 4 = q := by omega
  simp only [IrrType.sumsq, Finset.sum_range_succ, Finset.sum_range_zero, zero_add, endoBasis, endoCore, List.map_cons, List.map_nil, List.getD_cons_zero, List.getD_cons_succ, e, kron, eye_rows, eye_cols]
  ring

/-- A real representation of quaternionic type is the realification of a complex one with scalar commutant. -/
theorem HasType.quat_lin {E : Type} {El : E → Prop} {q : ℕ} {Z : E → NpMat ℂ} (hr : ∀ g, El g → (Z g).rows = 2 * q ∧ (Z g).cols = 2 * q) (h : HasType El (fun g => realify (Z g)) .H (4 * q)) : LinType El Z (2 * q) := by
  intro P p1 p2 hP
  obtain ⟨c, hc⟩ := h.full (realify P) (by simp [p1]; ring) (by simp [p2]; ring) fun g hg =>
    (realify_mul _ _ (by simp [p2, hr g hg])).trans ((realify_congr (hP g hg)).trans (realify_mul _ _ (by simp [p1, hr g hg])).symm)
  refine ⟨⟨c 0, c 2⟩, p1, p2, fun i j hi hj => ?_⟩
  rw [p1] at hi
  rw [p2] at hj
  have key := fun (a b : ℕ) (ha : a < 4 * q) (hb : b < 4 * q) => (hc a b ha hb).trans (endoH_get q a b c)
  have k1 := key i j (by omega) (by omega)
  have k2 := key (2 * q + i) (2 * q + j) (by omega) (by omega)
  have k3 := key (2 * q + i) j (by omega) (by omega)
  have k4 := key i (2 * q + j) (by omega) (by omega)
  have hq : 0 < q := by omega
  obtain ⟨i1, i2, i3⟩ := index_split hi
  obtain ⟨j1, j2, j3⟩ := index_split hj
  have d : ∀ x, (2 * q + x) / q = 2 + x / q := fun x => by rw [mul_comm, Nat.mul_add_div hq]
  have m : ∀ x, (2 * q + x) % q = x % q := fun x => by rw [mul_comm, Nat.mul_add_mod]
  have hs : (scalar (2 * q) (⟨c 0, c 2⟩ : ℂ)).get i j = if i / q = j / q ∧ i % q = j % q then ⟨c 0, c 2⟩ else 0 := by
    simp only [scalar]
    have : i = j ↔ i / q = j / q ∧ i % q = j % q := ⟨fun h => by rw [h]; exact ⟨rfl, rfl⟩, fun h => by rw [i3, j3, h.1, h.2]⟩
    simp only [this]
  rw [hs]
  simp only [realify, p1, p2, hi, hj, if_true, if_neg (show ¬ 2 * q + i < 2 * q by omega), if_neg (show ¬ 2 * q + j < 2 * q by omega), show 2 * q + i - 2 * q = i by omega, show 2 * q + j - 2 * q = j by omega, d, m] at k1 k2 k3 k4
  obtain ⟨x, hx⟩ : ∃ x, x = i / q := ⟨_, rfl⟩
  obtain ⟨y, hy⟩ : ∃ y, y = j / q := ⟨_, rfl⟩
  rw [← hx] at k1 k2 k3 k4 i1 ⊢
  rw [← hy] at k1 k2 k3 k4 j1 ⊢
  clear hx hy hs
  by_cases hm : i % q = j % q
  · rw [hm]
    rw [hm] at k1 k2 k3 k4
    interval_cases x <;> interval_cases y <;> simp [eye, ofRows] at k1 k2 k3 k4 ⊢ <;> refine Complex.ext ?_ ?_ <;> simp <;> linarith
  · have h0 : (eye q : NpMat ℝ).get (i % q) (j % q) = 0 := if_neg hm
    rw [h0] at k1 k2 k3 k4
    rw [if_neg fun h => hm h.2]
    refine Complex.ext ?_ ?_
    · rw [k1]; simp
    · rw [k3]; simp

theorem TypedIrreps.lin {G I : Type} {El : G → Prop} {op : G → G → G} {one : G} {T : IrrepTable G I} {typ : I → IrrType} (h : TypedIrreps El op one T typ) {a : I} (ha : T.ok a = true) (hR : typ a ≠ .R)
    (t : HasType El (T.mat a) (typ a) (T.size a)) : LinType El (fun g => complexify (T.mat a g)) (T.size a / 2) := by
  obtain ⟨e, u, r⟩ := h.complex ha hR
  have v := h.valid a ha
  have s := (h.endo a ha).1
  have t' := t.of_congr s (fun g hg => ⟨v.rows g hg, v.cols g hg⟩) r
  cases hT : typ a
  · exact absurd hT hR
  · rw [hT, e] at t'
    exact (HasType.complex (fun g hg => ⟨u.rows g hg, u.cols g hg⟩) t').1
  · rw [hT] at s t'
    obtain ⟨q, hq⟩ : ∃ q, T.size a = 4 * q := ⟨T.size a / 4, by have := s.2; omega⟩
    have hq2 : T.size a / 2 = 2 * q := by omega
    rw [hq2]
    rw [hq] at t'
    exact HasType.quat_lin (fun g hg => ⟨(u.rows g hg).trans hq2, (u.cols g hg).trans hq2⟩) t'

theorem TypedIrreps.anti {G I : Type} {El : G → Prop} {op : G → G → G} {one : G} {T : IrrepTable G I} {typ : I → IrrType} (h : TypedIrreps El op one T typ) {a : I} (ha : T.ok a = true) (hC : typ a = .C)
    (t : HasType El (T.mat a) (typ a) (T.size a)) : AntiType El (fun g => complexify (T.mat a g)) (T.size a / 2) := by
  obtain ⟨e, u, r⟩ := h.complex ha (by rw [hC]; decide)
  have v := h.valid a ha
  have t' := t.of_congr (h.endo a ha).1 (fun g hg => ⟨v.rows g hg, v.cols g hg⟩) r
  rw [hC, e] at t'
  exact (HasType.complex (fun g hg => ⟨u.rows g hg, u.cols g hg⟩) t').2

theorem TypedIrreps.pos {G I : Type} {El : G → Prop} {op : G → G → G} {one : G} {T : IrrepTable G I} {typ : I → IrrType} (h : TypedIrreps El op one T typ) {a : I} (ha : T.ok a = true) :
    0 < T.size a ∧ (typ a ≠ .R → 0 < T.size a / 2) := by
  have s := (h.endo a ha).1
  cases hT : typ a <;> rw [hT] at s
  · exact ⟨s, fun h => absurd rfl h⟩
  · have := s.1
    have := s.2
    exact ⟨s.1, fun _ => by omega⟩
  · have := s.1
    have := s.2
    exact ⟨s.1, fun _ => by omega⟩

/-- **C61** The irreps of the product have the declared type — the matrices which commute with them are exactly the span of `endomorphism_basis` — when those of the factors have, unless the second factor is of quaternionic type and
the first is not of complex type (see `C61_quaternionic_violation` and `C61_real_quaternionic`). -/
theorem C61_types (h₁ : TypedIrreps El₁ op₁ one₁ T₁ typ₁) (h₂ : TypedIrreps El₂ op₂ one₂ T₂ typ₂) (junk : ℕ → ℕ → ℝ) {a : I₁} {b : I₂} (ha : T₁.ok a = true) (hb : T₂.ok b = true) (i : ℤ)
    (hH : typ₂ b = .H → typ₁ a = .C) (t₁ : HasType El₁ (T₁.mat a) (typ₁ a) (T₁.size a)) (t₂ : HasType El₂ (T₂.mat b) (typ₂ b) (T₂.size b)) :
    (dpType (typ₁ a) (typ₂ b)).sizeOk ((dpTable junk T₁ typ₁ T₂ typ₂).size (a, b, i)) ∧
      HasType (prodEl El₁ El₂) ((dpTable junk T₁ typ₁ T₂ typ₂).mat (a, b, i)) (dpType (typ₁ a) (typ₂ b)) ((dpTable junk T₁ typ₁ T₂ typ₂).size (a, b, i)) := by
  obtain ⟨p1, p2, p3⟩ := dpTable_mat h₁ h₂ junk ha hb i
  have v₁ := h₁.valid a ha
  have v₂ := h₂.valid b hb
  have s₁ := (h₁.endo a ha).1
  have s₂ := (h₂.endo b hb).1
  have pos₁ := h₁.pos ha
  have pos₂ := h₂.pos hb
  by_cases hR : typ₂ b = .R
  · obtain ⟨e, e'⟩ := p1 hR
    have et : dpType (typ₁ a) (typ₂ b) = typ₁ a := by rw [hR]; cases typ₁ a <;> rfl
    rw [et, e', show (dpTable junk T₁ typ₁ T₂ typ₂).mat (a, b, i) = _ from funext e]
    refine ⟨?_, HasType.kron_real v₁ v₂ h₁.one_mem h₂.one_mem s₁ pos₂.1 t₁ (hR ▸ t₂)⟩
    cases h : typ₁ a <;> rw [h] at s₁ <;> simp only [IrrType.sizeOk] at s₁ ⊢
    · exact Nat.mul_pos s₁ pos₂.1
    · exact ⟨Nat.mul_pos s₁.1 pos₂.1, by rw [Nat.mul_mod, s₁.2]; simp⟩
    · exact ⟨Nat.mul_pos s₁.1 pos₂.1, by rw [Nat.mul_mod, s₁.2]; simp⟩
  · obtain ⟨e₂, u₂, r₂⟩ := h₂.complex hb hR
    have l₂ := h₂.lin hb hR t₂
    by_cases hR₁ : typ₁ a = .R
    · have hC : typ₂ b = .C := by
        cases h : typ₂ b
        · exact absurd h hR
        · rfl
        · rw [hH h] at hR₁; cases hR₁
      obtain ⟨e, e'⟩ := p2 hR₁ hR
      rw [e', show dpType (typ₁ a) (typ₂ b) = .C by rw [hR₁, hC]; rfl]
      have u₁ := UnitRep.of_real v₁
      have u := u₁.kron u₂
      have sz : IrrType.C.sizeOk (2 * (T₁.size a * (T₂.size b / 2))) := ⟨Nat.mul_pos (by norm_num) (Nat.mul_pos pos₁.1 (pos₂.2 hR)), by omega⟩
      refine ⟨sz, HasType.of_congr sz (complex_hasType (fun g hg => ⟨u.rows g hg, u.cols g hg⟩) ?_ ?_) (fun g hg => ⟨u.realify.rows g hg, u.realify.cols g hg⟩) e⟩
      · exact LinType.kron u₁ u₂ h₁.one_mem h₂.one_mem (HasType.lin_real (hR₁ ▸ t₁)) l₂
      · exact AntiType.kron_right u₁ u₂ h₁.one_mem (h₂.anti hb hC t₂)
    · obtain ⟨e₁, u₁, r₁⟩ := h₁.complex ha hR₁
      have l₁ := h₁.lin ha hR₁ t₁
      obtain ⟨e, e'⟩ := p3 hR₁ hR
      have hC : typ₁ a = .C ∨ typ₂ b = .C := by
        cases h : typ₂ b
        · exact absurd h hR
        · exact Or.inr rfl
        · exact Or.inl (hH h)
      have et : dpType (typ₁ a) (typ₂ b) = .C := by
        rcases hC with h | h <;> rw [h]
        · cases h' : typ₂ b <;> first | rfl | exact absurd h' hR
        · cases h' : typ₁ a <;> first | rfl | exact absurd h' hR₁
      rw [e', et]
      have u₂' := u₂.twist i
      have u := u₁.kron u₂'
      have sz : IrrType.C.sizeOk (2 * (T₁.size a / 2 * (T₂.size b / 2))) := ⟨Nat.mul_pos (by norm_num) (Nat.mul_pos (pos₁.2 hR₁) (pos₂.2 hR)), by omega⟩
      refine ⟨sz, HasType.of_congr sz (complex_hasType (fun g hg => ⟨u.rows g hg, u.cols g hg⟩) ?_ ?_) (fun g hg => ⟨u.realify.rows g hg, u.realify.cols g hg⟩) e⟩
      · exact LinType.kron u₁ u₂' h₁.one_mem h₂.one_mem l₁ (l₂.twist u₂.rows i)
      · by_cases h : typ₁ a = .C
        · exact AntiType.kron_left u₁ u₂' h₂.one_mem (h₁.anti ha h t₁)
        · refine AntiType.kron_right u₁ u₂' h₁.one_mem ?_
          have A := h₂.anti hb (hC.resolve_left h) t₂
          by_cases hi : i = 1
          · simp only [Escnn.twist, hi, if_true]; exact A.conj fun g hg => ⟨u₂.rows g hg, u₂.cols g hg⟩
          · simp only [Escnn.twist, hi, if_false]; exact A

/-- **C61** The two irreps of the product built from irreps of complex type are inequivalent. -/
theorem C61_inequivalent (h₁ : TypedIrreps El₁ op₁ one₁ T₁ typ₁) (h₂ : TypedIrreps El₂ op₂ one₂ T₂ typ₂) (junk : ℕ → ℕ → ℝ) {a : I₁} {b : I₂} (ha : T₁.ok a = true) (hb : T₂.ok b = true)
    (hC₁ : typ₁ a = .C) (hC₂ : typ₂ b = .C) (t₁ : HasType El₁ (T₁.mat a) (typ₁ a) (T₁.size a)) (t₂ : HasType El₂ (T₂.mat b) (typ₂ b) (T₂.size b)) :
    Inequivalent (prodEl El₁ El₂) ((dpTable junk T₁ typ₁ T₂ typ₂).mat (a, b, 0)) ((dpTable junk T₁ typ₁ T₂ typ₂).mat (a, b, 1)) ((dpTable junk T₁ typ₁ T₂ typ₂).size (a, b, 0)) ((dpTable junk T₁ typ₁ T₂ typ₂).size (a, b, 1)) := by
  have hR₁ : typ₁ a ≠ .R := by rw [hC₁]; decide
  have hR₂ : typ₂ b ≠ .R := by rw [hC₂]; decide
  obtain ⟨f0, f0'⟩ := (dpTable_mat h₁ h₂ junk ha hb 0).2.2 hR₁ hR₂
  obtain ⟨f1, f1'⟩ := (dpTable_mat h₁ h₂ junk ha hb 1).2.2 hR₁ hR₂
  obtain ⟨e₁, u₁, r₁⟩ := h₁.complex ha hR₁
  obtain ⟨e₂, u₂, r₂⟩ := h₂.complex hb hR₂
  have c₁ := HasType.complex (fun g hg => ⟨u₁.rows g hg, u₁.cols g hg⟩) (El := El₁) (Z := fun g => complexify (T₁.mat a g)) (n := T₁.size a / 2)
    (by rw [← e₁, ← hC₁]; exact t₁.of_congr (h₁.endo a ha).1 (fun g hg => ⟨(h₁.valid a ha).rows g hg, (h₁.valid a ha).cols g hg⟩) r₁)
  have c₂ := HasType.complex (fun g hg => ⟨u₂.rows g hg, u₂.cols g hg⟩) (El := El₂) (Z := fun g => complexify (T₂.mat b g)) (n := T₂.size b / 2)
    (by rw [← e₂, ← hC₂]; exact t₂.of_congr (h₂.endo b hb).1 (fun g hg => ⟨(h₂.valid b hb).rows g hg, (h₂.valid b hb).cols g hg⟩) r₂)
  have main := inequivalent_conj u₁ u₂ h₁.one_mem h₂.one_mem c₁.2 c₂.2
  rw [f0', f1']
  intro M m1 m2 hM
  refine main M m1 m2 fun g hg => ?_
  have a0 := f0 g hg
  have a1 := f1 g hg
  simp only [twist, if_true, show ¬ (0 : ℤ) = 1 by norm_num, if_false] at a0 a1
  have ur := (u₁.kron u₂).realify.rows g hg
  have uc := (u₁.kron u₂.conj).realify.cols g hg
  exact (mul_congr (Eqv.refl M) a0.symm (by rw [m2, ur])).trans ((hM g hg).trans (mul_congr a1 (Eqv.refl M) (by rw [a1.2.1, m1, uc])))

/-- An orthogonal representation with a type is irreducible. -/
theorem HasType.irreducible {E : Type} {El : E → Prop} {ρ : E → NpMat ℝ} {t : IrrType} {d : ℕ} (ht : t.sizeOk d) (h : HasType El ρ t d) : IrreducibleRep El ρ d := by
  intro P p1 p2 psym pid hP
  obtain ⟨c, hc⟩ := h.full P p1 p2 hP
  have anti : ∀ k i j, k < t.sumsq → i < d → j < d → ((endoBasis t d).getD k (zeros 0 0)).get i j + ((endoBasis t d).getD k (zeros 0 0)).get j i = if k = 0 then (if i = j then 2 else 0) else 0 := by
    intro k i j hk hi hj
    have two : ∀ (C : NpMat ℝ) (s q : ℕ), d = s * q → C.rows = s → C.cols = s → (∀ x y, x < s → y < s → C.get x y + C.get y x = if k = 0 then (if x = y then 2 else 0) else 0) →
        (kron C (eye q)).get i j + (kron C (eye q)).get j i = if k = 0 then (if i = j then 2 else 0) else 0 := by
      intro C s q hd c1 c2 hC
      rw [hd] at hi hj
      obtain ⟨i1, i2, i3⟩ := index_split hi
      obtain ⟨j1, j2, j3⟩ := index_split hj
      have := hC _ _ i1 j1
      simp only [kron, eye_rows, eye_cols]
      by_cases e : i % q = j % q
      · simp only [eye, e, if_true, mul_one]
        rw [this]
        have : i / q = j / q ↔ i = j := ⟨fun h => by rw [i3, j3, h, e], fun h => by rw [h]⟩
        simp only [this]
      · have : i ≠ j := fun h => e (by rw [h])
        simp only [eye, e, fun h => e (Eq.symm h), if_false, mul_zero, add_zero, this, ite_self]
        rw [if_neg (fun h => e (Eq.symm h))]
        simp
    cases t
    · simp only [IrrType.sumsq] at hk
      obtain rfl : k = 0 := by omega
      simp only [endoBasis, List.getD_cons_zero, eye, eq_comm (a := j) (b := i), if_true]
      split_ifs <;> norm_num
    · simp only [IrrType.sumsq] at hk
      have h0 := ht.2
      interval_cases k
      · refine two (eye 2) 2 (d / 2) (by omega) rfl rfl fun x y hx hy => ?_
        interval_cases x <;> interval_cases y <;> simp [eye] <;> norm_num
      · refine two (ofRows 2 [[0, -1], [1, 0]]) 2 (d / 2) (by omega) rfl rfl fun x y hx hy => ?_
        interval_cases x <;> interval_cases y <;> simp [ofRows]
    · simp only [IrrType.sumsq] at hk
      have h0 := ht.2
      interval_cases k
      · refine two (eye 4) 4 (d / 4) (by omega) rfl rfl fun x y hx hy => ?_
        interval_cases x <;> interval_cases y <;> simp [eye] <;> norm_num
      · refine two (ofRows 4 [[0, 0, 0, -1], [0, 0, 1, 0], [0, -1, 0, 0], [1, 0, 0, 0]]) 4 (d / 4) (by omega) rfl rfl fun x y hx hy => ?_
        interval_cases x <;> interval_cases y <;> simp [ofRows]
      · refine two (ofRows 4 [[0, 0, -1, 0], [0, 0, 0, -1], [1, 0, 0, 0], [0, 1, 0, 0]]) 4 (d / 4) (by omega) rfl rfl fun x y hx hy => ?_
        interval_cases x <;> interval_cases y <;> simp [ofRows]
      · refine two (ofRows 4 [[0, -1, 0, 0], [1, 0, 0, 0], [0, 0, 0, 1], [0, 0, -1, 0]]) 4 (d / 4) (by omega) rfl rfl fun x y hx hy => ?_
        interval_cases x <;> interval_cases y <;> simp [ofRows]
  have hs0 : 0 < t.sumsq := by cases t <;> decide
  have get : ∀ i j, i < d → j < d → P.get i j = if i = j then c 0 else 0 := by
    intro i j hi hj
    have e1 := hc i j hi hj
    have e2 := hc j i hj hi
    have e3 := psym.2.2 i j (by rw [p1]; exact hi) (by rw [p2]; exact hj)
    change P.get i j = P.get j i at e3
    have : P.get i j + P.get j i = ∑ k ∈ Finset.range t.sumsq, c k * (if k = 0 then (if i = j then 2 else 0) else 0) := by
      rw [e1, e2, ← Finset.sum_add_distrib]
      exact Finset.sum_congr rfl fun k hk => by rw [← mul_add, anti k i j (Finset.mem_range.1 hk) hi hj]
    rw [Finset.sum_eq_single 0 (fun k _ hk => by rw [if_neg hk, mul_zero]) (fun h => absurd (Finset.mem_range.2 hs0) h), if_pos rfl, ← e3] at this
    by_cases hij : i = j
    · rw [if_pos hij] at this ⊢; linarith
    · rw [if_neg hij] at this ⊢; linarith
  rcases Nat.eq_zero_or_pos d with h0 | h0
  · exact Or.inl ⟨p1, p2, fun i j hi => by rw [p1, h0] at hi; omega⟩
  have sq : c 0 * c 0 = c 0 := by
    have e := pid.2.2 0 0 (by simpa [p1] using h0) (by simpa [p2] using h0)
    simp only [mul, p2] at e
    rw [Finset.sum_eq_single 0 (fun k hk hk0 => by rw [get 0 k h0 (Finset.mem_range.1 hk), if_neg (fun h => hk0 h.symm), zero_mul]) (fun h => absurd (Finset.mem_range.2 h0) h), get 0 0 h0 h0, if_pos rfl] at e
    exact e
  rcases (by have : c 0 * (c 0 - 1) = 0 := by linarith
             rcases mul_eq_zero.1 this with h | h
             · exact Or.inl h
             · exact Or.inr (by linarith) : c 0 = 0 ∨ c 0 = 1) with h | h
  · exact Or.inl ⟨p1, p2, fun i j hi hj => by rw [get i j (p1 ▸ hi) (p2 ▸ hj), h]; simp [zeros]⟩
  · exact Or.inr ⟨p1, p2, fun i j hi hj => by rw [get i j (p1 ▸ hi) (p2 ▸ hj), h]; rfl⟩

/-- **C61** Hence the irreps of the product are irreducible, in the same cases. -/
theorem C61_irreducible (h₁ : TypedIrreps El₁ op₁ one₁ T₁ typ₁) (h₂ : TypedIrreps El₂ op₂ one₂ T₂ typ₂) (junk : ℕ → ℕ → ℝ) {a : I₁} {b : I₂} (ha : T₁.ok a = true) (hb : T₂.ok b = true) (i : ℤ)
    (hH : typ₂ b = .H → typ₁ a = .C) (t₁ : HasType El₁ (T₁.mat a) (typ₁ a) (T₁.size a)) (t₂ : HasType El₂ (T₂.mat b) (typ₂ b) (T₂.size b)) :
    IrreducibleRep (prodEl El₁ El₂) ((dpTable junk T₁ typ₁ T₂ typ₂).mat (a, b, i)) ((dpTable junk T₁ typ₁ T₂ typ₂).size (a, b, i)) := by
  obtain ⟨s, t⟩ := C61_types h₁ h₂ junk ha hb i hH t₁ t₂
  exact t.irreducible s

end Escnn
