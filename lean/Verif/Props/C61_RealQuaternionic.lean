import Verif.Props.C61_Quaternionic
import Verif.Props.C61_Instances

/-!
# C61: the tensor product of an irrep of real type and one of quaternionic type
-/

namespace Escnn

open NpMat

variable {G₁ I₁ G₂ I₂ : Type}
variable {El₁ : G₁ → Prop} {op₁ : G₁ → G₁ → G₁} {one₁ : G₁} {T₁ : IrrepTable G₁ I₁} {typ₁ : I₁ → IrrType}
variable {El₂ : G₂ → Prop} {op₂ : G₂ → G₂ → G₂} {one₂ : G₂} {T₂ : IrrepTable G₂ I₂} {typ₂ : I₂ → IrrType}

theorem antiReal_inj {A B : NpMat ℂ} (h : antiReal A ≈ antiReal B) : A ≈ B := by
  obtain ⟨h1, h2, h3⟩ := h
  have r : A.rows = B.rows := by simp only [antiReal] at h1; omega
  have c : A.cols = B.cols := by simp only [antiReal] at h2; omega
  refine ⟨r, c, fun i j hi hj => Complex.ext ?_ ?_⟩
  · have := h3 i j (by simp only [antiReal]; omega) (by simp only [antiReal]; omega)
    simpa [antiReal, hi, hj, r ▸ hi, c ▸ hj] using this
  · have := h3 (A.rows + i) j (by simp only [antiReal]; omega) (by simp only [antiReal]; omega)
    simpa [antiReal, hi, hj, r ▸ hi, c ▸ hj, r] using this

/-- The last array of the basis of type `H` is antilinear. -/
theorem endoH_anti (N : ℕ) : (kron (ofRows 4 [[0, -1, 0, 0], [1, 0, 0, 0], [0, 0, 0, 1], [0, 0, -1, 0]]) (eye N) : NpMat ℝ) ≈ antiReal (kron (ofRows 2 [[0, -1], [1, 0]]) (eye N)) := by
  have e : ∀ L : List (List ℂ), ∀ i j, (kron (ofRows 2 L) (eye N)).get i j = (ofRows 2 L).get (i / N) (j / N) * (eye N : NpMat ℂ).get (i % N) (j % N) := fun _ _ _ => rfl
  refine ⟨by simp [antiReal, ofRows]; ring, by simp [antiReal, ofRows]; ring, fun i j hi hj => ?_⟩
  have hi : i < 4 * N := hi
  have hj : j < 4 * N := hj
  have hN : 0 < N := by omega
  obtain ⟨i1, i2, i3⟩ := index_split hi
  obtain ⟨j1, j2, j3⟩ := index_split hj
  have hr : (kron (ofRows 2 [[0, -1], [1, 0]]) (eye N) : NpMat ℂ).rows = 2 * N := rfl
  have hc : (kron (ofRows 2 [[0, -1], [1, 0]]) (eye N) : NpMat ℂ).cols = 2 * N := rfl
  have sub : ∀ x, 2 * N ≤ x → (x - 2 * N) / N = x / N - 2 ∧ (x - 2 * N) % N = x % N := fun x hx => by
    obtain ⟨y, rfl⟩ : ∃ y, x = N * 2 + y := ⟨x - 2 * N, by omega⟩
    rw [Nat.mul_add_div hN, Nat.mul_add_mod, show N * 2 + y - 2 * N = y by omega]
    exact ⟨(Nat.add_sub_cancel_left 2 (y / N)).symm, rfl⟩
  have lt : ∀ x, x < 2 * N ↔ x / N < 2 := fun x => (Nat.div_lt_iff_lt_mul hN).symm
  have he : (eye N : NpMat ℂ).get (i % N) (j % N) = (((eye N : NpMat ℝ).get (i % N) (j % N) : ℝ) : ℂ) := by simp only [eye]; split_ifs <;> simp
  simp only [antiReal, hr, hc, e]
  show (ofRows 4 [[0, -1, 0, 0], [1, 0, 0, 0], [0, 0, 0, 1], [0, 0, -1, 0]] : NpMat ℝ).get (i / N) (j / N) * (eye N : NpMat ℝ).get (i % N) (j % N) = _
  by_cases ci : i < 2 * N <;> by_cases cj : j < 2 * N
  · rw [if_pos ci, if_pos cj, he]
    rw [lt] at ci cj
    generalize i / N = x at *
    generalize j / N = y at *
    interval_cases x <;> interval_cases y <;> simp [ofRows]
  · rw [if_pos ci, if_neg cj, (sub j (by omega)).1, (sub j (by omega)).2, he]
    rw [lt] at ci cj
    generalize i / N = x at *
    generalize j / N = y at *
    interval_cases x <;> interval_cases y <;> first | omega | simp [ofRows]
  · rw [if_neg ci, if_pos cj, (sub i (by omega)).1, (sub i (by omega)).2, he]
    rw [lt] at ci cj
    generalize i / N = x at *
    generalize j / N = y at *
    interval_cases x <;> interval_cases y <;> first | omega | simp [ofRows]
  · rw [if_neg ci, if_neg cj, (sub i (by omega)).1, (sub i (by omega)).2, (sub j (by omega)).1, (sub j (by omega)).2, he]
    rw [lt] at ci cj
    generalize i / N = x at *
    generalize j / N = y at *
    interval_cases x <;> interval_cases y <;> first | omega | simp [ofRows]

theorem idx_pair {n x y : ℕ} (h : y < n) : (x * n + y) / n = x ∧ (x * n + y) % n = y := by
  have hn : 0 < n := by omega
  rw [mul_comm, Nat.mul_add_div hn, Nat.mul_add_mod, Nat.div_eq_of_lt h, Nat.mod_eq_of_lt h]
  exact ⟨by omega, rfl⟩

/-- A matrix of the product seen after exchanging the two factors inside each half. -/
def swapHalf (s n i : ℕ) : ℕ := i / (s * n) * (s * n) + (i % (s * n) % n * s + i % (s * n) / n)

theorem swapHalf_spec {s n i : ℕ} (hi : i < 2 * (s * n)) : ∃ h a b, h < 2 ∧ a < s ∧ b < n ∧ i = h * (s * n) + (a * n + b) ∧ swapHalf s n i = (h * n + b) * s + a ∧ a * n + b < s * n := by
  obtain ⟨i1, i2, i3⟩ := index_split hi
  obtain ⟨r1, r2, r3⟩ := index_split i2
  refine ⟨_, _, _, i1, r1, r2, by rw [← r3]; exact i3, by rw [swapHalf]; ring, by rw [← r3]; exact i2⟩

theorem swapHalf_lt {s n i : ℕ} (hi : i < 2 * (s * n)) : swapHalf s n i < 2 * (s * n) := by
  obtain ⟨h, a, b, hh, ha, hb, -, e, -⟩ := swapHalf_spec hi
  rw [e]
  have : h * n + b + 1 ≤ 2 * n := by interval_cases h <;> omega
  nlinarith [Nat.mul_le_mul_right s this]

theorem swapHalf_swapHalf {s n i : ℕ} (hi : i < 2 * (s * n)) : swapHalf n s (swapHalf s n i) = i := by
  obtain ⟨h, a, b, hh, ha, hb, e0, e, hlt⟩ := swapHalf_spec hi
  have hlt' : b * s + a < n * s := by nlinarith [Nat.mul_le_mul_right s (show b + 1 ≤ n from hb)]
  have e' : swapHalf s n i = h * (n * s) + (b * s + a) := by rw [e]; ring
  obtain ⟨d1, d2⟩ := idx_pair (x := h) hlt'
  obtain ⟨d3, d4⟩ := idx_pair (x := b) ha
  rw [e', swapHalf, d1, d2, d3, d4, e0]
  ring

/-- Irreducibility does not depend on the order of the basis. -/
theorem IrreducibleRep.reindex {E : Type} {El : E → Prop} {ρ σ : E → NpMat ℝ} {d : ℕ} (hσ : ∀ g, El g → (σ g).rows = d ∧ (σ g).cols = d) (hρ : ∀ g, El g → (ρ g).rows = d ∧ (ρ g).cols = d) (f f' : ℕ → ℕ)
    (f1 : ∀ i < d, f i < d) (f2 : ∀ i < d, f' i < d) (f3 : ∀ i < d, f' (f i) = i) (f4 : ∀ i < d, f (f' i) = i) (e : ∀ g, El g → ∀ i j, i < d → j < d → (ρ g).get i j = (σ g).get (f i) (f j))
    (h : IrreducibleRep El σ d) : IrreducibleRep El ρ d := by
  intro P p1 p2 psym pid hP
  have sum : ∀ u : ℕ → ℝ, ∑ k ∈ Finset.range d, u (f' k) = ∑ k ∈ Finset.range d, u k := fun u =>
    Finset.sum_bij' (fun k _ => f' k) (fun k _ => f k) (fun k hk => Finset.mem_range.2 (f2 k (Finset.mem_range.1 hk))) (fun k hk => Finset.mem_range.2 (f1 k (Finset.mem_range.1 hk)))
      (fun k hk => f4 k (Finset.mem_range.1 hk)) (fun k hk => f3 k (Finset.mem_range.1 hk)) (fun k _ => rfl)
  have es : ∀ g, El g → ∀ i j, i < d → j < d → (σ g).get i j = (ρ g).get (f' i) (f' j) := fun g hg i j hi hj => by rw [e g hg _ _ (f2 i hi) (f2 j hj), f4 i hi, f4 j hj]
  have key := h ⟨d, d, fun i j => P.get (f' i) (f' j)⟩ rfl rfl ⟨rfl, rfl, fun i j hi hj => ?_⟩ ⟨rfl, rfl, fun i j hi hj => ?_⟩ fun g hg => ?_
  · rcases key with k | k
    · refine Or.inl ⟨p1, p2, fun i j hi hj => ?_⟩
      rw [p1] at hi
      rw [p2] at hj
      have := k.2.2 (f i) (f j) (f1 i hi) (f1 j hj)
      simpa [f3 i hi, f3 j hj, zeros] using this
    · refine Or.inr ⟨p1, p2, fun i j hi hj => ?_⟩
      rw [p1] at hi
      rw [p2] at hj
      have := k.2.2 (f i) (f j) (f1 i hi) (f1 j hj)
      simp only [f3 i hi, f3 j hj, eye] at this
      rw [this]
      have : f i = f j ↔ i = j := ⟨fun h => by rw [← f3 i hi, h, f3 j hj], fun h => by rw [h]⟩
      simp only [eye, this]
  · exact psym.2.2 _ _ (by rw [p1]; exact f2 i hi) (by rw [p2]; exact f2 j hj)
  · have := pid.2.2 (f' i) (f' j) (by rw [mul_rows, p1]; exact f2 i hi) (by rw [mul_cols, p2]; exact f2 j hj)
    rw [← this]
    simp only [mul, p2]
    exact sum fun k => P.get (f' i) k * P.get k (f' j)
  · refine ⟨(hσ g hg).1.symm, (hσ g hg).2, fun i j hi hj => ?_⟩
    have hi : i < d := hi
    have hj : j < d := by rw [mul_cols, (hσ g hg).2] at hj; exact hj
    have := (hP g hg).2.2 (f' i) (f' j) (by rw [mul_rows, p1]; exact f2 i hi) (by rw [mul_cols, (hρ g hg).2]; exact f2 j hj)
    simp only [mul, p2, (hρ g hg).2] at this
    simp only [mul, (hσ g hg).2]
    rw [← sum fun k => P.get (f' i) k * (ρ g).get k (f' j), ← sum fun k => (ρ g).get (f' i) k * P.get k (f' j)] at this
    refine Eq.trans (Finset.sum_congr rfl fun k hk => ?_) (this.trans (Finset.sum_congr rfl fun k hk => ?_))
    · rw [es g hg k j (Finset.mem_range.1 hk) hj]
    · rw [es g hg i k hi (Finset.mem_range.1 hk)]

/-- The product of a real and a complex representation is, up to the order of the basis, the product with the real factor on the right. -/
theorem realify_swap {M : NpMat ℝ} {Z : NpMat ℂ} {s n : ℕ} (m1 : M.rows = s) (m2 : M.cols = s) (z1 : Z.rows = n) (z2 : Z.cols = n) {i j : ℕ} (hi : i < 2 * (s * n)) (hj : j < 2 * (s * n)) :
    (realify (kron (ofReal M) Z)).get i j = (kron (realify Z) M).get (swapHalf s n i) (swapHalf s n j) := by
  obtain ⟨h, a, b, hh, ha, hb, i0, ei, il⟩ := swapHalf_spec hi
  obtain ⟨h', a', b', hh', ha', hb', j0, ej, jl⟩ := swapHalf_spec hj
  rw [ei, ej]
  show _ = (realify Z).get (((h * n + b) * s + a) / M.rows) (((h' * n + b') * s + a') / M.cols) * M.get (((h * n + b) * s + a) % M.rows) (((h' * n + b') * s + a') % M.cols)
  rw [m1, m2, (idx_pair ha).1, (idx_pair ha).2, (idx_pair ha').1, (idx_pair ha').2]
  have kr : (kron (ofReal M) Z).rows = s * n := by simp [m1, z1]
  have kc : (kron (ofReal M) Z).cols = s * n := by simp [m2, z2]
  have kg : ∀ x y, (kron (ofReal M) Z).get x y = (M.get (x / n) (y / n) : ℂ) * Z.get (x % n) (y % n) := fun x y => by simp only [kron, ofReal, z1, z2]
  simp only [realify, kr, kc, kg, z1, z2]
  have p := idx_pair (x := a) hb
  have p' := idx_pair (x := a') hb'
  interval_cases h <;> interval_cases h' <;> simp only [zero_mul, zero_add, one_mul] at i0 j0 ⊢
  · rw [if_pos (i0 ▸ il), if_pos (j0 ▸ jl), if_pos hb, if_pos hb', i0, j0, p.1, p.2, p'.1, p'.2]
    simp; ring
  · rw [if_pos (i0 ▸ il), if_neg (by omega), if_pos hb, if_neg (by omega), i0, j0, Nat.add_sub_cancel_left, Nat.add_sub_cancel_left, p.1, p.2, p'.1, p'.2]
    simp; ring
  · rw [if_neg (by omega), if_pos (j0 ▸ jl), if_neg (by omega), if_pos hb', i0, j0, Nat.add_sub_cancel_left, Nat.add_sub_cancel_left, p.1, p.2, p'.1, p'.2]
    simp; ring
  · rw [if_neg (by omega), if_neg (by omega), if_neg (by omega), if_neg (by omega), i0, j0, Nat.add_sub_cancel_left, Nat.add_sub_cancel_left, Nat.add_sub_cancel_left, Nat.add_sub_cancel_left, p.1, p.2, p'.1, p'.2]
    simp; ring

/-- **C61** A factor of real type and one of quaternionic type give an irreducible representation.  **C61 does not hold** for its type if the first factor has more than one dimension: `irrep` declares the type `'H'`, but the arrays
of `endomorphism_basis` do not commute with the matrices, as `tensor_product_irrep` puts the real factor between the two halves of the complex structure and the rest. -/
theorem C61_real_quaternionic (h₁ : TypedIrreps El₁ op₁ one₁ T₁ typ₁) (h₂ : TypedIrreps El₂ op₂ one₂ T₂ typ₂) (junk : ℕ → ℕ → ℝ) {a : I₁} {b : I₂} (ha : T₁.ok a = true) (hb : T₂.ok b = true) (hR : typ₁ a = .R) (hH : typ₂ b = .H)
    (t₁ : HasType El₁ (T₁.mat a) (typ₁ a) (T₁.size a)) (t₂ : HasType El₂ (T₂.mat b) (typ₂ b) (T₂.size b)) :
    IrreducibleRep (prodEl El₁ El₂) ((dpTable junk T₁ typ₁ T₂ typ₂).mat (a, b, 0)) ((dpTable junk T₁ typ₁ T₂ typ₂).size (a, b, 0)) ∧ dpType (typ₁ a) (typ₂ b) = .H ∧
    (HasType (prodEl El₁ El₂) ((dpTable junk T₁ typ₁ T₂ typ₂).mat (a, b, 0)) (dpType (typ₁ a) (typ₂ b)) ((dpTable junk T₁ typ₁ T₂ typ₂).size (a, b, 0)) ↔ T₁.size a = 1) := by
  have hR₂ : typ₂ b ≠ .R := by rw [hH]; decide
  have hd : dpType (typ₁ a) (typ₂ b) = .H := by rw [hR, hH]; rfl
  obtain ⟨e, e'⟩ := (dpTable_mat h₁ h₂ junk ha hb 0).2.1 hR hR₂
  obtain ⟨e₂, u₂, r₂⟩ := h₂.complex hb hR₂
  have v₁ := h₁.valid a ha
  have v₂ := h₂.valid b hb
  have s₁ : 0 < T₁.size a := (h₁.pos ha).1
  have s₂ := (h₂.endo b hb).1
  have l₁ := HasType.lin_real (hR ▸ t₁)
  have u₁ := UnitRep.of_real v₁
  have u := u₁.kron u₂
  have tk : HasType (prodEl El₂ El₁) (fun g => kron (T₂.mat b g.1) (T₁.mat a g.2)) (typ₂ b) (T₂.size b * T₁.size a) := HasType.kron_real v₂ v₁ h₂.one_mem h₁.one_mem s₂ s₁ t₂ (hR ▸ t₁)
  have tk' : HasType (prodEl El₁ El₂) (fun g => kron (T₂.mat b g.2) (T₁.mat a g.1)) (typ₂ b) (T₂.size b * T₁.size a) :=
    ⟨fun B hB g hg => tk.commute B hB (g.2, g.1) ⟨hg.2, hg.1⟩, fun M m1 m2 hM => tk.full M m1 m2 fun g hg => hM (g.2, g.1) ⟨hg.2, hg.1⟩⟩
  rw [hd, e']
  have sz : T₂.size b * T₁.size a = 2 * (T₁.size a * (T₂.size b / 2)) := by
    have : T₂.size b * T₁.size a = 2 * (T₂.size b / 2) * T₁.size a := by rw [← e₂]
    rw [this]; ring
  rw [sz, hH] at tk'
  rw [hH] at s₂
  obtain ⟨q, hq⟩ : ∃ q, T₂.size b = 4 * q := ⟨T₂.size b / 4, by have := s₂.2; omega⟩
  have hqp : 0 < q := by have := s₂.1; omega
  have hn : T₂.size b / 2 = 2 * q := by omega
  have szH : IrrType.H.sizeOk (2 * (T₁.size a * (T₂.size b / 2))) := ⟨Nat.mul_pos (by norm_num) (Nat.mul_pos s₁ (by omega)), by rw [hn, show 2 * (T₁.size a * (2 * q)) = 4 * (T₁.size a * q) by ring]; omega⟩
  have dims : ∀ g, prodEl El₁ El₂ g → ((dpTable junk T₁ typ₁ T₂ typ₂).mat (a, b, 0) g).rows = 2 * (T₁.size a * (T₂.size b / 2)) ∧ ((dpTable junk T₁ typ₁ T₂ typ₂).mat (a, b, 0) g).cols = 2 * (T₁.size a * (T₂.size b / 2)) :=
    fun g hg => ⟨(e g hg).1.trans (u.realify.rows g hg), (e g hg).2.1.trans (u.realify.cols g hg)⟩
  have dims' : ∀ g, prodEl El₁ El₂ g → (kron (T₂.mat b g.2) (T₁.mat a g.1)).rows = 2 * (T₁.size a * (T₂.size b / 2)) ∧ (kron (T₂.mat b g.2) (T₁.mat a g.1)).cols = 2 * (T₁.size a * (T₂.size b / 2)) :=
    fun g hg => ⟨by rw [kron_rows, v₂.rows _ hg.2, v₁.rows _ hg.1, sz], by rw [kron_cols, v₂.cols _ hg.2, v₁.cols _ hg.1, sz]⟩
  have entry : ∀ g, prodEl El₁ El₂ g → ∀ i j, i < 2 * (T₁.size a * (T₂.size b / 2)) → j < 2 * (T₁.size a * (T₂.size b / 2)) →
      ((dpTable junk T₁ typ₁ T₂ typ₂).mat (a, b, 0) g).get i j = (kron (T₂.mat b g.2) (T₁.mat a g.1)).get (swapHalf (T₁.size a) (T₂.size b / 2) i) (swapHalf (T₁.size a) (T₂.size b / 2) j) := by
    intro g hg i j hi hj
    rw [(e g hg).2.2 i j (by rw [(dims g hg).1]; exact hi) (by rw [(dims g hg).2]; exact hj), realify_swap (v₁.rows _ hg.1) (v₁.cols _ hg.1) (u₂.rows _ hg.2) (u₂.cols _ hg.2) hi hj]
    have k := kron_congr (r₂ _ hg.2) (Eqv.refl (T₁.mat a g.1))
    exact k.2.2 _ _ (by rw [k.1, (dims' g hg).1]; exact swapHalf_lt hi) (by rw [k.2.1, (dims' g hg).2]; exact swapHalf_lt hj)
  have comm : T₂.size b / 2 * T₁.size a = T₁.size a * (T₂.size b / 2) := mul_comm _ _
  refine ⟨IrreducibleRep.reindex dims' dims (swapHalf (T₁.size a) (T₂.size b / 2)) (swapHalf (T₂.size b / 2) (T₁.size a)) (fun i hi => swapHalf_lt hi) (fun i hi => comm ▸ swapHalf_lt (comm.symm ▸ hi)) (fun i hi => swapHalf_swapHalf hi)
    (fun i hi => swapHalf_swapHalf (comm.symm ▸ hi)) entry (tk'.irreducible szH), rfl, fun t => ?_, fun h1 => ?_⟩
  · by_contra h1
    obtain ⟨Q, hQ⟩ : ∃ Q : NpMat ℂ, Q = kron (ofRows 2 [[0, -1], [1, 0]]) (eye (T₁.size a * q)) := ⟨_, rfl⟩
    have Qr : Q.rows = T₁.size a * (2 * q) := by rw [hQ]; show 2 * (T₁.size a * q) = _; ring
    have Qc : Q.cols = T₁.size a * (2 * q) := by rw [hQ]; show 2 * (T₁.size a * q) = _; ring
    have hE := t.commute (kron (ofRows 4 [[0, -1, 0, 0], [1, 0, 0, 0], [0, 0, 0, 1], [0, 0, -1, 0]]) (eye (2 * (T₁.size a * (T₂.size b / 2)) / 4))) (by simp [endoBasis, endoCore])
    rw [hn] at u u₂
    rw [hn, show 2 * (T₁.size a * (2 * q)) / 4 = T₁.size a * q by rw [show 2 * (T₁.size a * (2 * q)) = 4 * (T₁.size a * q) by ring]; omega] at hE
    have eA := endoH_anti (T₁.size a * q)
    rw [← hQ] at eA
    have anti : ∀ g, prodEl El₁ El₂ g → mul Q (conj (kron (ofReal (T₁.mat a g.1)) (complexify (T₂.mat b g.2)))) ≈ mul (kron (ofReal (T₁.mat a g.1)) (complexify (T₂.mat b g.2))) Q := by
      intro g hg
      have k := hE g hg
      have ur := u.rows g hg
      have uc := u.cols g hg
      refine antiReal_inj ((antiReal_mul (by rw [Qc]; exact ur.symm)).symm.trans (Eqv.trans ?_ (realify_antiReal (by rw [Qr]; exact uc))))
      have Ar : (antiReal Q).rows = 2 * (T₁.size a * (2 * q)) := by simp [antiReal, Qr]
      have Ac : (antiReal Q).cols = 2 * (T₁.size a * (2 * q)) := by simp [antiReal, Qc]
      have ur' := u.realify.rows g hg
      have uc' := u.realify.cols g hg
      refine (mul_congr eA.symm (e g hg).symm (by rw [Ac]; exact ur'.symm)).trans (k.symm.trans (mul_congr (e g hg) eA ?_))
      rw [(e g hg).2.1, eA.1, Ar]; exact uc'
    have inn := fun g hg => inner_of_kron (M := Q) (m := T₁.size a) (n := 2 * q) (A := fun g => conj (ofReal (T₁.mat a g))) (A' := fun g => ofReal (T₁.mat a g)) (B := fun g => conj (complexify (T₂.mat b g)))
      (B' := fun g => complexify (T₂.mat b g)) (El₁ := El₁) (El₂ := El₂) h₂.one_mem (fun g hg => ⟨⟨u₁.rows g hg, u₁.cols g hg⟩, u₁.rows g hg, u₁.cols g hg⟩) ((conj_congr u₂.map_one).trans (conj_eye _)) u₂.map_one Qr Qc
      (fun g hg => (mul_congr (Eqv.refl Q) (conj_kron _ _).symm (by rw [Qc]; exact (u.rows g hg).symm)).trans (anti g hg)) g hg (i := T₁.size a % 2 * q) (j := 0)
      (by have := Nat.mod_lt (T₁.size a) (show 0 < 2 by norm_num); nlinarith) (by omega)
    obtain ⟨z, hz⟩ := l₁ (NpMat.inner Q (T₁.size a) (2 * q) (T₁.size a % 2 * q) 0) rfl rfl fun g hg => (mul_congr (Eqv.refl _) (show ofReal (T₁.mat a g) ≈ conj (ofReal (T₁.mat a g)) from ⟨rfl, rfl, fun i j _ _ => by simp [conj, ofReal]⟩) (v₁.rows g hg).symm).trans (inn g hg)
    have hz := hz.2.2 (T₁.size a / 2) 0 (show T₁.size a / 2 < T₁.size a by omega) s₁
    have pos : (T₁.size a / 2) * (2 * q) + T₁.size a % 2 * q = T₁.size a * q := by
      have := Nat.div_add_mod (T₁.size a) 2
      calc _ = (2 * (T₁.size a / 2) + T₁.size a % 2) * q := by ring
        _ = _ := by rw [this]
    have : (T₁.size a / 2) ≠ 0 := by omega
    simp only [NpMat.inner, scalar, pos, if_neg this, zero_mul, zero_add] at hz
    rw [hQ] at hz
    have hp : 0 < T₁.size a * q := Nat.mul_pos s₁ hqp
    simp [kron, ofRows, eye, Nat.div_self hp] at hz
  · refine HasType.of_congr szH tk' dims' fun g hg => ⟨(dims g hg).1.trans (dims' g hg).1.symm, (dims g hg).2.trans (dims' g hg).2.symm, fun i j hi hj => ?_⟩
    rw [(dims g hg).1] at hi
    rw [(dims g hg).2] at hj
    have triv : ∀ i, i < 2 * (T₁.size a * (T₂.size b / 2)) → swapHalf (T₁.size a) (T₂.size b / 2) i = i := fun i hi => by
      obtain ⟨h, x, y, -, hx, -, i0, ei, -⟩ := swapHalf_spec hi
      rw [ei, i0, h1, show x = 0 by omega]; ring
    rw [entry g hg i j hi hj, triv i hi, triv j hj]

set_option maxHeartbeats 4000000 in
-- products of 4 × 4 arrays, entry by entry
theorem Quat.hasType : HasType Quat.unit (Quat.table.mat ()) .H 4 := by
  have cols : ∀ q, (Quat.mat q).cols = 4 := fun _ => rfl
  refine ⟨(Quat.typed.endo () rfl).2, fun M m1 m2 hM => ⟨fun k => if k = 0 then M.get 0 0 else if k = 1 then M.get 3 0 else if k = 2 then M.get 2 0 else M.get 1 0, fun i j hi hj => ?_⟩⟩
  have key : ∀ g, Quat.unit g → ∀ i j, i < 4 → j < 4 → (mul M (Quat.mat g)).get i j = (mul (Quat.mat g) M).get i j := fun g hg i j hi hj =>
    (hM g hg).2.2 i j (by rw [mul_rows, m1]; exact hi) hj
  have hi1 : Quat.unit (0, 1, 0, 0) := by simp [Quat.unit]
  have hj1 : Quat.unit (0, 0, 1, 0) := by simp [Quat.unit]
  have ki := fun i j hi hj => key _ hi1 i j hi hj
  have kj := fun i j hi hj => key _ hj1 i j hi hj
  simp only [mul, m2, cols, Finset.sum_range_succ, Finset.sum_range_zero, Quat.mat, ofRows] at ki kj
  have e := endoH_get 1 i j fun k => if k = 0 then M.get 0 0 else if k = 1 then M.get 3 0 else if k = 2 then M.get 2 0 else M.get 1 0
  rw [show 4 * 1 = 4 from rfl] at e
  rw [e]
  simp only [Nat.div_one, Nat.mod_one]
  have a1 := ki 0 0 (by omega) (by omega)
  have a2 := ki 0 1 (by omega) (by omega)
  have a3 := ki 0 2 (by omega) (by omega)
  have a4 := ki 0 3 (by omega) (by omega)
  have a5 := ki 1 0 (by omega) (by omega)
  have a6 := ki 1 1 (by omega) (by omega)
  have a7 := ki 1 2 (by omega) (by omega)
  have a8 := ki 1 3 (by omega) (by omega)
  have b1 := kj 0 0 (by omega) (by omega)
  have b2 := kj 0 1 (by omega) (by omega)
  have b3 := kj 0 2 (by omega) (by omega)
  have b4 := kj 0 3 (by omega) (by omega)
  have b5 := kj 1 0 (by omega) (by omega)
  have b6 := kj 1 1 (by omega) (by omega)
  have b7 := kj 1 2 (by omega) (by omega)
  have b8 := kj 1 3 (by omega) (by omega)
  simp at a1 a2 a3 a4 a5 a6 a7 a8 b1 b2 b3 b4 b5 b6 b7 b8
  interval_cases i <;> interval_cases j <;> simp [eye, ofRows] <;> linarith

/-- The irrep of dimension 2 of O(2) and the quaternions. -/
example : IrreducibleRep (prodEl O2.IsElement Quat.unit) ((dpTable (fun _ _ => 0) O2.table (fun _ => .R) Quat.table (fun _ => .H)).mat ((1, 1), (), 0)) 8 ∧
    ¬ HasType (prodEl O2.IsElement Quat.unit) ((dpTable (fun _ _ => 0) O2.table (fun _ => .R) Quat.table (fun _ => .H)).mat ((1, 1), (), 0)) .H 8 := by
  have h := C61_real_quaternionic O2.typed.1 Quat.typed (fun _ _ => 0) (a := (1, 1)) (b := ()) (by decide) rfl rfl rfl (O2.typed.2 _ (by decide)) Quat.hasType
  exact ⟨h.1, fun t => absurd (h.2.2.1 t) (by decide)⟩

/-- The quaternions and a rotation: of complex type. -/
example : HasType (prodEl Quat.unit SO2.IsElement) ((dpTable (fun _ _ => 0) Quat.table (fun _ => .H) SO2.table SO2.irrepType).mat ((), 3, 0)) .C 4 :=
  (C61_types Quat.typed SO2.typed.1 (fun _ _ => 0) (a := ()) (b := 3) rfl rfl 0 (fun h => by cases h) Quat.hasType (SO2.typed.2 3)).2

end Escnn
