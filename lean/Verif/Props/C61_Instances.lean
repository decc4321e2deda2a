import Verif.Props.C61_Types

/-!
# C61: the groups of the plane, and the case of two irreps of quaternionic type
-/

namespace Escnn

open NpMat

theorem hasType_one {E : Type} {El : E → Prop} {ρ : E → NpMat ℝ} (hr : ∀ g, El g → (ρ g).rows = 1 ∧ (ρ g).cols = 1) : HasType El ρ .R 1 := by
  refine ⟨fun B hB g hg => endoR (hr g hg).1 (hr g hg).2 B hB, fun M _ _ _ => ⟨fun _ => M.get 0 0, fun i j hi hj => ?_⟩⟩
  obtain rfl : i = 0 := by omega
  obtain rfl : j = 0 := by omega
  simp [IrrType.sumsq, endoBasis, eye]

/-- What commuting with a rotation means. -/
theorem commute_psi {M : NpMat ℝ} (m1 : M.rows = 2) (m2 : M.cols = 2) {θ : ℝ} {k : ℕ} (hs : Real.sin (k * θ) ≠ 0) (h : mul M (psi θ k) ≈ mul (psi θ k) M) : M.get 0 1 = -M.get 1 0 ∧ M.get 0 0 = M.get 1 1 := by
  have pc : (psi θ k).cols = 2 := rfl
  have a := h.2.2 0 0 (by simp [m1]) (by simp [pc])
  have b := h.2.2 0 1 (by simp [m1]) (by simp [pc])
  simp only [mul, m2, pc, Finset.sum_range_succ, Finset.sum_range_zero, psi, of2] at a b
  simp at a b
  refine ⟨mul_right_cancel₀ hs (by linarith), mul_right_cancel₀ hs (by linarith)⟩

theorem commute_psichi {M : NpMat ℝ} (m1 : M.rows = 2) (m2 : M.cols = 2) {k : ℕ} (h : mul M (psichi 0 1 k) ≈ mul (psichi 0 1 k) M) : M.get 0 1 = 0 := by
  have pc : (psichi 0 1 k).cols = 2 := rfl
  have a := h.2.2 0 1 (by simp [m1]) (by simp [pc])
  simp only [mul, m2, pc, Finset.sum_range_succ, Finset.sum_range_zero, psichi, of2, sgnR] at a
  simp at a
  linarith

theorem hasType_rot {E : Type} {El : E → Prop} {ρ : E → NpMat ℝ} (k : ℕ) (θ : E → ℝ) (hρ : ∀ g, El g → ρ g = psi (θ g) k) {g : E} (hg : El g) (hs : Real.sin (k * θ g) ≠ 0) : HasType El ρ .C 2 := by
  refine ⟨fun B hB h hh => by rw [hρ h hh]; exact psi_commute_J _ _ B hB, fun M m1 m2 hM => ⟨fun i => M.get i 0, fun i j hi hj => ?_⟩⟩
  have := hM g hg
  rw [hρ g hg] at this
  obtain ⟨a, b⟩ := commute_psi m1 m2 hs this
  interval_cases i <;> interval_cases j <;> simp [IrrType.sumsq, Finset.sum_range_succ, endoBasis, endoCore, kron, eye, ofRows, a, b]

theorem hasType_refl {E : Type} {El : E → Prop} {ρ : E → NpMat ℝ} (k : ℕ) (hr : ∀ g, El g → (ρ g).rows = 2 ∧ (ρ g).cols = 2) {g f : E} (hg : El g) (hf : El f) {θ : ℝ} (h1 : ρ g = psi θ k) (h2 : ρ f = psichi 0 1 k)
    (hs : Real.sin (k * θ) ≠ 0) : HasType El ρ .R 2 := by
  refine ⟨fun B hB h hh => endoR (hr h hh).1 (hr h hh).2 B hB, fun M m1 m2 hM => ⟨fun _ => M.get 0 0, fun i j hi hj => ?_⟩⟩
  have a := hM g hg
  have b := hM f hf
  rw [h1] at a
  rw [h2] at b
  obtain ⟨c, d⟩ := commute_psi m1 m2 hs a
  have e := commute_psichi m1 m2 b
  have e' : M.get 1 0 = 0 := by linarith
  interval_cases i <;> interval_cases j <;> simp [IrrType.sumsq, endoBasis, eye, e, e', d]

theorem sin_freq {N k : ℕ} (h0 : k ≠ 0) (h : 2 * k < N) : Real.sin (k * (((1 : ℤ) : ℝ) * (2 * Real.pi) / N)) ≠ 0 := by
  have hN : (0 : ℝ) < N := by exact_mod_cast (by omega : 0 < N)
  have hk : (0 : ℝ) < k := by exact_mod_cast Nat.pos_of_ne_zero h0
  have hlt : (2 : ℝ) * k < N := by exact_mod_cast h
  have e : (k : ℝ) * (((1 : ℤ) : ℝ) * (2 * Real.pi) / N) = (2 * k / N) * Real.pi := by push_cast; ring
  rw [e]
  refine (Real.sin_pos_of_pos_of_lt_pi (by positivity) ?_).ne'
  have : 2 * (k : ℝ) / N < 1 := by rw [div_lt_one hN]; exact hlt
  nlinarith [Real.pi_pos]

theorem psi_psichi (θ : ℝ) (k : ℕ) : psichi θ 0 k = psi θ k := by simp [psichi, psi, sgnR]

/-- The irreps of `C_N` have the declared types, and exactly these. -/
theorem Cyclic.typed (N : ℕ) (hN : 0 < N) : TypedIrreps (fun e => Cyclic.isElement N e = true) (Cyclic.combine N) Cyclic.identity (Cyclic.table N) (Cyclic.irrepType N) ∧
    ∀ k, (Cyclic.table N).ok k = true → HasType (fun e => Cyclic.isElement N e = true) ((Cyclic.table N).mat k) (Cyclic.irrepType N k) ((Cyclic.table N).size k) := by
  have hN' : (0 : ℤ) < N := by exact_mod_cast hN
  refine ⟨⟨by simp [Cyclic.isElement, Cyclic.identity, hN], fun g h _ _ => ?_, Cyclic.table_valid N hN, (Cyclic.C18_cyclic N hN).1⟩, fun k hk => ?_⟩
  · simp [Cyclic.isElement, Cyclic.combine, Int.emod_nonneg _ hN'.ne', Int.emod_lt_of_pos _ hN']
  · have hv := Cyclic.table_valid N hN k hk
    have hsz : (Cyclic.table N).size k = Cyclic.irrepSize N k := rfl
    rw [hsz] at hv ⊢
    have hk' : k ≤ N / 2 := by simpa [Cyclic.table] using hk
    by_cases h0 : k = 0
    · simp only [Cyclic.irrepType, Cyclic.irrepSize, h0, if_true] at hv ⊢
      exact hasType_one fun g hg => ⟨hv.rows g hg, hv.cols g hg⟩
    · by_cases h1 : N % 2 = 0 ∧ k = N / 2
      · simp only [Cyclic.irrepType, Cyclic.irrepSize, h0, h1, if_true, if_false, and_self] at hv ⊢
        rw [if_neg (by rw [← h1.2]; exact h0)] at hv ⊢
        rw [if_neg (by rw [← h1.2]; exact h0)]
        exact hasType_one fun g hg => ⟨hv.rows g hg, hv.cols g hg⟩
      · have e1 : Cyclic.irrepType N k = .C := by rw [Cyclic.irrepType, if_neg h0, if_neg h1]
        have e2 : Cyclic.irrepSize N k = 2 := by rw [Cyclic.irrepSize, if_neg h0, if_neg h1]
        rw [e1, e2]
        refine hasType_rot k (Cyclic.radians N) (fun g _ => ?_) (g := 1) (by simp [Cyclic.isElement]; omega) ?_
        · show Cyclic.irrepMat N k g = _
          rw [Cyclic.irrepMat, if_neg h0, if_neg h1]
        · exact sin_freq h0 (by omega)

theorem sin_quarter {k : ℕ} (h0 : k ≠ 0) : Real.sin (k * (Real.pi / (2 * k))) ≠ 0 ∧ 0 ≤ Real.pi / (2 * k) ∧ Real.pi / (2 * k) < 2 * Real.pi := by
  have hk : (1 : ℝ) ≤ k := by exact_mod_cast Nat.pos_of_ne_zero h0
  have e : (k : ℝ) * (Real.pi / (2 * k)) = Real.pi / 2 := by field_simp
  refine ⟨by rw [e, Real.sin_pi_div_two]; norm_num, by positivity, ?_⟩
  rw [div_lt_iff₀ (by positivity)]
  nlinarith [Real.pi_pos]

/-- The irreps of `SO(2)` have the declared types, and exactly these. -/
theorem SO2.typed : TypedIrreps SO2.IsElement SO2.combine SO2.identity SO2.table SO2.irrepType ∧ ∀ k, HasType SO2.IsElement (SO2.table.mat k) (SO2.irrepType k) (SO2.table.size k) := by
  refine ⟨⟨⟨le_rfl, Real.two_pi_pos⟩, fun g h _ _ => ?_, SO2.table_valid, SO2.C18_so2⟩, fun k => ?_⟩
  · exact ⟨mod2pi_nonneg _, mod2pi_lt _⟩
  · have hv := SO2.table_valid k rfl
    have hsz : SO2.table.size k = SO2.irrepSize k := rfl
    rw [hsz] at hv ⊢
    by_cases h0 : k = 0
    · simp only [SO2.irrepType, SO2.irrepSize, h0, if_true] at hv ⊢
      exact hasType_one fun g hg => ⟨hv.rows g hg, hv.cols g hg⟩
    · rw [SO2.irrepType, SO2.irrepSize, if_neg h0, if_neg h0]
      obtain ⟨a, b, c⟩ := sin_quarter h0
      refine hasType_rot k id (fun g _ => ?_) (g := Real.pi / (2 * k)) ⟨b, c⟩ a
      show SO2.irrepMat k g = _
      rw [SO2.irrepMat, if_neg h0]
      rfl

/-- The irreps of `D_N` are of real type. -/
theorem Dihedral.typed (N : ℕ) (hN : 0 < N) : TypedIrreps (fun e => Dihedral.isElement N e = true) (Dihedral.combine N) Dihedral.identity (Dihedral.table N) (fun _ => .R) ∧
    ∀ k, (Dihedral.table N).ok k = true → HasType (fun e => Dihedral.isElement N e = true) ((Dihedral.table N).mat k) .R ((Dihedral.table N).size k) := by
  refine ⟨⟨by simp [Dihedral.isElement, Dihedral.identity, hN], fun g h _ _ => Dihedral.combine_isElement hN g h, Dihedral.table_valid N hN, Dihedral.C18_dihedral N hN⟩, fun k hk => ?_⟩
  have hv := Dihedral.table_valid N hN k hk
  have hsz : (Dihedral.table N).size k = Dihedral.irrepSize N k.1 k.2 := rfl
  rw [hsz] at hv ⊢
  have ok : Dihedral.irrepOk N k.1 k.2 = true := hk
  simp only [Dihedral.irrepOk, Bool.and_eq_true, decide_eq_true_eq] at ok
  by_cases h1 : Dihedral.irrepSize N k.1 k.2 = 1
  · rw [h1] at hv ⊢
    exact hasType_one fun g hg => ⟨hv.rows g hg, hv.cols g hg⟩
  · by_cases j0 : k.1 = 0
    · exact absurd (by rw [Dihedral.irrepSize, if_pos j0]) h1
    · by_cases k0 : k.2 = 0
      · exact absurd (by rw [Dihedral.irrepSize, if_neg j0, if_pos k0]) h1
      · by_cases kN : N % 2 = 0 ∧ 2 * k.2 = N
        · exact absurd (by rw [Dihedral.irrepSize, if_neg j0, if_neg k0, if_pos kN]) h1
        · have e2 : Dihedral.irrepSize N k.1 k.2 = 2 := by rw [Dihedral.irrepSize, if_neg j0, if_neg k0, if_neg kN]
          have em : ∀ e, (Dihedral.table N).mat k e = psichi (Dihedral.radians N e) e.1 k.2 := fun e => by
            show Dihedral.irrepMat N k.1 k.2 e = _
            rw [Dihedral.irrepMat, if_neg j0, if_neg k0, if_neg kN]
          rw [e2] at hv ⊢
          refine hasType_refl k.2 (fun g hg => ⟨hv.rows g hg, hv.cols g hg⟩) (g := (0, 1)) (f := (1, 0)) (by simp [Dihedral.isElement]; omega) (by simp [Dihedral.isElement, hN]) ((em _).trans (psi_psichi _ _)) ?_ (sin_freq k0 (by omega))
          rw [em]
          simp [Dihedral.radians]

/-- The irreps of `O(2)` are of real type. -/
theorem O2.typed : TypedIrreps O2.IsElement O2.combine O2.identity O2.table (fun _ => .R) ∧ ∀ k, O2.table.ok k = true → HasType O2.IsElement (O2.table.mat k) .R (O2.table.size k) := by
  refine ⟨⟨⟨Or.inl rfl, le_rfl, Real.two_pi_pos⟩, fun g h _ _ => O2.isElement_combine g h, O2.table_valid, O2.C18_o2⟩, fun k hk => ?_⟩
  have hv := O2.table_valid k hk
  have hsz : O2.table.size k = O2.irrepSize k.1 k.2 := rfl
  rw [hsz] at hv ⊢
  by_cases j0 : k.1 = 0
  · have : O2.irrepSize k.1 k.2 = 1 := by rw [O2.irrepSize, if_pos j0]
    rw [this] at hv ⊢
    exact hasType_one fun g hg => ⟨hv.rows g hg, hv.cols g hg⟩
  · by_cases k0 : k.2 = 0
    · have : O2.irrepSize k.1 k.2 = 1 := by rw [O2.irrepSize, if_neg j0, if_pos k0]
      rw [this] at hv ⊢
      exact hasType_one fun g hg => ⟨hv.rows g hg, hv.cols g hg⟩
    · have e2 : O2.irrepSize k.1 k.2 = 2 := by rw [O2.irrepSize, if_neg j0, if_neg k0]
      have em : ∀ e, O2.table.mat k e = psichi e.2 e.1 k.2 := fun e => by
        show O2.irrepMat k.1 k.2 e = _
        rw [O2.irrepMat, if_neg j0, if_neg k0]
      rw [e2] at hv ⊢
      obtain ⟨a, b, c⟩ := sin_quarter k0
      exact hasType_refl k.2 (fun g hg => ⟨hv.rows g hg, hv.cols g hg⟩) (g := (0, Real.pi / (2 * k.2))) (f := (1, 0)) ⟨Or.inl rfl, b, c⟩ ⟨Or.inr rfl, le_rfl, Real.two_pi_pos⟩ ((em _).trans (psi_psichi _ _)) (em _) a

/-- **C61** `SO(2) × SO(2)`: the tensor product of the irreps of frequencies `k, l ≠ 0` splits into two inequivalent irreducible representations of size 2; the change of basis does not depend on the element. -/
theorem C61_so2_so2 (junk : ℕ → ℕ → ℝ) (k l : ℕ) (hk : k ≠ 0) (hl : l ≠ 0) :
    let D := dpTable junk SO2.table SO2.irrepType SO2.table SO2.irrepType
    (∃ S : NpMat ℝ, IsOrtho S ∧ ∀ g, prodEl SO2.IsElement SO2.IsElement g → kron (psi g.1 k) (psi g.2 l) ≈ mul (mul S (blockDiag [D.mat (k, l, 0) g, D.mat (k, l, 1) g])) (transpose S)) ∧
    (∀ i, D.size (k, l, i) = 2 ∧ IrreducibleRep (prodEl SO2.IsElement SO2.IsElement) (D.mat (k, l, i)) 2) ∧ Inequivalent (prodEl SO2.IsElement SO2.IsElement) (D.mat (k, l, 0)) (D.mat (k, l, 1)) 2 2 := by
  have hC : ∀ k : ℕ, k ≠ 0 → SO2.irrepType k = .C := fun k hk => by rw [SO2.irrepType, if_neg hk]
  have hS : ∀ i : ℤ, (dpTable junk SO2.table SO2.irrepType SO2.table SO2.irrepType).size (k, l, i) = 2 := fun i => by
    simp [dpTable, hC k hk, hC l hl, SO2.table, SO2.irrepSize, hk, hl]
  refine ⟨?_, fun i => ⟨hS i, ?_⟩, ?_⟩
  · obtain ⟨-, S, -, h1, h2⟩ := C61_decomposition_partial SO2.typed.1 SO2.typed.1 junk (a := k) (b := l) rfl rfl (by rw [hC k hk]; simp)
    refine ⟨S, h1, fun g hg => ?_⟩
    have := h2 g hg
    rw [hC k hk, hC l hl] at this
    simpa [tensorCopies, SO2.table, SO2.irrepMat, hk, hl] using this
  · have := C61_irreducible SO2.typed.1 SO2.typed.1 junk (a := k) (b := l) rfl rfl i (fun _ => hC k hk) (SO2.typed.2 k) (SO2.typed.2 l)
    rwa [hS] at this
  · have := C61_inequivalent SO2.typed.1 SO2.typed.1 junk (a := k) (b := l) rfl rfl (hC k hk) (hC l hl) (SO2.typed.2 k) (SO2.typed.2 l)
    rwa [hS, hS] at this

/-- The other combinations of types occur too: `O(2) × SO(2)`, with the frequencies `1` and `2`. -/
example : ∃ S : NpMat ℝ, S.rows = 4 ∧ IsOrtho S ∧ ∀ g, prodEl O2.IsElement SO2.IsElement g → kron (O2.table.mat (1, 1) g.1) (SO2.table.mat 2 g.2) ≈
    mul (mul S (blockDiag [(dpTable (fun _ _ => 0) O2.table (fun _ => .R) SO2.table SO2.irrepType).mat ((1, 1), 2, 0) g])) (transpose S) :=
  (C61_decomposition_partial O2.typed.1 SO2.typed.1 (fun _ _ => 0) (a := (1, 1)) (b := 2) rfl rfl (by simp)).2

example : IrreducibleRep (prodEl (fun e => Cyclic.isElement 5 e = true) (fun e => Dihedral.isElement 3 e = true))
    ((dpTable (fun _ _ => 0) (Cyclic.table 5) (Cyclic.irrepType 5) (Dihedral.table 3) (fun _ => .R)).mat (2, (1, 1), 0)) 4 :=
  C61_irreducible (Cyclic.typed 5 (by norm_num)).1 (Dihedral.typed 3 (by norm_num)).1 (fun _ _ => 0) (a := 2) (b := (1, 1)) (by decide) (by decide) 0 (fun h => by cases h) ((Cyclic.typed 5 (by norm_num)).2 2 (by decide))
    ((Dihedral.typed 3 (by norm_num)).2 (1, 1) (by decide))

end Escnn
