import Verif.Lemmas.Restrict
import Verif.Props.C05_CyclicSubgroups
import Verif.Props.C06_DihedralSubgroups
import Verif.Props.C07_O2Subgroups

/-!
# C12 — `_restrict_irrep` of C_N, D_N, SO(2) and O(2)
-/

namespace Escnn

open Real NpMat

/-- Assemble the specification from a block identity. -/
theorem isRestriction_of {G H : Type} {d : ℕ} {ρ : G → NpMat ℝ} {ElH : H → Prop} {parent : H → Except Err G}
    {Q : NpMat ℝ} {blocks : H → List (NpMat ℝ)} (hQ : Q.rows = d) (ho : IsOrtho Q) (X : H → NpMat ℝ)
    (hX : ∀ h, ElH h → blockDiag (blocks h) ≈ X h) (hXr : ∀ h, (X h).rows = d) (hXc : ∀ h, (X h).cols = d)
    (hr : ∀ h g, ElH h → parent h = .ok g → ρ g ≈ conj Q (X h)) : IsRestriction d ρ ElH parent Q blocks := by
  have hc : Q.cols = d := by rw [← hQ]; exact ho.1.symm
  refine ⟨hQ, ho, fun h hh => (hX h hh).1.trans (hXr h), fun h hh => (hX h hh).2.1.trans (hXc h), fun h g hh hp => ?_⟩
  refine (hr h g hh hp).trans ?_
  exact conj_congr (hX h hh).symm (by rw [hc, hXr]) (by rw [hc, hXc])

/-- A one-dimensional irrep whose restriction is a single one-dimensional irrep. -/
theorem isRestriction_one {G H : Type} {ρ : G → NpMat ℝ} {ElH : H → Prop} {parent : H → Except Err G}
    (σ : H → NpMat ℝ) (hr : ∀ h, ElH h → (σ h).rows = 1) (hc : ∀ h, ElH h → (σ h).cols = 1)
    (h : ∀ h g, ElH h → parent h = .ok g → ρ g ≈ σ h) : IsRestriction 1 ρ ElH parent (eye 1) (fun h => [σ h]) := by
  have hb : ∀ h, blockDiag [σ h] ≈ σ h := fun h => blockDiag_single _
  refine ⟨rfl, eye_isOrtho 1, fun x hx => (hb x).1.trans (hr x hx), fun x hx => (hb x).2.1.trans (hc x hx), fun x g hx hp => ?_⟩
  refine (h x g hx hp).trans (Eqv.symm ?_)
  exact (conj_eye _ ((hb x).1.trans (hr x hx)) ((hb x).2.1.trans (hc x hx))).trans (hb x)

theorem mul_isOrtho {A B : NpMat ℝ} (hA : IsOrtho A) (hB : IsOrtho B) (h : A.cols = B.rows) : IsOrtho (mul A B) := by
  have hs : (mul A B).rows = A.rows := rfl
  refine ⟨by simp [hA.1, h, hB.1], ?_, ?_⟩
  · -- A B Bᵀ Aᵀ
    have e1 : mul (mul A B) (transpose (mul A B)) ≈ mul (mul A B) (mul (transpose B) (transpose A)) :=
      mul_congr (Eqv.refl _) (transpose_mul A B h) rfl
    have e2 : mul (mul A B) (mul (transpose B) (transpose A)) ≈ mul A (mul (mul B (transpose B)) (transpose A)) :=
      (mul_assoc' _ _ _).trans (mul_congr (Eqv.refl _) (mul_assoc' _ _ _).symm h)
    have e3 : mul A (mul (mul B (transpose B)) (transpose A)) ≈ mul A (transpose A) := by
      refine mul_congr (Eqv.refl _) ?_ h
      refine (mul_congr hB.2.1 (Eqv.refl _) (by simp [h])).trans ?_
      rw [← h]; exact eye_mul (transpose A)
    exact e1.trans (e2.trans (e3.trans hA.2.1))
  · have e1 : mul (transpose (mul A B)) (mul A B) ≈ mul (mul (transpose B) (transpose A)) (mul A B) :=
      mul_congr (transpose_mul A B h) (Eqv.refl _) rfl
    have e2 : mul (mul (transpose B) (transpose A)) (mul A B) ≈ mul (transpose B) (mul (mul (transpose A) A) B) :=
      (mul_assoc' _ _ _).trans (mul_congr (Eqv.refl _) (mul_assoc' _ _ _).symm (by simp [h]))
    have e3 : mul (transpose B) (mul (mul (transpose A) A) B) ≈ mul (transpose B) B := by
      refine mul_congr (Eqv.refl _) ?_ (by simp [h])
      refine (mul_congr hA.2.2 (Eqv.refl _) (by simp [h])).trans ?_
      have : A.rows = B.rows := hA.1.trans h
      rw [this]; exact eye_mul B
    refine e1.trans (e2.trans (e3.trans ?_))
    have : B.rows = (mul A B).rows := by simp [hA.1, h]
    rw [← this]; exact hB.2.2

theorem psi_cols (a : ℝ) (k : ℕ) : (psi a k).cols = 2 := rfl

namespace Cyclic

theorem radians_parent {N M : ℕ} (hN : 0 < N) (hok : subgroupIdOk N M = true) {h g : ℤ}
    (hp : parentMap N M h = .ok g) : radians N g = radians M h := by
  obtain ⟨hM, hd⟩ : 0 < M ∧ N % M = 0 := by simpa [subgroupIdOk] using hok
  obtain ⟨r, rfl⟩ := Nat.dvd_of_mod_eq_zero hd
  have hr : 0 < r := Nat.pos_of_ne_zero (by rintro rfl; simp at hN)
  have hM' : (0 : ℝ) < M := by exact_mod_cast hM
  have hr' : (0 : ℝ) < r := by exact_mod_cast hr
  simp only [parentMap, mul_div_ratio hM] at hp
  obtain ⟨_, rfl⟩ := element_eq_ok_iff.1 hp
  simp only [radians]; push_cast; field_simp

/-- The restriction formula only needs the value of the irrep as a rotation block (shared by `C_N`, `D_N`, SO(2), O(2)). -/
theorem restrict_rot_two {G : Type} {M k : ℕ} (hM : 0 < M) (ρ : G → NpMat ℝ) (parent : ℤ → Except Err G)
    (hρ : ∀ h g, parent h = .ok g → ρ g ≈ psichi (radians M h) 0 k) :
    IsRestriction 2 ρ (fun h => isElement M h = true) parent (foldBasis M k 2)
      (fun h => ([foldFreq M k] ++ (if irrepSize M (foldFreq M k) < 2 then [foldFreq M k] else [])).map
        fun f => irrepMat M f h) := by
  refine isRestriction_of (foldBasis_two_rows M k).1 (foldBasis_isOrtho _ _ _)
    (fun h => psichi (radians M h) 0 (foldFreq M k))
    (fun h _ => cyc_block M _ hM (foldFreq_le M k hM) h) (fun _ => rfl) (fun _ => rfl) (fun h g _ hp => ?_)
  exact (hρ h g hp).trans (fold_block M k hM h 0)

theorem irrepSize_one_or_two (N k : ℕ) : irrepSize N k = 1 ∨ irrepSize N k = 2 := by
  unfold irrepSize; split_ifs <;> simp

theorem irrepMat_rows (N k : ℕ) (e : ℤ) : (irrepMat N k e).rows = irrepSize N k := by
  unfold irrepMat irrepSize; split_ifs <;> rfl
theorem irrepMat_cols (N k : ℕ) (e : ℤ) : (irrepMat N k e).cols = irrepSize N k := by
  unfold irrepMat irrepSize; split_ifs <;> rfl

/-- A one-dimensional irrep of a group whose frequency is `0` or half of the order `N`, restricted to `C_M`, `M ∣ N`. -/
theorem fold_half {N M k : ℕ} (hd : M ∣ N) (hN : 0 < N) (hk : k = 0 ∨ 2 * k = N) :
    (k % M = 0 ∨ 2 * (k % M) = M) ∧ foldFreq M k = k % M ∧ ∀ s, foldBasis M k s = eye s := by
  obtain ⟨r, rfl⟩ := hd
  have hM : 0 < M := Nat.pos_of_ne_zero (by rintro rfl; simp at hN)
  have key : k % M = 0 ∨ 2 * (k % M) = M := by
    rcases hk with rfl | hk
    · left; simp
    · rcases Nat.even_or_odd' r with ⟨t, rfl | rfl⟩
      · left
        have : k = M * t := by
          have : 2 * k = 2 * (M * t) := by rw [hk]; ring
          omega
        rw [this]; simp
      · right
        have h2 : 2 * k = M * (2 * t) + M := by rw [hk]; ring
        have hev : M % 2 = 0 := by
          have : (M * (2 * t)) % 2 = 0 := by rw [show M * (2 * t) = 2 * (M * t) by ring]; simp
          omega
        have h3 : k = M / 2 + M * t := by
          have : M * (2 * t) = 2 * (M * t) := by ring
          omega
        rw [h3, Nat.add_mul_mod_self_left, Nat.mod_eq_of_lt (by omega)]
        omega
  refine ⟨key, ?_, fun s => ?_⟩
  · unfold foldFreq; rw [if_neg (by rcases key with h | h <;> omega)]
  · unfold foldBasis; rw [if_neg (by rcases key with h | h <;> omega)]

theorem irrepSize_half {M f : ℕ} (h : f = 0 ∨ 2 * f = M) : irrepSize M f = 1 := by
  unfold irrepSize
  by_cases h0 : f = 0
  · simp [h0]
  · have : M % 2 = 0 ∧ f = M / 2 := by omega
    rw [if_neg h0, if_pos this]

theorem irrepMat_half {M f : ℕ} (h : f = 0 ∨ 2 * f = M) (e : ℤ) : irrepMat M f e ≈ of1 (cos (f * radians M e)) := by
  unfold irrepMat
  by_cases h0 : f = 0
  · rw [if_pos h0, h0]; simp only [Nat.cast_zero, zero_mul, Real.cos_zero]; exact of1_eye.symm
  · have : M % 2 = 0 ∧ f = M / 2 := by omega
    rw [if_neg h0, if_pos this]

/-- **C12** `C_N → C_M`: never raises for accepted arguments, returns accepted ids, and the decomposition is correct. -/
theorem C12_cyclic (N k M : ℕ) (hN : 0 < N) (hk : k ≤ N / 2) (hok : subgroupIdOk N M = true) :
    ∃ Q L, restrictIrrep N k M = .ok (Q, L) ∧ (∀ f ∈ L, f ≤ M / 2) ∧
      IsRestriction (irrepSize N k) (irrepMat N k) (fun h => isElement M h = true) (parentMap N M) Q
        (fun h => L.map fun f => irrepMat M f h) := by
  obtain ⟨hM, hd⟩ : 0 < M ∧ N % M = 0 := by simpa [subgroupIdOk] using hok
  refine ⟨_, _, by rw [restrictIrrep, if_pos hk, if_pos hok], ?_, ?_⟩
  · intro f hf
    have : f = foldFreq M k := by
      simp only [List.mem_append, List.mem_singleton] at hf
      rcases hf with hf | hf
      · exact hf
      · split at hf <;> simp at hf; exact hf
    rw [this]; exact foldFreq_le M k hM
  · rcases irrepSize_one_or_two N k with hs | hs
    · have hk' : k = 0 ∨ 2 * k = N := by
        unfold irrepSize at hs; split_ifs at hs <;> omega
      obtain ⟨h1, h2, h3⟩ := fold_half (Nat.dvd_of_mod_eq_zero hd) hN hk'
      have hs' : irrepSize M (foldFreq M k) = 1 := by rw [h2]; exact irrepSize_half h1
      simp only [hs, hs', h3, lt_irrefl, if_false, List.append_nil, List.map_cons, List.map_nil]
      refine isRestriction_one _ (fun h _ => by rw [irrepMat_rows, hs']) (fun h _ => by rw [irrepMat_cols, hs'])
        (fun h g hh hp => ?_)
      refine (irrepMat_half hk' g).trans (Eqv.symm ?_)
      rw [h2]
      refine (irrepMat_half h1 h).trans (of1_congr ?_)
      rw [radians_parent hN hok hp, (fold_cos_sin M k hM h).1, h2]
    · rw [hs]
      refine restrict_rot_two hM _ _ (fun h g hp => ?_)
      have hk' : ¬ k = 0 ∧ ¬ (N % 2 = 0 ∧ k = N / 2) := by
        unfold irrepSize at hs; split_ifs at hs <;> omega
      rw [irrepMat, if_neg hk'.1, if_neg hk'.2, radians_parent hN hok hp, psi_eq_psichi]

example : ∃ Q L, restrictIrrep 12 5 4 = .ok (Q, L) ∧ L = [1] := by
  refine ⟨_, _, by rw [restrictIrrep, if_pos (by norm_num), if_pos (by decide)], by decide⟩
example : ∃ Q L, restrictIrrep 12 3 6 = .ok (Q, L) ∧ L = [3, 3] := by
  refine ⟨_, _, by rw [restrictIrrep, if_pos (by norm_num), if_pos (by decide)], by decide⟩

end Cyclic

namespace SO2

/-- **C12** `SO(2) → C_M`, every frequency and order. -/
theorem C12_so2 (k M : ℕ) (hM : 0 < M) :
    ∃ Q L, restrictIrrep k M = .ok (Q, L) ∧ (∀ f ∈ L, f ≤ M / 2) ∧
      IsRestriction (irrepSize k) (irrepMat k) (fun h => Cyclic.isElement M h = true)
        (fun h => .ok (parentMap M h)) Q (fun h => L.map fun f => Cyclic.irrepMat M f h) := by
  refine ⟨_, _, by rw [restrictIrrep, if_pos hM], ?_, ?_⟩
  · intro f hf
    have : f = Cyclic.foldFreq M k := by
      simp only [List.mem_append, List.mem_singleton] at hf
      rcases hf with hf | hf
      · exact hf
      · split at hf <;> simp at hf; exact hf
    rw [this]; exact Cyclic.foldFreq_le M k hM
  · by_cases h0 : k = 0
    · subst h0
      simp only [irrepSize, if_true, Cyclic.foldFreq, Cyclic.foldBasis, Nat.zero_mod, mul_zero, gt_iff_lt, Nat.not_lt_zero,
        if_false, Cyclic.irrepSize, lt_irrefl, List.append_nil, List.map_cons, List.map_nil]
      exact isRestriction_one _ (fun _ _ => rfl) (fun _ _ => rfl) (fun h g _ _ => by
        simp only [irrepMat, Cyclic.irrepMat, if_true]; rfl)
    · simp only [irrepSize, if_neg h0]
      refine Cyclic.restrict_rot_two hM _ _ (fun h g hp => ?_)
      simp only [Except.ok.injEq] at hp
      rw [← hp, irrepMat, if_neg h0, psi_eq_psichi, parentMap, psichi_mod2pi]
      simp only [Cyclic.radians, mul_assoc]; rfl

end SO2

namespace Dihedral

theorem irrepSize_one_or_two (N j k : ℕ) : irrepSize N j k = 1 ∨ irrepSize N j k = 2 := by
  unfold irrepSize; split_ifs <;> simp

theorem irrepMat_two {N j k : ℕ} (hs : irrepSize N j k = 2) (e : Elem) :
    irrepMat N j k e = psichi (radians N e) e.1 k := by
  unfold irrepSize at hs
  unfold irrepMat
  split_ifs at hs ⊢ <;> first | rfl | omega

/-- The one-dimensional irreps in closed form. -/
theorem irrepMat_one {N j k : ℕ} (hok : irrepOk N j k = true) (hs : irrepSize N j k = 1) (e : Elem) :
    irrepMat N j k e ≈ of1 (cos (k * radians N e) * (if j = 0 then 1 else sgnR e.1)) := by
  simp only [irrepOk, Bool.and_eq_true, Bool.or_eq_true, decide_eq_true_eq] at hok
  obtain ⟨⟨hj, hk⟩, hjk⟩ := hok
  unfold irrepSize at hs
  unfold irrepMat
  by_cases hj0 : j = 0
  · rw [if_pos hj0]
    by_cases hk0 : k = 0
    · rw [if_pos hk0]; refine of1_eye.symm.trans (of1_congr ?_); simp [hk0, hj0]
    · rw [if_neg hk0, if_pos (by omega)]; refine of1_congr ?_; simp [hj0]
  · rw [if_neg hj0]
    by_cases hk0 : k = 0
    · rw [if_pos hk0]; refine of1_congr ?_; simp [hk0, hj0]
    · have h1 : N % 2 = 0 ∧ 2 * k = N := by
        by_contra hc
        rw [if_neg hj0, if_neg hk0, if_neg hc] at hs
        omega
      rw [if_neg hk0, if_pos h1]; refine of1_congr ?_; simp [hj0]

theorem size_one_freq {N j k : ℕ} (hok : irrepOk N j k = true) (hs : irrepSize N j k = 1) : k = 0 ∨ 2 * k = N := by
  simp only [irrepOk, Bool.and_eq_true, Bool.or_eq_true, decide_eq_true_eq] at hok
  unfold irrepSize at hs
  split_ifs at hs <;> omega

theorem size_two_flip {N j k : ℕ} (hok : irrepOk N j k = true) (hs : irrepSize N j k = 2) : j = 1 ∧ 2 * k ≠ N := by
  simp only [irrepOk, Bool.and_eq_true, Bool.or_eq_true, decide_eq_true_eq] at hok
  unfold irrepSize at hs
  split_ifs at hs <;> omega

/-- **C12** `D_N → C_M` (rotations). -/
theorem C12_dihedral_rot (N j k M : ℕ) (hN : 0 < N) (hok : irrepOk N j k = true)
    (hid : subgroupIdOk N (none, M) = true) :
    (∀ f ∈ (restrictRot N j k M).2, f ≤ M / 2) ∧
    IsRestriction (irrepSize N j k) (irrepMat N j k) (fun h => Cyclic.isElement M h = true) (cnToDn N M)
      (restrictRot N j k M).1 (fun h => (restrictRot N j k M).2.map fun f => Cyclic.irrepMat M f h) := by
  obtain ⟨hM, hd⟩ : 1 ≤ M ∧ N % M = 0 := by simpa [subgroupIdOk] using hid
  have hdvd := Nat.dvd_of_mod_eq_zero hd
  have hpar : ∀ h g, cnToDn N M h = .ok g → g.1 = 0 ∧ radians N g = Cyclic.radians M h := by
    intro h g hp
    obtain ⟨r, rfl⟩ := hdvd
    have hr : 0 < r := Nat.pos_of_ne_zero (by rintro rfl; simp at hN)
    have hM' : (0 : ℝ) < M := by exact_mod_cast hM
    have hr' : (0 : ℝ) < r := by exact_mod_cast hr
    rw [cnToDn, Nat.mul_div_cancel_left _ hM, element] at hp
    split at hp
    · simp only [Except.ok.injEq] at hp
      subst hp
      refine ⟨rfl, ?_⟩
      simp only [radians, Cyclic.radians]; push_cast; field_simp
    · simp at hp
  refine ⟨?_, ?_⟩
  · intro f hf
    have : f = Cyclic.foldFreq M k := by
      simp only [restrictRot, List.mem_append, List.mem_singleton] at hf
      rcases hf with hf | hf
      · exact hf
      · split at hf <;> simp at hf; exact hf
    rw [this]; exact Cyclic.foldFreq_le M k hM
  · rcases irrepSize_one_or_two N j k with hs | hs
    · have hk' := size_one_freq hok hs
      obtain ⟨h1, h2, h3⟩ := Cyclic.fold_half hdvd hN hk'
      have hs' : Cyclic.irrepSize M (Cyclic.foldFreq M k) = 1 := by rw [h2]; exact Cyclic.irrepSize_half h1
      simp only [restrictRot, hs, hs', h3, lt_irrefl, if_false, List.append_nil, List.map_cons, List.map_nil]
      refine isRestriction_one _ (fun h _ => by rw [Cyclic.irrepMat_rows, hs'])
        (fun h _ => by rw [Cyclic.irrepMat_cols, hs']) (fun h g hh hp => ?_)
      refine (irrepMat_one hok hs g).trans (Eqv.symm ?_)
      rw [h2]
      refine (Cyclic.irrepMat_half h1 h).trans (of1_congr ?_)
      obtain ⟨hg1, hg2⟩ := hpar h g hp
      rw [hg2, hg1, (Cyclic.fold_cos_sin M k hM h).1, h2]; simp
    · simp only [restrictRot, hs]
      refine Cyclic.restrict_rot_two hM _ _ (fun h g hp => ?_)
      obtain ⟨hg1, hg2⟩ := hpar h g hp
      rw [irrepMat_two hs, hg1, hg2]

theorem cos_half_axis (N k : ℕ) (hN : 0 < N) (h2k : 2 * k = N) (a : ℤ) :
    cos (k * (a * (2 * π) / N)) = if a % 2 = 0 then 1 else -1 := by
  have := Cyclic.cos_half N k hN h2k a
  rw [Cyclic.radians] at this
  rw [this]
  rcases Int.even_or_odd a with h | h
  · rw [Even.neg_one_pow (Int.natAbs_even.2 h), if_pos (Int.even_iff.1 h)]
  · rw [Odd.neg_one_pow (Int.natAbs_odd.2 h), if_neg (by rw [Int.odd_iff.1 h]; norm_num)]

theorem shiftFlip_le {N j k : ℕ} {axis : ℤ} (hj : j ≤ 1) : shiftFlip N j k axis ≤ 1 := by
  unfold shiftFlip; split <;> omega

/-- The sign picked up by the one-dimensional irreps on the shifted axis. -/
theorem shiftFlip_sign {N j k : ℕ} (hN : 0 < N) (hj : j ≤ 1) (hk : k = 0 ∨ 2 * k = N) (axis : ℤ) :
    cos (k * (axis * (2 * π) / N)) * (if j = 0 then 1 else -1) =
      (if shiftFlip N j k axis = 0 then (1 : ℝ) else -1) := by
  unfold shiftFlip
  by_cases h2 : 2 * k = N
  · rw [if_pos h2, cos_half_axis N k hN h2]
    rcases Int.emod_two_eq_zero_or_one axis with h | h <;> rcases (show j = 0 ∨ j = 1 by omega) with rfl | rfl
    · simp [h]
    · have : (((1 : ℕ) : ℤ) + axis) % 2 = 1 := by push_cast; omega
      simp only [this]; simp [h]
    · simp [h]
    · have : (((1 : ℕ) : ℤ) + axis) % 2 = 0 := by push_cast; omega
      simp only [this]; simp [h]
  · have : k = 0 := by tauto
    subst this
    rw [if_neg h2]; simp

/-- **C12** `D_N → C_2` generated by a reflection `(axis, 1)`. -/
theorem C12_dihedral_flip (N j k : ℕ) (axis : ℤ) (hN : 0 < N) (hok : irrepOk N j k = true)
    (_hid : subgroupIdOk N (some axis, 1) = true) :
    (∀ f ∈ (restrictFlip N j k axis).2, f ≤ 2 / 2) ∧
    IsRestriction (irrepSize N j k) (irrepMat N j k) (fun h => Cyclic.isElement 2 h = true) (flipToDn N axis)
      (restrictFlip N j k axis).1 (fun h => (restrictFlip N j k axis).2.map fun f => Cyclic.irrepMat 2 f h) := by
  have hj : j ≤ 1 := by
    simp only [irrepOk, Bool.and_eq_true, decide_eq_true_eq] at hok; exact hok.1.1
  have hel : ∀ e : ℤ, Cyclic.isElement 2 e = true → e = 0 ∨ e = 1 := fun e he => by
    have : 0 ≤ e ∧ e < 2 := by simpa [Cyclic.isElement] using he
    omega
  have hpar : ∀ h g, Cyclic.isElement 2 h = true → flipToDn N axis h = .ok g →
      g.1 = h ∧ radians N g = h * (axis * (2 * π) / N) := by
    intro h g hh hp
    rcases hel h hh with rfl | rfl
    · simp only [flipToDn, if_true, Except.ok.injEq] at hp
      subst hp; simp [identity, radians]
    · simp only [flipToDn, one_ne_zero, if_false, element] at hp
      split at hp
      · simp only [Except.ok.injEq] at hp
        subst hp; simp [radians]
      · simp at hp
  have hirr : ∀ f, f ≤ 1 → ∀ h, Cyclic.isElement 2 h = true →
      Cyclic.irrepMat 2 f h ≈ of1 (if f = 0 then 1 else sgnR h) := by
    intro f hf h hh
    refine (Cyclic.irrepMat_half (by omega) h).trans (of1_congr ?_)
    rcases (show f = 0 ∨ f = 1 by omega) with rfl | rfl <;> rcases hel h hh with rfl | rfl <;>
      simp [Cyclic.radians]
  have hsh := shiftFlip_le (N := N) (k := k) (axis := axis) hj
  rcases irrepSize_one_or_two N j k with hs | hs
  · have hk' := size_one_freq hok hs
    simp only [restrictFlip, hs, gt_iff_lt, lt_irrefl, if_false, List.map_cons, List.map_nil, List.mem_singleton]
    refine ⟨fun f hf => by omega, isRestriction_one _ (fun h hh => (hirr _ hsh h hh).1)
      (fun h hh => (hirr _ hsh h hh).2.1) (fun h g hh hp => ?_)⟩
    refine (irrepMat_one hok hs g).trans (Eqv.trans (of1_congr ?_) (hirr _ hsh h hh).symm)
    obtain ⟨hg1, hg2⟩ := hpar h g hh hp
    rw [hg1, hg2]
    have hsg := shiftFlip_sign hN hj hk' axis
    rcases hel h hh with rfl | rfl
    · simp
    · simpa using hsg
  · obtain ⟨rfl, h2k⟩ := size_two_flip hok hs
    have hsf : shiftFlip N 1 k axis = 1 := by rw [shiftFlip, if_neg h2k]
    simp only [restrictFlip, hs, gt_iff_lt, one_lt_two, if_true, hsf, List.map_cons, List.map_nil]
    refine ⟨fun f hf => by simp at hf; omega, isRestriction_of rfl (psi_isOrtho _ _) (fun h => psichi 0 h k) (fun h hh => ?_)
      (fun _ => rfl) (fun _ => rfl) (fun h g hh hp => ?_)⟩
    · refine (blockDiag_congr (.cons (hirr 0 (by omega) h hh) (.cons (hirr 1 le_rfl h hh) .nil))).trans
        ((blockDiag_two _ _).trans ?_)
      simp only [psichi]
      exact of2_congr (by simp) (by simp) (by simp) (by simp)
    · obtain ⟨hg1, hg2⟩ := hpar h g hh hp
      have := conj_axis 0 (axis * (2 * π) / N) h (hel h hh) k
      rw [zero_add] at this
      rw [irrepMat_two hs, hg1, hg2]
      exact this

/-- **C12** `D_N → D_M`, `(axis, M)` with `M > 1`. -/
theorem C12_dihedral_dih (N j k M : ℕ) (axis : ℤ) (hN : 0 < N) (hok : irrepOk N j k = true)
    (hid : subgroupIdOk N (some axis, M) = true) :
    (∀ i ∈ (restrictDih N j k M axis).2, irrepOk M i.1 i.2 = true) ∧
    IsRestriction (irrepSize N j k) (irrepMat N j k) (fun h => isElement M h = true) (dmToDn N M axis)
      (restrictDih N j k M axis).1 (fun h => (restrictDih N j k M axis).2.map fun i => irrepMat M i.1 i.2 h) := by
  obtain ⟨⟨hM, hd⟩, -⟩ : (1 ≤ M ∧ N % M = 0) ∧ _ := by simpa [subgroupIdOk] using hid
  have hdvd := Nat.dvd_of_mod_eq_zero hd
  have hj : j ≤ 1 := by
    simp only [irrepOk, Bool.and_eq_true, decide_eq_true_eq] at hok; exact hok.1.1
  have hpar : ∀ h g, dmToDn N M axis h = .ok g →
      g.1 = h.1 ∧ radians N g = radians M h + h.1 * (axis * (2 * π) / N) := by
    intro h g hp
    obtain ⟨r, rfl⟩ := hdvd
    have hr : 0 < r := Nat.pos_of_ne_zero (by rintro rfl; simp at hN)
    have hM' : (0 : ℝ) < M := by exact_mod_cast hM
    have hr' : (0 : ℝ) < r := by exact_mod_cast hr
    rw [dmToDn, Nat.mul_div_cancel_left _ hM, element] at hp
    split at hp
    · simp only [Except.ok.injEq] at hp
      subst hp
      refine ⟨rfl, ?_⟩
      simp only [radians]; push_cast; field_simp
    · simp at hp
  have hfold := Cyclic.foldFreq_le M k hM
  rcases irrepSize_one_or_two N j k with hs | hs
  · have hk' := size_one_freq hok hs
    obtain ⟨h1, h2, h3⟩ := Cyclic.fold_half hdvd hN hk'
    have hsh := shiftFlip_le (N := N) (k := k) (axis := axis) hj
    have hs' : irrepSize M (shiftFlip N j k axis) (Cyclic.foldFreq M k) = 1 := by
      rw [h2]; unfold irrepSize
      by_cases h0 : shiftFlip N j k axis = 0
      · rw [if_pos h0]
      · rw [if_neg h0]
        rcases h1 with h1 | h1
        · rw [if_pos h1]
        · rw [if_pos (⟨by omega, h1⟩ : M % 2 = 0 ∧ _), ite_self]
    have hok' : irrepOk M (shiftFlip N j k axis) (Cyclic.foldFreq M k) = true := by
      simp only [irrepOk, Bool.and_eq_true, Bool.or_eq_true, decide_eq_true_eq]
      rw [h2] at hfold ⊢
      refine ⟨⟨hsh, hfold⟩, ?_⟩
      rcases h1 with h1 | h1
      · exact .inl (.inr h1)
      · exact .inr (by omega)
    simp only [restrictDih, hs, hs', h3, lt_irrefl, if_false, show ¬ (1 : ℕ) = 2 by norm_num, List.map_cons, List.map_nil,
      List.mem_singleton]
    refine ⟨fun i hi => hi ▸ hok', isRestriction_one _ (fun h hh => (irrepMat_one hok' hs' h).1)
      (fun h hh => (irrepMat_one hok' hs' h).2.1) (fun h g hh hp => ?_)⟩
    refine (irrepMat_one hok hs g).trans (Eqv.trans (of1_congr ?_) (irrepMat_one hok' hs' h).symm)
    obtain ⟨hg1, hg2⟩ := hpar h g hp
    have hsg := shiftFlip_sign hN hj hk' axis
    have hc := (Cyclic.fold_cos_sin M k hM h.2).1
    have hsin : sin (k * radians M h) = 0 := by
      have := (Cyclic.fold_cos_sin M k hM h.2).2
      rw [radians_eq, this, h2]
      rcases h1 with h1 | h1
      · rw [h1]; simp
      · rw [Cyclic.sin_half M _ hM h1]; simp
    rw [hg1, hg2]
    rcases (isElement_iff.1 hh).1 with hf | hf
    · rw [hf]; simp only [Int.cast_zero, zero_mul, add_zero, sgnR_zero, ite_self, mul_one]
      exact hc
    · rw [hf]; simp only [Int.cast_one, one_mul, sgnR_one]
      rw [mul_add, Real.cos_add, hsin, zero_mul, sub_zero, mul_assoc, hsg, radians_eq, hc]
  · obtain ⟨rfl, h2k⟩ := size_two_flip hok hs
    have hsf : shiftFlip N 1 k axis = 1 := by rw [shiftFlip, if_neg h2k]
    simp only [restrictDih, hs, hsf, if_true]
    refine ⟨?_, ?_⟩
    · intro i hi
      split at hi
      · rename_i hlt
        have hh : Cyclic.foldFreq M k = 0 ∨ 2 * Cyclic.foldFreq M k = M := by
          by_contra hc
          push Not at hc
          rw [irrepSize, if_neg one_ne_zero, if_neg hc.1, if_neg (fun h => hc.2 h.2)] at hlt
          omega
        simp only [List.mem_cons, List.not_mem_nil, or_false] at hi
        simp only [irrepOk, Bool.and_eq_true, Bool.or_eq_true, decide_eq_true_eq]
        rcases hi with rfl | rfl
        · simp only; omega
        · simp only; omega
      · simp only [List.mem_singleton] at hi
        subst hi
        simp [irrepOk, hfold]
    · refine isRestriction_of (Q := mul (psi (halfAxis N axis) k) (Cyclic.foldBasis M k 2)) rfl
        (mul_isOrtho (psi_isOrtho _ _) (Cyclic.foldBasis_isOrtho _ _ _) (Cyclic.foldBasis_two_rows M k).1.symm)
        (fun h => psichi (radians M h) h.1 (Cyclic.foldFreq M k)) (fun h _ => dih_block M _ hM hfold h)
        (fun _ => rfl) (fun _ => rfl) (fun h g hh hp => ?_)
      obtain ⟨hg1, hg2⟩ := hpar h g hp
      have hf := (isElement_iff.1 hh).1
      rw [irrepMat_two hs, hg1, hg2]
      refine (conj_axis _ _ _ hf k).trans ?_
      refine (conj_congr (Q := psi (halfAxis N axis) k) (Cyclic.fold_block M k hM h.2 h.1) (psi_cols _ _) (psi_cols _ _)).trans ?_
      refine (conj_mul (psi (halfAxis N axis) k) (Cyclic.foldBasis M k 2) _ ?_ ?_ ?_).symm
      · exact (Cyclic.foldBasis_two_rows M k).1.symm
      · exact (Cyclic.foldBasis_two_rows M k).2
      · exact (Cyclic.foldBasis_two_rows M k).2.symm

/-- A two-dimensional irrep of `D_12` that splits over `D_4`. -/
example : (restrictDih 12 1 4 4 2).2 = [(0, 0), (1, 0)] := by decide

end Dihedral

namespace O2

theorem irrepMat_two {j k : ℕ} (hs : irrepSize j k = 2) (e : Elem) : irrepMat j k e = psichi e.2 e.1 k := by
  unfold irrepSize at hs
  unfold irrepMat
  split_ifs at hs ⊢ <;> first | rfl | omega

theorem irrepSize_one_or_two (j k : ℕ) : irrepSize j k = 1 ∨ irrepSize j k = 2 := by
  unfold irrepSize; split_ifs <;> simp

theorem size_one_freq {j k : ℕ} (hok : irrepOk j k = true) (hs : irrepSize j k = 1) : k = 0 := by
  simp only [irrepOk, Bool.and_eq_true, Bool.or_eq_true, decide_eq_true_eq] at hok
  unfold irrepSize at hs
  split_ifs at hs <;> omega

theorem size_two {j k : ℕ} (hok : irrepOk j k = true) (hs : irrepSize j k = 2) : j = 1 ∧ k ≠ 0 := by
  simp only [irrepOk, Bool.and_eq_true, Bool.or_eq_true, decide_eq_true_eq] at hok
  unfold irrepSize at hs
  split_ifs at hs <;> omega

theorem irrepMat_one {j : ℕ} (hj : j ≤ 1) (e : Elem) :
    irrepMat j 0 e ≈ of1 (if j = 0 then 1 else sgnR e.1) := by
  unfold irrepMat
  rcases (show j = 0 ∨ j = 1 by omega) with rfl | rfl
  · simp only [if_true]; exact of1_eye.symm
  · simp only [one_ne_zero, if_false, if_true]; exact Eqv.refl _

theorem irrepOk_le {j k : ℕ} (hok : irrepOk j k = true) : j ≤ 1 := by
  simp only [irrepOk, Bool.and_eq_true, decide_eq_true_eq] at hok; exact hok.1

/-- **C12** `O(2) → SO(2)`. -/
theorem C12_o2_so2 (j k : ℕ) (hok : irrepOk j k = true) :
    IsRestriction (irrepSize j k) (irrepMat j k) SO2.IsElement so2ToO2 (restrictSO2 j k).1
      (fun h => (restrictSO2 j k).2.map fun f => SO2.irrepMat f h) := by
  have hpar : ∀ h g, so2ToO2 h = .ok g → g = reduce (0, h) := fun h g hp => (element_eq_ok hp).2
  simp only [restrictSO2, List.map_cons, List.map_nil]
  rcases irrepSize_one_or_two j k with hs | hs
  · have hk := size_one_freq hok hs
    subst hk
    rw [hs]
    refine isRestriction_one _ (fun _ _ => rfl) (fun _ _ => rfl) (fun h g hh hp => ?_)
    rw [hpar h g hp]
    refine (irrepMat_one (irrepOk_le hok) _).trans ?_
    simp only [reduce, sgnR_zero, ite_self, SO2.irrepMat, if_true]
    exact of1_eye
  · obtain ⟨rfl, hk⟩ := size_two hok hs
    rw [hs]
    have hm : ∀ h, SO2.irrepMat k h = psichi h 0 k := fun h => by rw [SO2.irrepMat, if_neg hk, psi_eq_psichi]
    refine isRestriction_of rfl (eye_isOrtho 2) (fun h => psichi h 0 k) (fun h _ => ?_) (fun _ => rfl) (fun _ => rfl)
      (fun h g _ hp => ?_)
    · rw [hm]; exact blockDiag_single _
    · rw [hpar h g hp, irrepMat_two hs]
      simp only [reduce, psichi_mod2pi]
      exact (conj_eye _ rfl rfl).symm

/-- **C12** `O(2) → C_M` (rotations). -/
theorem C12_o2_rot (j k M : ℕ) (hM : 0 < M) (hok : irrepOk j k = true) :
    (∀ f ∈ (restrictRot j k M).2, f ≤ M / 2) ∧
    IsRestriction (irrepSize j k) (irrepMat j k) (fun h => Cyclic.isElement M h = true)
      (fun h => so2ToO2 (Cyclic.radians M h)) (restrictRot j k M).1
      (fun h => (restrictRot j k M).2.map fun f => Cyclic.irrepMat M f h) := by
  have hpar : ∀ h g, so2ToO2 (Cyclic.radians M h) = .ok g → g = reduce (0, Cyclic.radians M h) :=
    fun h g hp => (element_eq_ok hp).2
  refine ⟨?_, ?_⟩
  · intro f hf
    have : f = Cyclic.foldFreq M k := by
      simp only [restrictRot, List.mem_append, List.mem_singleton] at hf
      rcases hf with hf | hf
      · split at hf <;> simp at hf; exact hf
      · exact hf
    rw [this]; exact Cyclic.foldFreq_le M k hM
  · rcases irrepSize_one_or_two j k with hs | hs
    · have hk := size_one_freq hok hs
      subst hk
      simp only [restrictRot, hs, Cyclic.foldFreq, Cyclic.foldBasis, Nat.zero_mod, mul_zero, gt_iff_lt, Nat.not_lt_zero,
        if_false, Cyclic.irrepSize, if_true, lt_irrefl, List.nil_append, List.map_cons, List.map_nil]
      refine isRestriction_one _ (fun _ _ => rfl) (fun _ _ => rfl) (fun h g _ hp => ?_)
      rw [hpar h g hp]
      refine (irrepMat_one (irrepOk_le hok) _).trans ?_
      simp only [reduce, sgnR_zero, ite_self, Cyclic.irrepMat, if_true]
      exact of1_eye
    · obtain ⟨rfl, hk⟩ := size_two hok hs
      have key := Cyclic.restrict_rot_two (k := k) hM (irrepMat 1 k) (fun h => so2ToO2 (Cyclic.radians M h))
        (fun h g hp => by
          rw [hpar h g hp, irrepMat_two hs]
          simp only [reduce, psichi_mod2pi]; rfl)
      have hl : (restrictRot 1 k M).2 = [Cyclic.foldFreq M k] ++
          (if Cyclic.irrepSize M (Cyclic.foldFreq M k) < 2 then [Cyclic.foldFreq M k] else []) := by
        simp only [restrictRot, hs]; split <;> rfl
      rw [hl, hs]
      simp only [restrictRot, hs]
      exact key

/-- **C12** `O(2) → C_2` generated by a reflection. -/
theorem C12_o2_flip (j k : ℕ) (axis : ℝ) (hok : irrepOk j k = true) :
    (∀ f ∈ (restrictFlip j k axis).2, f ≤ 2 / 2) ∧
    IsRestriction (irrepSize j k) (irrepMat j k) (fun h => Cyclic.isElement 2 h = true) (flipToO2 axis)
      (restrictFlip j k axis).1 (fun h => (restrictFlip j k axis).2.map fun f => Cyclic.irrepMat 2 f h) := by
  have hj := irrepOk_le hok
  have hel : ∀ e : ℤ, Cyclic.isElement 2 e = true → e = 0 ∨ e = 1 := fun e he => by
    have : 0 ≤ e ∧ e < 2 := by simpa [Cyclic.isElement] using he
    omega
  have hpar : ∀ h g, Cyclic.isElement 2 h = true → flipToO2 axis h = .ok g → g = reduce (h, h * axis) := by
    intro h g hh hp
    rcases hel h hh with rfl | rfl
    · simp only [flipToO2, if_true, Except.ok.injEq] at hp
      subst hp; simp [identity, reduce]
    · simp only [flipToO2, one_ne_zero, if_false] at hp
      rw [(element_eq_ok hp).2]; simp
  have hirr : ∀ f, f ≤ 1 → ∀ h, Cyclic.isElement 2 h = true →
      Cyclic.irrepMat 2 f h ≈ of1 (if f = 0 then 1 else sgnR h) := by
    intro f hf h hh
    refine (Cyclic.irrepMat_half (by omega) h).trans (of1_congr ?_)
    rcases (show f = 0 ∨ f = 1 by omega) with rfl | rfl <;> rcases hel h hh with rfl | rfl <;>
      simp [Cyclic.radians]
  rcases irrepSize_one_or_two j k with hs | hs
  · have hk := size_one_freq hok hs
    subst hk
    simp only [restrictFlip, hs, gt_iff_lt, lt_irrefl, if_false, List.map_cons, List.map_nil, List.mem_singleton]
    refine ⟨fun f hf => by omega, isRestriction_one _ (fun h hh => (hirr _ hj h hh).1)
      (fun h hh => (hirr _ hj h hh).2.1) (fun h g hh hp => ?_)⟩
    rw [hpar h g hh hp]
    exact (irrepMat_one hj _).trans (hirr j hj h hh).symm
  · obtain ⟨rfl, hk⟩ := size_two hok hs
    simp only [restrictFlip, hs, gt_iff_lt, one_lt_two, if_true, List.map_cons, List.map_nil]
    refine ⟨fun f hf => by simp at hf; omega, isRestriction_of rfl (psi_isOrtho _ _) (fun h => psichi 0 h k) (fun h hh => ?_)
      (fun _ => rfl) (fun _ => rfl) (fun h g hh hp => ?_)⟩
    · refine (blockDiag_congr (.cons (hirr 0 (by omega) h hh) (.cons (hirr 1 le_rfl h hh) .nil))).trans
        ((blockDiag_two _ _).trans ?_)
      simp only [psichi]
      exact of2_congr (by simp) (by simp) (by simp) (by simp)
    · have := conj_axis 0 axis h (hel h hh) k
      rw [zero_add] at this
      rw [hpar h g hh hp, irrepMat_two hs]
      simp only [reduce, psichi_mod2pi]
      exact this

/-- **C12** `O(2) → O(2)` with another reference axis. -/
theorem C12_o2_self (j k : ℕ) (axis : ℝ) (hok : irrepOk j k = true) :
    IsRestriction (irrepSize j k) (irrepMat j k) IsElement (fun e => .ok (selfParent axis e)) (restrictSelf j k axis).1
      (fun h => (restrictSelf j k axis).2.map fun i => irrepMat i.1 i.2 h) := by
  have hpar : ∀ h, IsElement h → selfParent axis h = reduce (h.1, h.2 + h.1 * axis) := by
    intro h hh
    have := selfParent_reduce axis h.1 hh.1 h.2
    rwa [show (h.1, h.2) = h from rfl, reduce_of_isElement hh] at this
  simp only [restrictSelf, List.map_cons, List.map_nil]
  rcases irrepSize_one_or_two j k with hs | hs
  · have hk := size_one_freq hok hs
    subst hk
    have hj := irrepOk_le hok
    rw [hs, if_neg (by norm_num)]
    refine isRestriction_one _ (fun h _ => (irrepMat_one hj h).1) (fun h _ => (irrepMat_one hj h).2.1)
      (fun h g hh hp => ?_)
    simp only [Except.ok.injEq] at hp
    rw [← hp, hpar h hh]
    exact (irrepMat_one hj _).trans (irrepMat_one hj h).symm
  · rw [hs, if_pos rfl]
    refine isRestriction_of (Q := mul (psi (axis / 2) k) (eye 2)) rfl (mul_isOrtho (psi_isOrtho _ _) (eye_isOrtho 2) rfl)
      (fun h => psichi h.2 h.1 k) (fun h _ => ?_) (fun _ => rfl) (fun _ => rfl) (fun h g hh hp => ?_)
    · rw [irrepMat_two hs]; exact blockDiag_single _
    · simp only [Except.ok.injEq] at hp
      rw [← hp, hpar h hh, irrepMat_two hs]
      simp only [reduce, psichi_mod2pi]
      refine (conj_axis _ _ _ hh.1 k).trans ?_
      refine (conj_congr (Q := psi (axis / 2) k) (conj_eye (n := 2) (psichi h.2 h.1 k) rfl rfl).symm (psi_cols _ _) (psi_cols _ _)).trans ?_
      exact (conj_mul (psi (axis / 2) k) (eye 2) (psichi h.2 h.1 k) (psi_cols _ _) rfl rfl).symm

/-- **C12** `O(2) → D_M`, `(axis, M)` with `M > 1`. -/
theorem C12_o2_dih (j k M : ℕ) (axis : ℝ) (hM : 0 < M) (hok : irrepOk j k = true) :
    (∀ i ∈ (restrictDih j k M axis).2, Dihedral.irrepOk M i.1 i.2 = true) ∧
    IsRestriction (irrepSize j k) (irrepMat j k) (fun h => Dihedral.isElement M h = true) (dnToO2 M axis)
      (restrictDih j k M axis).1 (fun h => (restrictDih j k M axis).2.map fun i => Dihedral.irrepMat M i.1 i.2 h) := by
  have hpar : ∀ h g, dnToO2 M axis h = .ok g → g = reduce (h.1, Dihedral.radians M h + h.1 * axis) := by
    intro h g hp
    rw [(element_eq_ok hp).2]; simp only [Dihedral.radians, mul_assoc]
  have hfold := Cyclic.foldFreq_le M k hM
  rcases irrepSize_one_or_two j k with hs | hs
  · have hk := size_one_freq hok hs
    subst hk
    have hj := irrepOk_le hok
    have hs' : Dihedral.irrepSize M j 0 = 1 := by unfold Dihedral.irrepSize; simp
    have hok' : Dihedral.irrepOk M j 0 = true := by simp [Dihedral.irrepOk, hj]
    simp only [restrictDih, hs, Cyclic.foldFreq, Cyclic.foldBasis, Nat.zero_mod, mul_zero, gt_iff_lt, Nat.not_lt_zero,
        if_false, hs', lt_irrefl, List.nil_append, List.map_cons, List.map_nil, show ¬ (1 : ℕ) = 2 by norm_num,
        List.mem_singleton]
    refine ⟨fun i hi => hi ▸ hok', isRestriction_one _ (fun h _ => (Dihedral.irrepMat_one hok' hs' h).1)
      (fun h _ => (Dihedral.irrepMat_one hok' hs' h).2.1) (fun h g _ hp => ?_)⟩
    rw [hpar h g hp]
    refine (irrepMat_one hj _).trans (Eqv.symm ((Dihedral.irrepMat_one hok' hs' h).trans (of1_congr ?_)))
    simp [reduce]
  · obtain ⟨rfl, hk⟩ := size_two hok hs
    have hl : (restrictDih 1 k M axis).2 = if Dihedral.irrepSize M 1 (Cyclic.foldFreq M k) < 2 then
        [(0, Cyclic.foldFreq M k), (1, Cyclic.foldFreq M k)] else [(1, Cyclic.foldFreq M k)] := by
      simp only [restrictDih, hs]; split <;> rfl
    rw [hl]
    refine ⟨?_, ?_⟩
    · intro i hi
      split at hi
      · rename_i hlt
        have hh : Cyclic.foldFreq M k = 0 ∨ 2 * Cyclic.foldFreq M k = M := by
          by_contra hc
          push Not at hc
          rw [Dihedral.irrepSize, if_neg one_ne_zero, if_neg hc.1, if_neg (fun h => hc.2 h.2)] at hlt
          omega
        simp only [List.mem_cons, List.not_mem_nil, or_false] at hi
        simp only [Dihedral.irrepOk, Bool.and_eq_true, Bool.or_eq_true, decide_eq_true_eq]
        rcases hi with rfl | rfl
        · simp only; omega
        · simp only; omega
      · simp only [List.mem_singleton] at hi
        subst hi
        simp [Dihedral.irrepOk, hfold]
    · simp only [restrictDih, hs, if_true]
      refine isRestriction_of (Q := mul (psi (axis / 2) k) (Cyclic.foldBasis M k 2)) rfl
        (mul_isOrtho (psi_isOrtho _ _) (Cyclic.foldBasis_isOrtho _ _ _) (Cyclic.foldBasis_two_rows M k).1.symm)
        (fun h => psichi (Dihedral.radians M h) h.1 (Cyclic.foldFreq M k)) (fun h _ => Dihedral.dih_block M _ hM hfold h)
        (fun _ => rfl) (fun _ => rfl) (fun h g hh hp => ?_)
      have hf := (Dihedral.isElement_iff.1 hh).1
      rw [hpar h g hp, irrepMat_two hs]
      simp only [reduce, psichi_mod2pi]
      refine (conj_axis _ _ _ hf k).trans ?_
      refine (conj_congr (Q := psi (axis / 2) k) (Cyclic.fold_block M k hM h.2 h.1) (psi_cols _ _) (psi_cols _ _)).trans ?_
      refine (conj_mul (psi (axis / 2) k) (Cyclic.foldBasis M k 2) _ ?_ ?_ ?_).symm
      · exact (Cyclic.foldBasis_two_rows M k).1.symm
      · exact (Cyclic.foldBasis_two_rows M k).2
      · exact (Cyclic.foldBasis_two_rows M k).2.symm

example (axis : ℝ) : (restrictDih 1 6 4 axis).2 = [(0, 2), (1, 2)] := by
  simp [restrictDih, Cyclic.foldFreq, Dihedral.irrepSize, irrepSize]

end O2

end Escnn
