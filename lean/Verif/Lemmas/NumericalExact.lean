import Verif.Lemmas.Numerical
import Mathlib.LinearAlgebra.Dimension.Free
import Mathlib.LinearAlgebra.Matrix.ToLin

/-!
# Exact numerical routines, and what the change of basis is with them
-/

namespace Escnn

open NpMat

/-- The numerical routines are exact: `null` spans the kernel, `orth` keeps the span, and the optimiser finds an orthogonal matrix in the span if there is one. -/
structure NumExact (N : Numerics) : Prop where
  null_rows : ∀ C, (N.null C).rows = C.cols
  null : ∀ C v, InKer C v ↔ InSpan (N.null C) v
  orth_rows : ∀ B, (N.orth B).rows = B.rows
  orth : ∀ B v, InSpan (N.orth B) v ↔ InSpan B v
  minimize : ∀ (B : NpMat ℝ) (n : ℕ), B.rows = n * n → (∃ v, InSpan B v ∧ IsOrtho (unflatF n n v)) →
    IsOrtho (unflatF n n fun a => ∑ k ∈ Finset.range B.cols, B.get a k * N.minimize B n n k)

theorem InKer.congr {C : NpMat ℝ} {v w : ℕ → ℝ} (h : ∀ c < C.cols, v c = w c) (hv : InKer C v) : InKer C w := fun i hi => by
  rw [← hv i hi]
  exact Finset.sum_congr rfl fun c hc => by rw [h c (Finset.mem_range.1 hc)]

/-- There are exact routines. -/
theorem NumExact.exists : ∃ N, NumExact N := by
  classical
  have hker : ∀ C : NpMat ℝ, ∃ B : NpMat ℝ, B.rows = C.cols ∧ ∀ v, InKer C v ↔ InSpan B v := by
    intro C
    let M : Matrix (Fin C.rows) (Fin C.cols) ℝ := fun i j => C.get i j
    let K := LinearMap.ker M.mulVecLin
    let b := Module.finBasis ℝ K
    let n := Module.finrank ℝ K
    let B : NpMat ℝ := ⟨C.cols, n, fun a k => if hk : k < n then (if ha : a < C.cols then (b ⟨k, hk⟩ : Fin C.cols → ℝ) ⟨a, ha⟩ else 0) else 0⟩
    have hM : ∀ v : ℕ → ℝ, InKer C v ↔ (fun j : Fin C.cols => v j) ∈ K := by
      intro v
      rw [LinearMap.mem_ker, Matrix.mulVecLin_apply]
      constructor
      · intro h
        funext i
        simpa [Matrix.mulVec, dotProduct, M, Fin.sum_univ_eq_sum_range (fun c => C.get i c * v c)] using h i i.2
      · intro h i hi
        have := congrFun h ⟨i, hi⟩
        simpa [Matrix.mulVec, dotProduct, M, Fin.sum_univ_eq_sum_range (fun c => C.get i c * v c)] using this
    refine ⟨B, rfl, fun v => ?_⟩
    rw [hM]
    have hcomb : ∀ (x : ℕ → ℝ) (a : ℕ) (ha : a < C.cols), ∑ k ∈ Finset.range n, B.get a k * x k = ((∑ k : Fin n, x k • b k : K) : Fin C.cols → ℝ) ⟨a, ha⟩ := by
      intro x a ha
      rw [Submodule.coe_sum, Finset.sum_apply, ← Fin.sum_univ_eq_sum_range (fun k => B.get a k * x k)]
      refine Finset.sum_congr rfl fun k _ => ?_
      simp only [B, dif_pos k.2, dif_pos ha, Submodule.coe_smul, Pi.smul_apply, smul_eq_mul]
      rw [mul_comm]
    constructor
    · intro hv
      refine ⟨fun k => if hk : k < n then b.repr ⟨_, hv⟩ ⟨k, hk⟩ else 0, fun a ha => ?_⟩
      show v a = ∑ k ∈ Finset.range n, _
      rw [hcomb _ a ha]
      have := congrArg (fun z : K => (z : Fin C.cols → ℝ) ⟨a, ha⟩) (b.sum_repr ⟨_, hv⟩)
      simp only at this
      rw [← this]
      refine congrArg (fun z : K => (z : Fin C.cols → ℝ) ⟨a, ha⟩) (Finset.sum_congr rfl fun k _ => ?_)
      rw [dif_pos k.2]
    · rintro ⟨x, hx⟩
      have : (fun j : Fin C.cols => v j) = ((∑ k : Fin n, x k • b k : K) : Fin C.cols → ℝ) := by
        funext j
        rw [← hcomb x j j.2]
        exact hx j j.2
      rw [this]
      exact (∑ k : Fin n, x k • b k : K).2
  choose null hn1 hn2 using hker
  have hmin : ∀ (B : NpMat ℝ) (r c : ℕ), ∃ x : ℕ → ℝ, r = c → (∃ v, InSpan B v ∧ B.rows = r * c ∧ IsOrtho (unflatF r c v)) →
      IsOrtho (unflatF r c fun a => ∑ k ∈ Finset.range B.cols, B.get a k * x k) := by
    intro B r c
    by_cases h : ∃ v, InSpan B v ∧ B.rows = r * c ∧ IsOrtho (unflatF r c v)
    · obtain ⟨v, ⟨x, hx⟩, hr, hv⟩ := h
      refine ⟨x, fun hrc _ => hv.of_eqv ⟨rfl, rfl, fun i j hi hj => hx _ ?_⟩⟩
      rw [hr]
      have hi : i < r := hi
      have hj : j < c := hj
      calc j * r + i < (j + 1) * r := by rw [Nat.add_mul]; omega
        _ ≤ c * r := Nat.mul_le_mul_right _ hj
        _ = r * c := Nat.mul_comm _ _
    · exact ⟨fun _ => 0, fun _ h' => absurd h' h⟩
  choose m hm using hmin
  refine ⟨⟨null, id, m⟩, hn1, hn2, fun _ => rfl, fun _ _ => Iff.rfl, fun B n hB ⟨v, hv, ho⟩ => ?_⟩
  exact hm B n n rfl ⟨v, hv, hB, ho⟩

/-- With exact routines the basis spans the intertwiners, if there is an invertible one of the same size. -/
theorem findIntertwiner_exact {N : Numerics} (hN : NumExact N) {rho₁ rho₂ : List (NpMat ℝ)} {d : ℕ} (h₁ : ∀ A ∈ rho₁, A.rows = d ∧ A.cols = d)
    (h₂ : ∀ B ∈ rho₂, B.rows = d ∧ B.cols = d) (hl : rho₁.length = rho₂.length) (h0 : rho₁ ≠ []) {D : NpMat ℝ} (hD : IsOrtho D) (hDr : D.rows = d)
    (hDi : ∀ p ∈ rho₁.zip rho₂, mul p.1 D ≈ mul D p.2) :
    ∃ B, findIntertwiner N rho₁ rho₂ = .ok B ∧ B.rows = d * d ∧ ∀ v, InSpan B v ↔ ∀ p ∈ rho₁.zip rho₂, mul p.1 (unflatF d d v) ≈ mul (unflatF d d v) p.2 := by
  obtain ⟨C, hC, hcols, hker⟩ := buildSylvester_spec h₁ h₂ hl h0
  rw [findIntertwiner, hC]
  simp only [bind, Except.bind]
  by_cases h1 : C.cols = 1
  · rw [if_pos h1]
    have hd1 : d = 1 := by
      rw [hcols] at h1
      exact Nat.eq_one_of_mul_eq_one_left h1
    subst hd1
    have hDv : InKer C fun a => D.get (a % 1) (a / 1) := by
      rw [hker]
      intro p hp
      have hDe : D ≈ unflatF 1 1 fun a => D.get (a % 1) (a / 1) := ⟨hDr, by rw [← hD.1, hDr]; rfl, fun i j hi hj => by
        rw [hDr] at hi
        rw [← hD.1, hDr] at hj
        have : i = 0 := by omega
        have : j = 0 := by omega
        subst_vars
        rfl⟩
      have hp1 := h₁ _ (List.of_mem_zip hp).1
      have hp2 := h₂ _ (List.of_mem_zip hp).2
      exact ((mul_congr_right p.1 hDe (by rw [hp1.2, hDr])).symm.trans (hDi p hp)).trans (mul_congr_left p.2 hDe (by rw [← hD.1, hDr, hp2.1]))
    have hD0 : D.get 0 0 ≠ 0 := by
      intro h0
      have := hD.2.1.2.2 0 0 (by simp [hDr]) (by simp [transpose, hDr])
      simp [mul, ← hD.1, hDr, transpose, eye, h0] at this
    have hz : C ≈ zeros C.rows C.cols := by
      refine ⟨rfl, rfl, fun i j hi hj => ?_⟩
      have := hDv i hi
      rw [h1] at hj this
      have hj0 : j = 0 := by omega
      subst hj0
      show C.get i 0 = 0
      simpa [hD0] using this
    rw [if_pos hz]
    refine ⟨_, rfl, rfl, fun v => ?_⟩
    rw [← hker v]
    constructor
    · intro _ i hi
      refine Finset.sum_eq_zero fun c hc => ?_
      rw [hz.2.2 i c hi (Finset.mem_range.1 hc)]
      simp [zeros]
    · intro _
      exact ⟨fun _ => v 0, fun a ha => by
        have : a = 0 := by have : a < 1 := ha; omega
        subst this
        simp⟩
  · rw [if_neg h1, if_pos]
    · refine ⟨_, rfl, by rw [hN.null_rows, hcols], fun v => ?_⟩
      rw [← hN.null, hker]
    · refine ⟨rfl, rfl, fun i k hi hk => ?_⟩
      have hk : k < (N.null C).cols := hk
      have hs : InSpan (N.null C) fun a => (N.null C).get a k := ⟨fun x => if x = k then 1 else 0, fun a _ => by
        simp [hk]⟩
      exact (hN.null C _).2 hs i hi

theorem eye_flip (n : ℕ) : ∀ i < n, ∀ j < n, (fliplr (eye n : NpMat ℝ)).get i j = (fliplr (eye n : NpMat ℝ)).get j i := by
  intro i hi j hj
  simp only [fliplr, eye]
  congr 1
  apply propext
  omega

theorem fliplr_ortho (n : ℕ) : IsOrtho (fliplr (eye n : NpMat ℝ)) := by
  have key : ∀ i j, i < n → j < n → ∑ k ∈ Finset.range n, (fliplr (eye n : NpMat ℝ)).get i k * (fliplr (eye n : NpMat ℝ)).get j k = if i = j then 1 else 0 := by
    intro i j hi hj
    rw [Finset.sum_eq_single (n - 1 - i)]
    · simp only [fliplr, eye]
      split_ifs <;> first | (exfalso; omega) | simp
    · intro k hkr hk
      rw [Finset.mem_range] at hkr
      simp only [fliplr, eye]
      split_ifs at hk ⊢ <;> first | (exfalso; omega) | simp
    · intro h
      exfalso
      apply h
      rw [Finset.mem_range]
      omega
  refine ⟨rfl, ⟨rfl, rfl, fun i j hi hj => key i j hi hj⟩, ⟨rfl, rfl, fun i j hi hj => ?_⟩⟩
  have hi : i < n := hi
  have hj : j < n := hj
  have e : ∑ k ∈ Finset.range n, (fliplr (eye n : NpMat ℝ)).get k i * (fliplr (eye n : NpMat ℝ)).get k j =
      ∑ k ∈ Finset.range n, (fliplr (eye n : NpMat ℝ)).get i k * (fliplr (eye n : NpMat ℝ)).get j k :=
    Finset.sum_congr rfl fun k hk => by
      have hk := Finset.mem_range.1 hk
      rw [eye_flip n k hk i hi, eye_flip n k hk j hj]
  exact e.trans (key i j hi hj)

/-- A symmetric square array in the span, flattened by rows, is in the span flattened by columns. -/
theorem flat_symm {B S : NpMat ℝ} {n : ℕ} (hr : S.rows = n) (hc : S.cols = n) (hs : ∀ i < n, ∀ j < n, S.get i j = S.get j i) (hB : B.rows = n * n) (h : flatC S ≈ mul B (mul (transpose B) (flatC S))) :
    InSpan B (fun a => (flatC S).get a 0) ∧ unflatC n n (flatC S) ≈ S ∧ unflatF n n (fun a => (flatC S).get a 0) ≈ S := by
  refine ⟨⟨fun k => (mul (transpose B) (flatC S)).get k 0, fun a ha => ?_⟩, ⟨hr.symm, hc.symm, fun i j hi hj => ?_⟩, ⟨hr.symm, hc.symm, fun i j hi hj => ?_⟩⟩
  · exact h.2.2 a 0 (by simp only [flatC, hr, hc]; rwa [hB] at ha) one_pos
  · have hi : i < n := hi
    have hj : j < n := hj
    have hn : 0 < n := by omega
    show S.get ((i * n + j) / S.cols) ((i * n + j) % S.cols) = S.get i j
    rw [hc, Nat.mul_comm, Nat.mul_add_div hn, Nat.div_eq_of_lt hj, add_zero, Nat.mul_add_mod, Nat.mod_eq_of_lt hj]
  · have hi : i < n := hi
    have hj : j < n := hj
    have hn : 0 < n := by omega
    show S.get ((j * n + i) / S.cols) ((j * n + i) % S.cols) = S.get i j
    rw [hc, Nat.mul_comm, Nat.mul_add_div hn, Nat.div_eq_of_lt hi, add_zero, Nat.mul_add_mod, Nat.mod_eq_of_lt hi]
    exact hs j hj i hi

/-- With exact routines an orthogonal matrix in the span is found. -/
theorem findOrthogonal_exact {N : Numerics} (hN : NumExact N) {B : NpMat ℝ} {n : ℕ} (hB : B.rows = n * n) (h : ∃ v, InSpan B v ∧ IsOrtho (unflatF n n v)) :
    ∃ D, findOrthogonal N B n n = .ok D ∧ IsOrtho D ∧ D.rows = n ∧ ∃ v, InSpan B v ∧ D ≈ unflatF n n v := by
  unfold findOrthogonal
  rw [if_neg (not_not.2 hB)]
  dsimp only
  split_ifs with h1 h2
  · obtain ⟨s1, s2, s3⟩ := flat_symm rfl rfl (fun i _ j _ => by simp [eye, eq_comm]) hB h1.2
    exact ⟨_, rfl, (eye_isOrtho n).of_eqv s2.symm, rfl, _, s1, s2.trans s3.symm⟩
  · obtain ⟨s1, s2, s3⟩ := flat_symm (S := fliplr (eye n)) rfl rfl (eye_flip n) hB h2.2
    exact ⟨_, rfl, (fliplr_ortho n).of_eqv s2.symm, rfl, _, s1, s2.trans s3.symm⟩
  · exact ⟨_, rfl, hN.minimize B n hB h, rfl, _, ⟨_, fun a _ => rfl⟩, Eqv.refl _⟩

theorem checkCob_iff {D Dinv : NpMat ℝ} : ∀ {L : List (NpMat ℝ × NpMat ℝ)}, checkCob D Dinv L = .ok () ↔ ∀ p ∈ L, (D.cols = p.2.rows ∧ p.2.cols = Dinv.rows) ∧ p.1 ≈ mul (mul D p.2) Dinv
  | [] => by simp [checkCob]
  | (r, P) :: L => by
    rw [checkCob, List.forall_mem_cons, ← checkCob_iff (L := L)]
    by_cases h : D.cols ≠ P.rows ∨ P.cols ≠ Dinv.rows
    · rw [if_pos h]
      constructor
      · intro e; cases e
      · rintro ⟨⟨⟨h1, h2⟩, _⟩, _⟩
        rcases h with h | h
        · exact absurd h1 h
        · exact absurd h2 h
    · rw [if_neg h]
      have h' : D.cols = P.rows ∧ P.cols = Dinv.rows := by
        rw [not_or, not_not, not_not] at h; exact h
      split_ifs with e
      · exact ⟨fun k => ⟨⟨h', e⟩, k⟩, fun k => k.2⟩
      · constructor
        · intro k; cases k
        · intro k; exact absurd k.1.2 e

end Escnn
