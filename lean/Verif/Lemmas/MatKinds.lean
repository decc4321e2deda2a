import Verif.Spec.MatKinds
import Verif.Props.C17_Induced

/-!
# Lemmas about permutation matrices and orthogonal matrices
-/

namespace Escnn

theorem sum_range_fin {n : ℕ} (f : ℕ → ℝ) : ∑ j ∈ Finset.range n, f j = ∑ j : Fin n, f j := Finset.sum_range f

/-- A permutation matrix permutes the entries of a vector. -/
theorem IsPermMat.perm {n : ℕ} {M : NpMat ℝ} (h : IsPermMat n M) :
    ∃ σ : Equiv.Perm (Fin n), ∀ (v : ℕ → ℝ) (i : Fin n), ∑ j ∈ Finset.range n, M.get i j * v j = v (σ i) := by
  obtain ⟨-, -, σ, h⟩ := h
  refine ⟨σ.symm, fun v i => ?_⟩
  rw [sum_range_fin, Finset.sum_eq_single (σ.symm i)]
  · rw [h, if_pos (by simp), one_mul]
  · intro j _ hj
    rw [h, if_neg (fun e => hj (by rw [e]; simp)), zero_mul]
  · simp

theorem IsSignedPermMat.perm {n : ℕ} {M : NpMat ℝ} (h : IsSignedPermMat n M) :
    ∃ (σ : Equiv.Perm (Fin n)) (s : Fin n → ℝ), (∀ i, s i = 1 ∨ s i = -1) ∧ (∀ i j : Fin n, M.get i j = if j = σ i then s i else 0) ∧
      ∀ (v : ℕ → ℝ) (i : Fin n), ∑ j ∈ Finset.range n, M.get i j * v j = s i * v (σ i) := by
  obtain ⟨-, -, σ, s, hs, h⟩ := h
  have h' : ∀ i j : Fin n, M.get i j = if j = σ.symm i then s (σ.symm i) else 0 := by
    intro i j
    rw [h]
    by_cases e : i = σ j
    · subst e
      rw [if_pos rfl, if_pos (by simp)]
      simp
    · rw [if_neg e, if_neg (fun e' => e (by rw [e']; simp))]
  refine ⟨σ.symm, fun i => s (σ.symm i), fun i => hs _, h', fun v i => ?_⟩
  rw [sum_range_fin, Finset.sum_eq_single (σ.symm i)]
  · rw [h', if_pos rfl]
  · intro j _ hj
    rw [h', if_neg hj, zero_mul]
  · simp

theorem IsPermMat.signed {n : ℕ} {M : NpMat ℝ} (h : IsPermMat n M) : IsSignedPermMat n M := by
  obtain ⟨h1, h2, σ, h⟩ := h
  exact ⟨h1, h2, σ, fun _ => 1, fun _ => Or.inl rfl, h⟩

theorem IsSignedPermMat.orth {n : ℕ} {M : NpMat ℝ} (h : IsSignedPermMat n M) : IsOrthMat n M := by
  obtain ⟨h1, h2, σ, s, hs, h⟩ := h
  refine ⟨h1, h2, fun i j => ?_⟩
  simp only [h]
  rw [Finset.sum_eq_single (σ i)]
  · by_cases e : i = j
    · subst e
      rw [if_pos rfl, if_pos rfl]
      rcases hs i with e | e <;> rw [e] <;> norm_num
    · rw [if_pos rfl, if_neg (fun e' => e (σ.injective e')), if_neg e, mul_zero]
  · intro k _ hk
    rw [if_neg hk, zero_mul]
  · simp

theorem IsPermMat.orth {n : ℕ} {M : NpMat ℝ} (h : IsPermMat n M) : IsOrthMat n M := h.signed.orth

/-- An orthogonal matrix preserves inner products. -/
theorem IsOrthMat.inner {n : ℕ} {M : NpMat ℝ} (h : IsOrthMat n M) (v w : ℕ → ℝ) :
    ∑ i ∈ Finset.range n, (∑ j ∈ Finset.range n, M.get i j * v j) * (∑ j ∈ Finset.range n, M.get i j * w j) = ∑ j ∈ Finset.range n, v j * w j := by
  obtain ⟨-, -, h⟩ := h
  simp only [sum_range_fin]
  have : ∀ i : Fin n, (∑ j : Fin n, M.get i j * v j) * (∑ k : Fin n, M.get i k * w k) = ∑ j : Fin n, ∑ k : Fin n, (v j * w k) * (M.get i j * M.get i k) := by
    intro i
    rw [Finset.sum_mul_sum]
    exact Finset.sum_congr rfl fun j _ => Finset.sum_congr rfl fun k _ => by ring
  simp only [this]
  rw [Finset.sum_comm]
  refine Finset.sum_congr rfl fun j _ => ?_
  rw [Finset.sum_comm]
  simp only [← Finset.mul_sum, h, mul_ite, mul_one, mul_zero]
  simp

/-- An orthogonal matrix preserves norms. -/
theorem IsOrthMat.norm {n : ℕ} {M : NpMat ℝ} (h : IsOrthMat n M) (v : ℕ → ℝ) :
    ∑ i ∈ Finset.range n, (∑ j ∈ Finset.range n, M.get i j * v j) ^ 2 = ∑ j ∈ Finset.range n, v j ^ 2 := by
  simpa only [sq] using h.inner v v

/-- The regular representation permutes the coordinates. -/
theorem IsLeftMul.perm {G : Type} {els : List G} {mul : G → G → G} {inv : G → G} {one g : G} (hG : FinGroup els mul inv one) (hg : g ∈ els) {M : NpMat ℝ}
    (h : IsLeftMul els mul g M) : IsPermMat els.length M := by
  obtain ⟨h1, h2, h3⟩ := h
  have hidx : ∀ j : Fin els.length, ∃ i : Fin els.length, els[i] = mul g els[j] := by
    intro j
    obtain ⟨i, hi, e⟩ := List.getElem_of_mem (hG.mul_mem g hg els[j] (List.getElem_mem _))
    exact ⟨⟨i, hi⟩, e⟩
  choose f hf using hidx
  have hinj : Function.Injective f := by
    intro a b e
    have h : mul g els[a] = mul g els[b] := by rw [← hf a, ← hf b, e]
    have ha : els[a] ∈ els := List.getElem_mem _
    have hb : els[b] ∈ els := List.getElem_mem _
    have hi := hG.inv_mem g hg
    have : els[a] = els[b] := by
      have e1 : mul (inv g) (mul g els[a]) = els[a] := by rw [← hG.assoc _ hi _ hg _ ha, hG.inv_mul g hg, hG.one_mul _ ha]
      have e2 : mul (inv g) (mul g els[b]) = els[b] := by rw [← hG.assoc _ hi _ hg _ hb, hG.inv_mul g hg, hG.one_mul _ hb]
      rw [← e1, ← e2, h]
    exact Fin.ext ((hG.nodup.getElem_inj_iff).1 this)
  refine ⟨h1, h2, Equiv.ofBijective f (Finite.injective_iff_bijective.1 hinj), fun i j => ?_⟩
  rw [Equiv.ofBijective_apply]
  have h4 := h3 i j i.2 j.2
  by_cases e : i = f j
  · rw [if_pos e]
    exact h4.1 (by rw [e]; exact hf j)
  · rw [if_neg e]
    exact h4.2 fun e' => e (Fin.ext ((hG.nodup.getElem_inj_iff).1 (e'.trans (hf j).symm)))

/-- An orthogonal array in the sense of NumPy. -/
theorem _root_.Escnn.NpMat.IsOrtho.mat {n : ℕ} {M : NpMat ℝ} (h : NpMat.IsOrtho M) (hr : M.rows = n) (hc : M.cols = n) : IsOrthMat n M := by
  refine ⟨hr, hc, fun i j => ?_⟩
  have := h.2.2.2.2 i j (by show (i : ℕ) < M.cols; rw [hc]; exact i.2) (by show (j : ℕ) < M.cols; rw [hc]; exact j.2)
  simp only [NpMat.mul, NpMat.transpose, NpMat.eye] at this
  rw [← sum_range_fin fun k => M.get k i * M.get k j]
  simp only [Fin.ext_iff]
  simpa [hr] using this

variable {G H : Type} {ElG : G → Prop} {mulG : G → G → G} {invG : G → G} {oneG : G} {ElH : H → Prop} {mulH : H → H → H} {invH : H → H} {oneH : H} {parent : H → G} {child : G → Option H}

/-- The action on the cosets is a permutation. -/
theorem coset_perm (hI : Inclusion ElG mulG invG oneG ElH mulH invH oneH parent child) {reps : List G} (hreps : ∀ r ∈ reps, ElG r)
    (hcov : ∀ g, ElG g → ∃ r ∈ reps, ∃ h, ElH h ∧ g = mulG r (parent h)) (hdist : reps.Pairwise fun a b => ¬ CosetRel mulG ElH parent a b) {g : G} (hg : ElG g) :
    ∃ (σ : Equiv.Perm (Fin reps.length)) (k : Fin reps.length → H), (∀ j, ElH (k j) ∧ mulG g reps[j] = mulG reps[σ j] (parent (k j))) ∧
      ∀ (i j : Fin reps.length) h, ElH h → mulG g reps[j] = mulG reps[i] (parent h) → i = σ j := by
  have hR : ∀ i : Fin reps.length, ElG reps[i] := fun i => hreps _ (List.getElem_mem _)
  have hG := hI.groupG
  have hd : ∀ i j : Fin reps.length, CosetRel mulG ElH parent reps[i] reps[j] → i = j := by
    intro i j h
    rcases lt_trichotomy i j with hij | hij | hij
    · exact absurd h (List.pairwise_iff_getElem.1 hdist i j i.2 j.2 hij)
    · exact hij
    · exact absurd (cosetRel_symm hI (hR i) h) (List.pairwise_iff_getElem.1 hdist j i j.2 i.2 hij)
  have hidx : ∀ j : Fin reps.length, ∃ i : Fin reps.length, ∃ h, ElH h ∧ mulG g reps[j] = mulG reps[i] (parent h) := by
    intro j
    obtain ⟨r, hr, h, hh, e⟩ := hcov (mulG g reps[j]) (hG.mul_mem _ _ hg (hR j))
    obtain ⟨i, hi, rfl⟩ := List.getElem_of_mem hr
    exact ⟨⟨i, hi⟩, h, hh, e⟩
  choose f k hk using hidx
  have hinj : Function.Injective f := by
    intro a b e
    refine hd a b ?_
    have h1 : CosetRel mulG ElH parent reps[f a] (mulG g reps[a]) := ⟨k a, hk a⟩
    have h2 : CosetRel mulG ElH parent reps[f a] (mulG g reps[b]) := by simp only [e]; exact ⟨k b, hk b⟩
    obtain ⟨h, hh, e'⟩ := cosetRel_trans hI (hG.mul_mem _ _ hg (hR a)) (cosetRel_symm hI (hR _) h1) h2
    refine ⟨h, hh, hG.cancel_left hg (hR b) (hG.mul_mem _ _ (hR a) (hI.mem h hh)) ?_⟩
    rw [e', hG.assoc _ _ _ hg (hR a) (hI.mem h hh)]
  refine ⟨Equiv.ofBijective f (Finite.injective_iff_bijective.1 hinj), k, hk, fun i j h hh e => ?_⟩
  rw [Equiv.ofBijective_apply]
  exact hd i (f j) (cosetRel_trans hI (hR i) ⟨h, hh, e⟩ (cosetRel_symm hI (hR _) ⟨k j, hk j⟩))

/-- An induced representation is a block permutation. -/
theorem IsInducedAction.blockPerm (hI : Inclusion ElG mulG invG oneG ElH mulH invH oneH parent child) {reps : List G} (hreps : ∀ r ∈ reps, ElG r)
    (hcov : ∀ g, ElG g → ∃ r ∈ reps, ∃ h, ElH h ∧ g = mulG r (parent h)) (hdist : reps.Pairwise fun a b => ¬ CosetRel mulG ElH parent a b) {psi : H → NpMat ℝ} {d : ℕ}
    (hpsi : ∀ h, ElH h → IsOrthMat d (psi h)) {g : G} (hg : ElG g) {M : NpMat ℝ} (h : IsInducedAction mulG ElH parent psi d reps g M) : IsBlockPermMat reps.length d M := by
  obtain ⟨σ, k, hk, hσ⟩ := coset_perm hI hreps hcov hdist hg
  refine ⟨h.1, h.2.1, σ, fun j => psi (k j), fun j => hpsi _ (hk j).1, fun i j p q hp hq => ?_⟩
  have h4 := h.2.2 i j p q i.2 j.2 hp hq
  by_cases e : i = σ j
  · rw [if_pos e, h4.1 (k j) (hk j).1 (by subst e; exact (hk j).2)]
  · rw [if_neg e]
    exact h4.2 fun h hh e' => e (hσ i j h hh e')

/-- A quotient representation is a permutation. -/
theorem IsInducedAction.perm (hI : Inclusion ElG mulG invG oneG ElH mulH invH oneH parent child) {reps : List G} (hreps : ∀ r ∈ reps, ElG r)
    (hcov : ∀ g, ElG g → ∃ r ∈ reps, ∃ h, ElH h ∧ g = mulG r (parent h)) (hdist : reps.Pairwise fun a b => ¬ CosetRel mulG ElH parent a b) {psi : H → NpMat ℝ}
    (htriv : ∀ h, ElH h → (psi h).get 0 0 = 1) {g : G} (hg : ElG g) {M : NpMat ℝ} (h : IsInducedAction mulG ElH parent psi 1 reps g M) : IsPermMat reps.length M := by
  obtain ⟨σ, k, hk, hσ⟩ := coset_perm hI hreps hcov hdist hg
  refine ⟨by simpa using h.1, by simpa using h.2.1, σ, fun i j => ?_⟩
  have h4 := h.2.2 i j 0 0 i.2 j.2 one_pos one_pos
  simp only [mul_one, add_zero] at h4
  by_cases e : i = σ j
  · rw [if_pos e, h4.1 (k j) (hk j).1 (by subst e; exact (hk j).2), htriv _ (hk j).1]
  · rw [if_neg e]
    exact h4.2 fun h hh e' => e (hσ i j h hh e')

end Escnn
