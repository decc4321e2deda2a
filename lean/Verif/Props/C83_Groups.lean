import Verif.Props.C83_Numerical
import Verif.Props.C20_Generators
import Verif.Props.C10_DihedralIrreps
import Verif.Lemmas.Irreps3
import Verif.Spec.Invariants

/-!
# C83: the numerical decomposition for cyclic and dihedral groups
-/

namespace Escnn

open NpMat

theorem trace_inv {E : Type} {els : List E} {op : E → E → E} {inv : E → E} {one : E} (hG : FinGroup els op inv one) {d : ℕ} {ρ : E → NpMat ℝ} (h : OrthoRep (· ∈ els) op one d ρ) {e : E} (he : e ∈ els) :
    trace (ρ (inv e)) = trace (ρ e) := by
  have hi := hG.inv_mem e he
  have e1 : ρ (inv e) ≈ transpose (ρ e) := by
    refine ortho_inv_unique (h.ortho e he) (h.rows e he) (h.rows _ hi) ?_
    refine (h.map_mul e (inv e) he hi).symm.trans ?_
    rw [hG.mul_inv e he]
    exact h.map_one
  rw [trace_congr' e1 (by rw [h.rows _ hi, h.cols _ hi])]
  show ∑ i ∈ Finset.range (ρ e).cols, (ρ e).get i i = ∑ i ∈ Finset.range (ρ e).rows, (ρ e).get i i
  rw [h.rows e he, h.cols e he]

theorem cyclicData_law {N : ℕ} (hN : 0 < N) : (cyclicData N).Law (Cyclic.combine N) Cyclic.identity where
  grp := Cyclic.finGroup N hN
  valid := Cyclic.table_valid_mem N hN
  gens := by
    intro g hg
    simp only [cyclicData, Cyclic.generators] at hg
    split_ifs at hg with h
    · simp only [List.mem_singleton] at hg
      subst hg
      simp only [Cyclic.elements, List.length_map, List.length_range] at h
      exact List.mem_map.2 ⟨1, List.mem_range.2 h, rfl⟩
    · simp at hg
  generate := fun g hg => Cyclic.C01_cyclic_generators N hN g (((Cyclic.C01_cyclic_group_laws N hN).2.2.2.2.2.2.2.2 g).1 hg)
  nodup := List.nodup_range
  ok := fun i hi => by
    have := List.mem_range.1 hi
    exact decide_eq_true (by omega)
  sumsq := fun i _ => by
    show 0 < Cyclic.irrepSumSq N i
    unfold Cyclic.irrepSumSq
    split_ifs <;> omega
  orthogonal := fun i hi j hj => by
    have hi' : i ≤ N / 2 := by have := List.mem_range.1 hi; omega
    have hj' : j ≤ N / 2 := by have := List.mem_range.1 hj; omega
    have e : (Cyclic.elements N).map (fun e => trace (Cyclic.irrepMat N j e) * Cyclic.irrepChar N i (Cyclic.inverse N e)) =
        (Cyclic.elements N).map fun e => trace (Cyclic.irrepMat N i e) * trace (Cyclic.irrepMat N j e) := List.map_congr_left fun e he => by
      rw [(Cyclic.C09_cyclic_irrep N i hN hi').2, trace_inv (ρ := Cyclic.irrepMat N i) (Cyclic.finGroup N hN) (Cyclic.table_valid_mem N hN i (decide_eq_true hi')) he, mul_comm]
    show ((Cyclic.elements N).map fun e => trace (Cyclic.irrepMat N j e) * Cyclic.irrepChar N i (Cyclic.inverse N e)).sum = if i = j then ((Cyclic.elements N).length : ℝ) * Cyclic.irrepSumSq N i else 0
    rw [e, Cyclic.C09_character_orthogonality N i j hN hi' hj']
    simp [Cyclic.elements]
  le_trans := fun a b c h h' => by
    simp only [cyclicData, decide_eq_true_eq] at *
    omega
  le_total := fun a b => by
    simp only [cyclicData, Bool.or_eq_true, decide_eq_true_eq]
    omega

theorem dihedralData_law {N : ℕ} (hN : 0 < N) : (dihedralData N).Law (Dihedral.combine N) Dihedral.identity where
  grp := Dihedral.finGroup N hN
  valid := Dihedral.table_valid_mem N hN
  gens := by
    intro g hg
    simp only [dihedralData, Dihedral.generators] at hg
    simp only [dihedralData, Dihedral.elements, List.mem_append, List.mem_map, List.mem_range]
    split_ifs at hg with h
    · simp only [List.mem_cons, List.not_mem_nil, or_false] at hg
      rcases hg with rfl | rfl
      · exact Or.inl ⟨1, h, rfl⟩
      · exact Or.inr ⟨0, hN, rfl⟩
    · simp only [List.mem_singleton] at hg
      subst hg
      exact Or.inr ⟨0, hN, rfl⟩
  generate := fun g hg => Dihedral.C02_dihedral_generators N hN g (((Dihedral.C02_dihedral_group_laws N hN).2.2.2.2.2.2.2.2 g).1 hg)
  nodup := (Dihedral.C10_ids N hN).2.1
  ok := (Dihedral.C10_ids N hN).1
  sumsq := fun _ _ => one_pos
  orthogonal := fun i hi j hj => by
    have hi' := (Dihedral.C10_ids N hN).1 i hi
    have hj' := (Dihedral.C10_ids N hN).1 j hj
    have e : (Dihedral.elements N).map (fun e => trace (Dihedral.irrepMat N j.1 j.2 e) * Dihedral.irrepChar N i.1 i.2 (Dihedral.inverse N e)) =
        (Dihedral.elements N).map fun e => trace (Dihedral.irrepMat N i.1 i.2 e) * trace (Dihedral.irrepMat N j.1 j.2 e) := List.map_congr_left fun e he => by
      rw [(Dihedral.C10_dihedral_irrep N i.1 i.2 hN hi').2, trace_inv (ρ := Dihedral.irrepMat N i.1 i.2) (Dihedral.finGroup N hN) (Dihedral.table_valid_mem N hN i hi') he, mul_comm]
    show ((Dihedral.elements N).map fun e => trace (Dihedral.irrepMat N j.1 j.2 e) * Dihedral.irrepChar N i.1 i.2 (Dihedral.inverse N e)).sum = if i = j then ((Dihedral.elements N).length : ℝ) * (1 : ℕ) else 0
    rw [e, Dihedral.C10_character_orthogonality N i.1 i.2 j.1 j.2 hN hi' hj']
    simp [Dihedral.elements]
    ring_nf
  le_trans := fun a b c h h' => by
    simp only [dihedralData, decide_eq_true_eq] at *
    omega
  le_total := fun a b => by
    simp only [dihedralData, Bool.or_eq_true, decide_eq_true_eq]
    omega

/-- **C83** Cyclic groups of order at least 2: with exact numerical routines every representation which is equivalent to a direct sum of irreps is built. -/
theorem C83_cyclic {N : ℕ} (hN : 1 < N) {M : Numerics} (hM : NumExact M) {rho : ℤ → NpMat ℝ} {P : NpMat ℝ} {irr : List ℕ} (h : Equivalent (cyclicData N) rho P irr) (hpos : 0 < P.rows)
    {taken : List String} {name : String} (hname : name ∉ taken) (nonlin : Finset String) :
    ∃ r, buildFromDiscrete M (cyclicData N) taken rho name nonlin = .ok r ∧ r.WF (Cyclic.table N) (· ∈ Cyclic.elements N) ∧ r.mat = rho ∧ r.irreps = irr.mergeSort ∧ IsOrtho r.cob := by
  obtain ⟨r, h1, h2, h3, _, h5, h6, h7⟩ := C83_build_exact (cyclicData_law (by omega)) hM (by simp [cyclicData, Cyclic.generators, Cyclic.elements, hN]) h hpos hname nonlin
  refine ⟨r, h1, h2, h3, ?_, h7⟩
  refine List.Perm.eq_of_pairwise (le := (· ≤ ·)) (fun a b _ _ => le_antisymm) (h6.imp fun hab => of_decide_eq_true hab) ?_ (h5.trans (List.mergeSort_perm _ _).symm)
  have := List.pairwise_mergeSort (le := fun a b : ℕ => decide (a ≤ b)) (fun a b c h h' => by simp only [decide_eq_true_eq] at *; omega) (fun a b => by simp only [Bool.or_eq_true, decide_eq_true_eq]; omega) irr
  exact this.imp fun hab => of_decide_eq_true hab

/-- **C83** Dihedral groups: with exact numerical routines every representation which is equivalent to a direct sum of irreps is built. -/
theorem C83_dihedral {N : ℕ} (hN : 0 < N) {M : Numerics} (hM : NumExact M) {rho : Dihedral.Elem → NpMat ℝ} {P : NpMat ℝ} {irr : List (ℕ × ℕ)} (h : Equivalent (dihedralData N) rho P irr) (hpos : 0 < P.rows)
    {taken : List String} {name : String} (hname : name ∉ taken) (nonlin : Finset String) :
    ∃ r, buildFromDiscrete M (dihedralData N) taken rho name nonlin = .ok r ∧ r.WF (Dihedral.table N) (· ∈ Dihedral.elements N) ∧ r.mat = rho ∧ r.irreps.Perm irr ∧
      r.irreps.Pairwise (fun a b => a.1 < b.1 ∨ a.1 = b.1 ∧ a.2 ≤ b.2) ∧ IsOrtho r.cob := by
  obtain ⟨r, h1, h2, h3, _, h5, h6, h7⟩ := C83_build_exact (dihedralData_law hN) hM (by unfold dihedralData Dihedral.generators; split_ifs <;> simp) h hpos hname nonlin
  exact ⟨r, h1, h2, h3, h5, h6.imp fun hab => of_decide_eq_true hab, h7⟩

/-- A representation given as a conjugate of a direct sum. -/
theorem Equivalent.of {G Id : Type} [DecidableEq Id] {F : FinData G Id} {P : NpMat ℝ} {irr : List Id} (hm : ∀ i ∈ irr, i ∈ F.ids) (hP : IsOrtho P) (hs : P.rows = (irr.map F.T.size).sum) :
    Equivalent F (fun g => mul (mul P (blockDiag (irr.map fun i => F.T.mat i g))) (transpose P)) P irr := ⟨hm, hP, hs, fun _ _ => Eqv.refl _⟩

/-- The hypotheses of `C83_cyclic` hold for the sum of the irreps 1 and 0 of the cyclic group of order 3, in another basis: the irreps of the result are sorted. -/
example : ∃ (M : Numerics) (r : Rep ℤ ℕ), buildFromDiscrete M (cyclicData 3) [] (fun g => mul (mul (swapMat 1 2) (blockDiag ([1, 0].map fun i => Cyclic.irrepMat 3 i g))) (transpose (swapMat 1 2))) "r" ∅ = .ok r ∧
    r.irreps = [0, 1] ∧ IsOrtho r.cob := by
  obtain ⟨M, hM⟩ := NumExact.exists
  have he : Equivalent (cyclicData 3) (fun g => mul (mul (swapMat 1 2) (blockDiag ([1, 0].map fun i => (cyclicData 3).T.mat i g))) (transpose (swapMat 1 2))) (swapMat 1 2) [1, 0] :=
    Equivalent.of (by decide) (swapMat_ortho 1 2) (by rfl)
  obtain ⟨r, h1, _, _, h4, h5⟩ := C83_cyclic (by norm_num) hM he (by decide) (taken := []) (name := "r") (by simp) ∅
  exact ⟨M, r, h1, by rw [h4]; simp [List.mergeSort], h5⟩

/-- The hypotheses of `C83_dihedral` hold for the sum of two irreps of the dihedral group with 6 elements. -/
example : ∃ (M : Numerics) (r : Rep Dihedral.Elem (ℕ × ℕ)), buildFromDiscrete M (dihedralData 3) [] (fun g => mul (mul (swapMat 1 2) (blockDiag ([(1, 1), (0, 0)].map fun i => Dihedral.irrepMat 3 i.1 i.2 g)))
    (transpose (swapMat 1 2))) "r" ∅ = .ok r ∧ r.irreps.Perm [(1, 1), (0, 0)] ∧ IsOrtho r.cob := by
  obtain ⟨M, hM⟩ := NumExact.exists
  have he : Equivalent (dihedralData 3) (fun g => mul (mul (swapMat 1 2) (blockDiag ([(1, 1), (0, 0)].map fun i => (dihedralData 3).T.mat i g))) (transpose (swapMat 1 2))) (swapMat 1 2) [(1, 1), (0, 0)] :=
    Equivalent.of (by decide) (swapMat_ortho 1 2) (by rfl)
  obtain ⟨r, h1, _, _, h4, _, h5⟩ := C83_dihedral (by norm_num) hM he (by decide) (taken := []) (name := "r") (by simp) ∅
  exact ⟨M, r, h1, h4, h5⟩

/-- The hypotheses of `C83_sylvester`: for the sign and the trivial irrep of the cyclic group of order 2 there is no intertwiner but zero. -/
example : ∃ C, buildSylvester [Cyclic.irrepMat 2 1 1] [Cyclic.irrepMat 2 0 1] = .ok C ∧ ∀ X : NpMat ℝ, X.rows = 1 → X.cols = 1 →
    ((∀ i < C.rows, ∑ a ∈ Finset.range C.cols, C.get i a * X.get (a % 1) (a / 1) = 0) ↔ ∀ p ∈ [Cyclic.irrepMat 2 1 1].zip [Cyclic.irrepMat 2 0 1], mul p.1 X ≈ mul X p.2) := by
  have h := (cyclicData_law (N := 2) (by norm_num)).valid
  have h1 := h 1 (by decide)
  have h0 := h 0 (by decide)
  have hm : (1 : ℤ) ∈ (cyclicData 2).els := by decide
  obtain ⟨C, hC, _, hX⟩ := C83_sylvester (rho₁ := [Cyclic.irrepMat 2 1 1]) (rho₂ := [Cyclic.irrepMat 2 0 1]) (d₁ := 1) (d₂ := 1)
    (by simpa using ⟨h1.rows 1 hm, h1.cols 1 hm⟩) (by simpa using ⟨h0.rows 1 hm, h0.cols 1 hm⟩) rfl (by simp)
  exact ⟨C, hC, hX⟩

/-- **C83** The restriction of an irrep to a finite subgroup, whatever the numerical routines return: `psi(parent(h)) = D @ P(h) @ inv(D)` for every element of the subgroup. -/
theorem C83_restrict {G Id : Type} [DecidableEq Id] {F : FinData G Id} {op : G → G → G} {one : G} (hF : F.Law op one) (N : Numerics) {triv : Id} (htriv : F.T.IsTrivial (· ∈ F.els) triv)
    (irreps : List (IrrepData G Id)) (tries : IrrepData G Id → List (List G × List G)) (checks : List G) {d : ℕ} {psi : G → NpMat ℝ} (hpsi : LinRep (· ∈ F.els) op one d psi) {D : NpMat ℝ} {irr : List Id}
    (h : restrictIrrepNum N F.els.length F one triv irreps tries checks d psi = .ok (D, irr)) :
    D.rows = d ∧ (irr.map F.T.size).sum = d ∧ ∃ Dinv, IsInv D Dinv ∧ ∀ g ∈ F.els, psi g ≈ mul (mul D (blockDiag (irr.map fun i => F.T.mat i g))) Dinv := by
  unfold restrictIrrepNum at h
  have hlen := hF.grp.length_pos
  split_ifs at h with h1 h2
  · obtain ⟨rfl, rfl⟩ := Prod.mk.inj (Except.ok.inj h)
    refine ⟨rfl, by simp [htriv.size], eye d, IsInv.eye d, fun g hg => ?_⟩
    have hg1 : g = one := by
      have hl : F.els.length = 1 := by exact_mod_cast h1
      obtain ⟨x, hx⟩ := List.length_eq_one_iff.1 hl
      have e1 := hF.grp.one_mem
      rw [hx, List.mem_singleton] at hg e1
      rw [hg, e1]
    subst hg1
    have hσ := irrepsBlock_orthoRep hF.valid hF.grp.one_mem (L := List.replicate d triv) (fun i hi => by rw [List.eq_of_mem_replicate hi]; exact htriv.ok)
    have hs : ((List.replicate d triv).map F.T.size).sum = d := by simp [htriv.size]
    rw [hs] at hσ
    exact hpsi.map_one.trans ((hσ.map_one.symm).trans (conjBy_eye_left (hσ.rows _ hg) (hσ.cols _ hg)).symm)
  · obtain ⟨⟨D', ms⟩, h3, h4⟩ := ExRel.bind_ok h
    obtain ⟨rfl, rfl⟩ := Prod.mk.inj (Except.ok.inj h4)
    obtain ⟨a, b, _, c⟩ := C83_finite_sound hF N hpsi h3
    exact ⟨a, b, c⟩
  · omega

end Escnn
