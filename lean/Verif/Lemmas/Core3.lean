import Verif.Lemmas.WignerCore

/-!
# Restrictions without an adjoint
-/

namespace Escnn

open Real NpMat Quaternion
open scoped Matrix

/-- `D` on the rotations `R h` is the sum of the blocks, in the basis `Q`. -/
structure Core3 {H : Type} (d : ℕ) (D : UQuat → NpMat ℝ) (ElH : H → Prop) (R : H → Mat3) (Q : NpMat ℝ)
    (blocks : H → List (NpMat ℝ)) : Prop where
  rows : Q.rows = d
  ortho : IsOrtho Q
  core : ∀ h q, ElH h → normSq q = 1 → rotOf q = R h → D q ≈ conj Q (blockDiag (blocks h))
  size : ∀ h, ElH h → (blockDiag (blocks h)).rows = d ∧ (blockDiag (blocks h)).cols = d

namespace Core3

variable {H : Type} {l : ℕ} {D : UQuat → NpMat ℝ} {ElH : H → Prop} {R : H → Mat3} {Q : NpMat ℝ} {blocks : H → List (NpMat ℝ)}

theorem cols {d : ℕ} (h : Core3 d D ElH R Q blocks) : Q.cols = d := by rw [← h.ortho.1, h.rows]

theorem id (hD : Wigner l D) (h : Core3 (2 * l + 1) D ElH R Q blocks) :
    Core3 (2 * l + 1) D ElH R (mul (transpose (D SO3.identity)) Q) blocks := by
  have hi := (SO3.wigner_rep hD).one SO3.identity SO3.id_unit SO3.id_rot
  have e : mul (transpose (D SO3.identity)) Q ≈ Q := by
    refine (mul_congr ((transpose_congr hi).trans (transpose_eye _)) (Eqv.refl _) (by simp [hD.rows _ SO3.id_unit, h.rows])).trans ?_
    have := eye_mul Q
    rwa [h.rows] at this
  have ho : IsOrtho (mul (transpose (D SO3.identity)) Q) :=
    mul_isOrtho (isOrtho_transpose' (hD.ortho _ SO3.id_unit)) h.ortho (by simp [hD.rows _ SO3.id_unit, h.rows])
  refine ⟨e.1.trans h.rows, ho, fun x q hx hq hr => ?_, h.size⟩
  refine (h.core x q hx hq hr).trans (conj_congr_left e.symm ?_ ?_)
  · rw [h.cols, (h.size x hx).1]
  · rw [h.cols, (h.size x hx).2]

/-- Restricting every block further. -/
theorem join {d : ℕ} {α β : Type} {ids : List α} {ρ : H → α → NpMat ℝ} (h : Core3 d D ElH R Q fun x => ids.map (ρ x))
    (C : α → NpMat ℝ) (B : α → List β) (g : H → β → NpMat ℝ) (hC : ∀ a ∈ ids, IsOrtho (C a))
    (hs : ∀ a ∈ ids, ∀ x, ElH x → (blockDiag ((B a).map (g x))).rows = (C a).rows ∧ (blockDiag ((B a).map (g x))).cols = (C a).rows)
    (hρ : ∀ a ∈ ids, ∀ x, ElH x → ρ x a ≈ conj (C a) (blockDiag ((B a).map (g x)))) (hd : (ids.map fun a => (C a).rows).sum = d) :
    Core3 d D ElH R (mul Q (blockDiag (ids.map C))) fun x => (ids.flatMap B).map (g x) := by
  have hr : (blockDiag (ids.map C)).rows = d := by rw [blockDiag_rows, List.map_map]; exact hd
  have hCc : ∀ a ∈ ids, (C a).cols = (C a).rows := fun a ha => (hC a ha).1.symm
  have hc : (blockDiag (ids.map C)).cols = d := by
    rw [blockDiag_cols, List.map_map, ← hd]
    exact congrArg _ (List.map_congr_left hCc)
  have hsz : ∀ x, ElH x → (blockDiag ((ids.flatMap B).map (g x))).rows = d ∧ (blockDiag ((ids.flatMap B).map (g x))).cols = d := by
    intro x hx
    have hf := blockDiag_flatMap ids B (g x)
    rw [hf.1, hf.2.1, blockDiag_rows, blockDiag_cols, List.map_map, List.map_map, ← hd]
    exact ⟨congrArg _ (List.map_congr_left fun a ha => (hs a ha x hx).1), congrArg _ (List.map_congr_left fun a ha => (hs a ha x hx).2)⟩
  refine ⟨h.rows, mul_isOrtho h.ortho (blockDiag_isOrtho' _ _ hC) (by rw [h.cols, hr]), fun x q hx hq hxr => ?_, hsz⟩
  have e1 : blockDiag (ids.map (ρ x)) ≈ conj (blockDiag (ids.map C)) (blockDiag ((ids.flatMap B).map (g x))) :=
    (blockDiag_map_congr fun a ha => hρ a ha x hx).trans
      (blockDiag_conj ids C B (g x) fun a ha => ⟨by rw [hCc a ha, (hs a ha x hx).1], by rw [hCc a ha, (hs a ha x hx).2]⟩)
  refine (h.core x q hx hq hxr).trans ((conj_congr e1 ?_ ?_).trans (conj_mul _ _ _ ?_ ?_ ?_).symm)
  · rw [h.cols, (h.size x hx).1]
  · rw [h.cols, (h.size x hx).2]
  · rw [h.cols, hr]
  · rw [hc, (hsz x hx).1]
  · rw [hc, (hsz x hx).2]

end Core3

namespace SO3

variable {W : ℕ → UQuat → NpMat ℝ} {l : ℕ}

theorem so2_blocks_size (l : ℕ) (θ : ℝ) :
    (blockDiag ((List.range (l + 1)).map fun k => SO2.irrepMat k θ)).rows = 2 * l + 1 ∧
    (blockDiag ((List.range (l + 1)).map fun k => SO2.irrepMat k θ)).cols = 2 * l + 1 := by
  have h := so2_blocks l θ
  exact ⟨h.1.trans (pairs_size l _ _ _).1, h.2.1.trans (pairs_size l _ _ _).2⟩

theorem o2_blocks_size (l j : ℕ) (e : O2.Elem) :
    (blockDiag (([(j % 2, 0)] ++ (List.range l).map fun f => (1, f + 1)).map fun i : ℕ × ℕ => O2.irrepMat i.1 i.2 e)).rows = 2 * l + 1 ∧
    (blockDiag (([(j % 2, 0)] ++ (List.range l).map fun f => (1, f + 1)).map fun i : ℕ × ℕ => O2.irrepMat i.1 i.2 e)).cols = 2 * l + 1 := by
  have h := o2_blocks l j e
  exact ⟨h.1.trans (pairs_size l _ _ _).1, h.2.1.trans (pairs_size l _ _ _).2⟩

/-- Every group `H` of rotations around the axis. -/
theorem so2_core3 {D : UQuat → NpMat ℝ} (hD : Wigner l D) {H : Type} (ElH : H → Prop) (R : H → Mat3) (ang : H → ℝ)
    (hR : ∀ h, ElH h → R h = rotZ (ang h)) :
    Core3 (2 * l + 1) D ElH R (so2Cob l) fun h => (List.range (l + 1)).map fun k => SO2.irrepMat k (ang h) :=
  ⟨(so2Cob_sperm l).rows, (so2Cob_sperm l).ortho, fun h q hh hq hr => so2_core hD hq (hr.trans (hR h hh)),
    fun h _ => so2_blocks_size l (ang h)⟩

/-- Every group `H` of rotations and flips. -/
theorem o2_core3 {D : UQuat → NpMat ℝ} (hD : Wigner l D) {H : Type} (ElH : H → Prop) (R : H → Mat3) (el : H → O2.Elem)
    (hel : ∀ h, ElH h → (el h).1 = 0 ∨ (el h).1 = 1) (hR : ∀ h, ElH h → R h = rotZ (el h).2 * flipX ^ (el h).1.toNat) :
    Core3 (2 * l + 1) D ElH R (o2Cob l) fun h => ([(l % 2, 0)] ++ (List.range l).map fun f => (1, f + 1)).map fun i : ℕ × ℕ =>
      O2.irrepMat i.1 i.2 (el h) := by
  classical
  exact ⟨(o2Cob_sperm l).rows, (o2Cob_sperm l).ortho, fun h q hh hq hr => o2_core hD hq (el h) (hel h hh) (hr.trans (hR h hh)),
    fun h _ => o2_blocks_size l l (el h)⟩

theorem so2_sizes (l : ℕ) : ((List.range (l + 1)).map SO2.irrepSize).sum = 2 * l + 1 := by
  induction l with
  | zero => rfl
  | succ l ih =>
    rw [List.range_succ, List.map_append, List.sum_append, ih]
    simp [SO2.irrepSize]; ring

theorem o2_sizes (l j : ℕ) : (([(j % 2, 0)] ++ (List.range l).map fun f => (1, f + 1)).map fun i : ℕ × ℕ => O2.irrepSize i.1 i.2).sum =
    2 * l + 1 := by
  rw [List.map_append, List.sum_append, List.map_map]
  have : ((fun i : ℕ × ℕ => O2.irrepSize i.1 i.2) ∘ fun f => (1, f + 1)) = fun _ => 2 := by funext f; simp [O2.irrepSize]
  rw [this]
  simp [O2.irrepSize]; ring

theorem cyc_core3 (hD : Wigner l (irrepMat W l)) (n : ℕ) (hn : 0 < n) :
    ∃ Q L, restrictCyc W l n identity = .ok (mul (transpose (irrepMat W l identity)) Q, L) ∧
      (∀ adj, restrictCyc W l n adj = .ok (mul (transpose (irrepMat W l adj)) Q, L)) ∧ (∀ f ∈ L, f ≤ n / 2) ∧
      Core3 (2 * l + 1) (irrepMat W l) (fun h => Cyclic.isElement n h = true) (fun k : ℤ => rotZ (k * (2 * π / n))) Q
        (fun h => L.map fun f => Cyclic.irrepMat n f h) := by
  choose C B h1 h2 h3 using fun k => SO2.C12_so2 k n hn
  have hm := mapM_map_ok (f := fun k => SO2.restrictIrrep k n) (g := fun k => (C k, B k)) (List.range (l + 1)) fun k _ => h1 k
  have hcore := (so2_core3 hD (fun h => Cyclic.isElement n h = true) (fun k : ℤ => rotZ (k * (2 * π / n))) (SO2.parentMap n)
    (fun h _ => by rw [SO2.parentMap, rotZ_mod2pi]; congr 1; ring)).id hD
  have hj := hcore.join C B (fun h f => Cyclic.irrepMat n f h) (fun k _ => (h3 k).ortho)
    (fun k _ x hx => by rw [(h3 k).rows]; exact ⟨(h3 k).block_rows x hx, (h3 k).block_cols x hx⟩)
    (fun k _ x hx => (h3 k).restrict x _ hx rfl)
    (by rw [← so2_sizes l]; exact congrArg _ (List.map_congr_left fun k _ => (h3 k).rows))
  have key : ∀ adj, restrictCyc W l n adj = .ok (mul (transpose (irrepMat W l adj))
      (mul (mul (transpose (irrepMat W l identity)) (so2Cob l)) (blockDiag ((List.range (l + 1)).map C))),
      (List.range (l + 1)).flatMap B) := by
    intro adj
    have e : restrictCyc W l n adj = ((List.range (l + 1)).mapM fun k => SO2.restrictIrrep k n).bind fun blocks =>
      .ok (withAdj W l adj (mul (withAdj W l identity (so2Cob l)) (joinBlocks blocks).1), (joinBlocks blocks).2) := rfl
    rw [e, hm]
    simp only [Except.bind, joinBlocks, withAdj, List.map_map, Function.comp_def, List.flatMap]
  refine ⟨_, _, key identity, key, fun f hf => ?_, hj⟩
  obtain ⟨k, _, hk⟩ := List.mem_flatMap.1 hf
  exact h2 k f hk

theorem dih_core3 (hD : Wigner l (irrepMat W l)) (n : ℕ) (hn : 0 < n) :
    ∃ Q L, (∀ adj, restrictDih W l n adj = (mul (transpose (irrepMat W l adj)) Q, L)) ∧
      (∀ i ∈ L, Dihedral.irrepOk n i.1 i.2 = true) ∧
      Core3 (2 * l + 1) (irrepMat W l) (fun h => Dihedral.isElement n h = true)
        (fun e : Dihedral.Elem => rotZ (e.2 * (2 * π / n)) * flipX ^ e.1.toNat) Q
        (fun h => L.map fun i => Dihedral.irrepMat n i.1 i.2 h) := by
  have hel : ∀ h : Dihedral.Elem, Dihedral.isElement n h = true → h.1 = 0 ∨ h.1 = 1 := by
    intro h hh
    exact (Dihedral.isElement_iff.1 hh).1
  obtain ⟨ids, hids⟩ : ∃ ids : List (ℕ × ℕ), ids = [(l % 2, 0)] ++ (List.range l).map fun f => (1, f + 1) := ⟨_, rfl⟩
  have hok : ∀ i ∈ ids, O2.irrepOk i.1 i.2 = true := by
    intro i hi
    rw [hids] at hi
    rcases List.mem_append.1 hi with h | h
    · rw [List.mem_singleton.1 h]
      rcases Nat.mod_two_eq_zero_or_one l with h | h <;> rw [h] <;> rfl
    · obtain ⟨f, _, rfl⟩ := List.mem_map.1 h
      simp [O2.irrepOk]
  have h12 := fun i (hi : i ∈ ids) => O2.C12_o2_dih i.1 i.2 n 0 hn (hok i hi)
  have hpar : ∀ h, Dihedral.isElement n h = true → O2.dnToO2 n 0 h = .ok (O2.reduce (h.1, Dihedral.radians n h)) := by
    intro h hh
    rw [O2.dnToO2, O2.element_ok (hel h hh), Dihedral.radians, mul_zero, add_zero, mul_assoc]
  have hcore := (o2_core3 hD (fun h => Dihedral.isElement n h = true)
    (fun e : Dihedral.Elem => rotZ (e.2 * (2 * π / n)) * flipX ^ e.1.toNat) (fun h => O2.reduce (h.1, Dihedral.radians n h))
    (fun h hh => hel h hh) (fun h _ => by
      simp only [O2.reduce, rotZ_mod2pi, Dihedral.radians]; congr 2; ring)).id hD
  rw [← hids] at hcore
  have hj := hcore.join (fun i => (O2.restrictDih i.1 i.2 n 0).1) (fun i => (O2.restrictDih i.1 i.2 n 0).2)
    (fun h i => Dihedral.irrepMat n i.1 i.2 h) (fun i hi => (h12 i hi).2.ortho)
    (fun i hi x hx => by rw [(h12 i hi).2.rows]; exact ⟨(h12 i hi).2.block_rows x hx, (h12 i hi).2.block_cols x hx⟩)
    (fun i hi x hx => (h12 i hi).2.restrict x _ hx (hpar x hx))
    (by rw [← o2_sizes l l, ← hids]; exact congrArg _ (List.map_congr_left fun i hi => (h12 i hi).2.rows))
  refine ⟨_, _, fun adj => ?_, fun i hi => ?_, hj⟩
  · have e : restrictDih W l n adj = (withAdj W l adj (mul (withAdj W l identity (o2Cob l))
      (joinBlocks (ids.map fun i => O2.restrictDih i.1 i.2 n 0)).1), (joinBlocks (ids.map fun i => O2.restrictDih i.1 i.2 n 0)).2) := by
      rw [hids]; rfl
    rw [e]
    simp only [joinBlocks, withAdj, List.map_map, Function.comp_def, List.flatMap]
  · obtain ⟨k, hk, hi⟩ := List.mem_flatMap.1 hi
    exact (h12 k hk).1 i hi

end SO3

end Escnn
