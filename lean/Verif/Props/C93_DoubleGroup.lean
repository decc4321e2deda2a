import Verif.Model.DoubleGroup
import Verif.Props.C04_DirectProduct

/-!
# C93: the diagonal subgroup of the product of a group with itself
-/

namespace Escnn

/-- **C93** `{(g, g)}` with the maps of `DoubleGroup` is a subgroup isomorphic to the group; the restriction is `None` exactly for the pairs of different elements. -/
theorem C93_diagonal {A : Type} {v : A → Bool} {m : A → A → A} {mkG : A × A → Except Err (A × A)} {eq : A → A → Bool}
    (hG : ∀ a b, v a = true → v b = true → mkG (a, b) = .ok (a, b)) (hm : ∀ a b, v a = true → v b = true → v (m a b) = true)
    (heq : ∀ a b, v a = true → v b = true → (eq a b = true ↔ a = b)) :
    SubgroupMaps (fun x : A × A => v x.1 && v x.2) (fun x y => (m x.1 y.1, m x.2 y.2)) v m (dgInclude mkG) (dgRestrict eq) ∧
    ∀ a b, v a = true → v b = true → (dgRestrict eq (a, b) = .ok none ↔ a ≠ b) := by
  have hp : ∀ h, v h = true → dgInclude mkG h = .ok (h, h) := fun h hv => hG h h hv hv
  refine ⟨⟨fun h hv => ⟨_, hp h hv, by simp [hv]⟩, fun h h' g g' hv hv' e e' => ?_, fun h h' hv hv' e => ?_, fun h g hv e => ?_, fun g hv hno => ?_⟩, fun a b ha hb => ?_⟩
  · obtain rfl := Except.ok.inj ((hp h hv).symm.trans e)
    obtain rfl := Except.ok.inj ((hp h' hv').symm.trans e')
    exact hp _ (hm _ _ hv hv')
  · rw [hp h hv, hp h' hv'] at e
    simpa using e
  · obtain rfl := Except.ok.inj ((hp h hv).symm.trans e)
    rw [dgRestrict, if_pos ((heq h h hv hv).2 rfl)]
  · obtain ⟨a, b⟩ := g
    simp only [Bool.and_eq_true] at hv
    rw [dgRestrict, if_neg]
    intro h
    obtain rfl := (heq a b hv.1 hv.2).1 h
    exact hno a hv.1 (hp a hv.1)
  · have := heq a b ha hb
    by_cases h : a = b
    · rw [dgRestrict, if_pos (this.2 h)]; simp [h]
    · rw [dgRestrict, if_neg (mt this.1 h)]; simp [h]

/-- **C93** The groups `C_N × C_N` and `D_N × D_N`. -/
theorem C93_diagonal_planar (N : ℕ) (hN : 0 < N) :
    SubgroupMaps (fun x : ℤ × ℤ => Cyclic.isElement N x.1 && Cyclic.isElement N x.2) (fun x y => (Cyclic.combine N x.1 y.1, Cyclic.combine N x.2 y.2)) (Cyclic.isElement N) (Cyclic.combine N)
      (dgInclude (dpMk (Cyclic.pyGroup N) (Cyclic.pyGroup N))) (dgRestrict fun a b => decide (a = b)) ∧
    SubgroupMaps (fun x : Dihedral.Elem × Dihedral.Elem => Dihedral.isElement N x.1 && Dihedral.isElement N x.2) (fun x y => (Dihedral.combine N x.1 y.1, Dihedral.combine N x.2 y.2)) (Dihedral.isElement N) (Dihedral.combine N)
      (dgInclude (dpMk (Dihedral.pyGroup N) (Dihedral.pyGroup N))) (dgRestrict fun a b => decide (a = b)) := by
  refine ⟨(C93_diagonal (Cyclic.dpMk_ok N N hN hN) (Cyclic.C01_cyclic_group_laws N hN).2.1 fun a b _ _ => decide_eq_true_iff).1, (C93_diagonal (fun a b ha hb => ?_) (Dihedral.C02_dihedral_group_laws N hN).2.1 fun a b _ _ => decide_eq_true_iff).1⟩
  have hs : splitParam (pairParam (Dihedral.pyGroup N).param (Dihedral.pyGroup N).param) = .ok ((Dihedral.pyGroup N).param, (Dihedral.pyGroup N).param) :=
    splitParam_pairParam _ _ (by simp [Dihedral.pyGroup, PyGroup.leaf]) (by simp [Dihedral.pyGroup, PyGroup.leaf]) (by simp [Dihedral.pyGroup, PyGroup.leaf])
  have hv : ∀ x : Dihedral.Elem, Dihedral.isElement N x = true → (Dihedral.pyGroup N).Valid x := by
    intro x hx; simp [PyGroup.Valid, Dihedral.pyGroup, PyGroup.leaf, hx, bind, Except.bind, pure, Except.pure]
  have := dp_pair hs (Dihedral.pyGroup_laws N hN) (Dihedral.pyGroup_laws N hN) (hv a ha) (hv b hb)
  unfold pairElements at this
  rwa [(Dihedral.pyGroup_laws N hN).change a (hv a ha), (Dihedral.pyGroup_laws N hN).change b (hv b hb)] at this

/-- **C93** Only the string `diagonal` is an id besides the pairs, and subgroups cannot be combined. -/
theorem C93_diagonal_id {A I S : Type} (diagonal : (A → Except Err (A × A)) × (A × A → Except Err (Option A)) → S) (mkG : A × A → Except Err (A × A)) (eq : A → A → Bool) (super : I → Except Err S) :
    (∀ id : String, dgSubgroup diagonal mkG eq super (.inl id) = if id = "diagonal" then .ok (diagonal (dgInclude mkG, dgRestrict eq)) else .error .assertion) ∧
    (∀ id, dgSubgroup diagonal mkG eq super (.inr id) = super id) ∧ ∀ a b : I, dgCombineSubgroups a b = .error .notImplemented :=
  ⟨fun _ => rfl, fun _ => rfl, fun _ _ => rfl⟩

example : dgRestrict (fun a b : ℤ => decide (a = b)) (3, 3) = .ok (some 3) ∧ dgRestrict (fun a b : ℤ => decide (a = b)) (3, 1) = .ok none := ⟨rfl, rfl⟩

end Escnn
