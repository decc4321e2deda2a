import Verif.Spec.Compose3
import Verif.Model.Subgroups3
import Verif.Props.C76_O3

/-!
# Ids of subgroups and conjugation
-/

namespace Escnn

open Real Matrix Quaternion

/-- Every id denotes conjugates of one set of matrices. -/
def ConjOf {G : Type} (ElG : G → Prop) (act : G → Mat3) (sub : G → Except Err (SubData G)) (D : SubData G)
    (ρ : D.H → Mat3) : Prop :=
  ∀ adj, ElG adj → ∃ P C, sub adj = .ok ⟨D.H, D.El, D.mul, P, C⟩ ∧
    ∀ x, D.El x → ∃ g, P x = .ok g ∧ ElG g ∧ act g = (act adj)ᵀ * ρ x * act adj

theorem ConjOf.parent {G : Type} {ElG : G → Prop} {act : G → Mat3} {sub : G → Except Err (SubData G)} {D : SubData G}
    {ρ : D.H → Mat3} (h : ConjOf ElG act sub D ρ) {adj : G} (hadj : ElG adj) (hD : sub adj = .ok D) (x : D.H) (hx : D.El x) :
    ∃ g, D.parent x = .ok g ∧ ElG g ∧ act g = (act adj)ᵀ * ρ x * act adj := by
  obtain ⟨P, C, h1, h2⟩ := h adj hadj
  have e := Except.ok.inj (hD.symm.trans h1)
  obtain ⟨H, El, mul, P', C'⟩ := D
  simp only [SubData.mk.injEq, heq_eq_eq, true_and] at e
  obtain ⟨rfl, rfl⟩ := e
  exact h2 x hx

theorem ConjOf.of {G : Type} {ElG : G → Prop} {act : G → Mat3} {sub : G → Except Err (SubData G)} {H : Type}
    {El : H → Prop} {eqH : H → H → Prop} {mul : H → H → H} {ρ : H → Mat3}
    (hC : ∀ adj, ElG adj → ∃ P C, sub adj = .ok ⟨H, El, mul, P, C⟩ ∧ RealisesAs ElG act El eqH mul (act adj) ρ P C)
    (P₀ : H → Except Err G) (C₀ : G → Except Err (Option H)) : ConjOf ElG act sub ⟨H, El, mul, P₀, C₀⟩ ρ := by
  intro adj hadj
  obtain ⟨P, C, h1, h2⟩ := hC adj hadj
  exact ⟨P, C, h1, h2.parent_ok⟩

/-- The same group inside SO(3) and inside O(3). -/
theorem SO3.conj_lift {aq : UQuat → UQuat} (haq : AsQuat aq) {ico octa : RotGroup} (hI : ico.Lawful) (hO : octa.Lawful)
    {id : SO3.Id} {adj : UQuat} (hadj : normSq adj = 1) {D : SubData UQuat} (hD : SO3.subgroup aq ico octa id adj = .ok D) :
    ∃ ρ : D.H → Mat3, ConjOf (fun e => normSq e = 1) rotOf (SO3.subgroup aq ico octa id) D ρ ∧
      ∀ adj' : O3.Elem, O3El adj' → ∃ P C, O3.subgroup aq ico octa (.sub false id) adj' = .ok ⟨D.H, D.El, D.mul, P, C⟩ ∧
        ∀ x, D.El x → ∃ g, P x = .ok g ∧ O3El g ∧ act3 g = (act3 adj')ᵀ * ρ x * act3 adj' := by
  have key : ∀ {H : Type} {El : H → Prop} {eqH : H → H → Prop} {mul : H → H → H} {ρ : H → Mat3},
      (∀ adj, normSq adj = 1 → ∃ P C, SO3.subgroup aq ico octa id adj = .ok ⟨H, El, mul, P, C⟩ ∧
        RealisesAs (fun e => normSq e = 1) rotOf El eqH mul (rotOf adj) ρ P C) →
      (∀ adj, O3El adj → ∃ P C, O3.subgroup aq ico octa (.sub false id) adj = .ok ⟨H, El, mul, P, C⟩ ∧
        RealisesAs O3El act3 El eqH mul (act3 adj) ρ P C) →
      ∃ ρ : D.H → Mat3, ConjOf (fun e => normSq e = 1) rotOf (SO3.subgroup aq ico octa id) D ρ ∧
      ∀ adj' : O3.Elem, O3El adj' → ∃ P C, O3.subgroup aq ico octa (.sub false id) adj' = .ok ⟨D.H, D.El, D.mul, P, C⟩ ∧
        ∀ x, D.El x → ∃ g, P x = .ok g ∧ O3El g ∧ act3 g = (act3 adj')ᵀ * ρ x * act3 adj' := by
    intro H El eqH mul ρ h1 h2
    obtain ⟨P, C, h3, -⟩ := h1 adj hadj
    obtain rfl := Except.ok.inj (hD.symm.trans h3)
    refine ⟨ρ, ConjOf.of h1 P C, fun adj' ha => ?_⟩
    obtain ⟨P', C', h4, h5⟩ := h2 adj' ha
    exact ⟨P', C', h4, h5.parent_ok⟩
  rcases id with s | ⟨flip, n⟩ | ⟨a, n⟩
  rotate_left 2
  · exact absurd hD (by simp [SO3.subgroup])
  · by_cases h1 : s = "so3"
    · subst h1
      exact key (fun adj ha => SO3.C75_self haq ico octa ha)
        (fun adj ha => let ⟨P, C, h1, h2, _⟩ := O3.C76_so3 haq ico octa ha; ⟨P, C, h1, h2⟩)
    · by_cases h2 : s = "ico"
      · exact key (fun adj ha => let ⟨P, C, h1, h2, _⟩ := SO3.C75_plato haq ico octa ha s ico (.inl ⟨h2, rfl⟩) hI; ⟨P, C, h1, h2⟩)
          (fun adj ha => let ⟨P, C, h1, h2, _⟩ := O3.C76_plato haq ico octa ha s ico (.inl ⟨h2, rfl⟩) hI; ⟨P, C, h1, h2⟩)
      · by_cases h3 : s = "octa"
        · exact key (fun adj ha => let ⟨P, C, h1, h2, _⟩ := SO3.C75_plato haq ico octa ha s octa (.inr ⟨h3, rfl⟩) hO
                     ⟨P, C, h1, h2⟩)
            (fun adj ha => let ⟨P, C, h1, h2, _⟩ := O3.C76_plato haq ico octa ha s octa (.inr ⟨h3, rfl⟩) hO; ⟨P, C, h1, h2⟩)
        · rw [SO3.subgroup, if_neg h1, if_neg h2, if_neg h3] at hD
          split at hD <;> exact absurd hD (by simp)
  · by_cases hn : n ≤ 0 ∧ n ≠ -1
    · rw [(SO3.C75_rejects (aq := aq) ico octa adj).2.2 flip n hn] at hD
      exact absurd hD (by simp)
    by_cases h1 : n = -1
    · subst h1
      cases flip
      · exact key (fun adj ha => let ⟨P, C, h1, h2, _⟩ := SO3.C75_so2 haq ico octa ha; ⟨P, C, h1, h2⟩)
          (fun adj ha => let ⟨P, C, h1, h2, _⟩ := O3.C76_so2 haq ico octa ha; ⟨P, C, h1, h2⟩)
      · exact key (fun adj ha => let ⟨P, C, h1, h2, _⟩ := SO3.C75_o2 haq ico octa ha; ⟨P, C, h1, h2⟩)
          (fun adj ha => let ⟨P, C, h1, h2, _⟩ := O3.C76_o2 haq ico octa ha; ⟨P, C, h1, h2⟩)
    · obtain ⟨k, rfl⟩ : ∃ k : ℕ, n = k := ⟨n.toNat, by omega⟩
      cases flip
      · exact key (fun adj ha => let ⟨P, C, h1, h2, _⟩ := SO3.C75_cyclic haq ico octa ha k (by omega); ⟨P, C, h1, h2⟩)
          (fun adj ha => let ⟨P, C, h1, h2, _⟩ := O3.C76_cyclic haq ico octa ha k (by omega); ⟨P, C, h1, h2⟩)
      · by_cases hk : k = 1
        · subst hk
          rw [SO3.subgroup, if_neg (by simp), if_neg (by simp), if_neg (by simp), if_neg (by simp)] at hD
          exact absurd hD (by simp)
        · exact key (fun adj ha => let ⟨P, C, h1, h2, _⟩ := SO3.C75_dihedral haq ico octa ha k (by omega); ⟨P, C, h1, h2⟩)
            (fun adj ha => let ⟨P, C, h1, h2, _⟩ := O3.C76_dihedral haq ico octa ha k (by omega); ⟨P, C, h1, h2⟩)

/-- Every id of O(3) denotes conjugates of one set of matrices. -/
theorem O3.conj {aq : UQuat → UQuat} (haq : AsQuat aq) {ico octa : RotGroup} (hI : ico.Lawful) (hO : octa.Lawful)
    {id : O3.Id} {adj : O3.Elem} (hadj : O3El adj) {D : SubData O3.Elem} (hD : O3.subgroup aq ico octa id adj = .ok D) :
    ∃ ρ : D.H → Mat3, ConjOf O3El act3 (O3.subgroup aq ico octa id) D ρ := by
  have key : ∀ {H : Type} {El : H → Prop} {eqH : H → H → Prop} {mul : H → H → H} {ρ : H → Mat3},
      (∀ adj, O3El adj → ∃ P C, O3.subgroup aq ico octa id adj = .ok ⟨H, El, mul, P, C⟩ ∧
        RealisesAs O3El act3 El eqH mul (act3 adj) ρ P C) →
      ∃ ρ : D.H → Mat3, ConjOf O3El act3 (O3.subgroup aq ico octa id) D ρ := by
    intro H El eqH mul ρ h1
    obtain ⟨P, C, h3, -⟩ := h1 adj hadj
    obtain rfl := Except.ok.inj (hD.symm.trans h3)
    exact ⟨ρ, ConjOf.of h1 P C⟩
  rcases id with _ | _ | ⟨i, s | ⟨flip, n⟩ | ⟨a, n⟩⟩ | n | ⟨a, n⟩ | _
  · exact absurd hD (by simp [O3.subgroup])
  · exact absurd hD (by simp [O3.subgroup])
  rotate_left 2
  · exact absurd hD (by cases i <;> simp [O3.subgroup])
  rotate_left 1
  · exact absurd hD (by simp [O3.subgroup])
  · exact absurd hD (by simp [O3.subgroup])
  rotate_left 2
  · by_cases hn : n ≤ 0 ∧ n ≠ -1
    · rw [(O3.C76_rejects (aq := aq) ico octa adj true).2.2.2.2 n hn] at hD
      exact absurd hD (by simp)
    by_cases h1 : n = -1
    · subst h1
      exact key (fun adj ha => let ⟨P, C, h1, h2, _⟩ := O3.C76_cone haq ico octa ha; ⟨P, C, h1, h2⟩)
    · obtain ⟨k, rfl⟩ : ∃ k : ℕ, n = k := ⟨n.toNat, by omega⟩
      by_cases hk : k = 1
      · subst hk
        exact key (fun adj ha => let ⟨P, C, h1, h2, _⟩ := O3.C76_mirror haq ico octa ha; ⟨P, C, h1, h2⟩)
      · exact key (fun adj ha => let ⟨P, C, h1, h2, _⟩ := O3.C76_pyramid haq ico octa ha k (by omega); ⟨P, C, h1, h2⟩)
  · by_cases h1 : s = "so3"
    · subst h1
      cases i
      · exact key (fun adj ha => let ⟨P, C, h1, h2, _⟩ := O3.C76_so3 haq ico octa ha; ⟨P, C, h1, h2⟩)
      · exact key (fun adj ha => let ⟨P, C, h1, h2⟩ := O3.C76_self haq ico octa ha; ⟨P, C, h1, h2⟩)
    · by_cases h2 : s = "ico"
      · cases i
        · exact key (fun adj ha => let ⟨P, C, h1, h2, _⟩ := O3.C76_plato haq ico octa ha s ico (.inl ⟨h2, rfl⟩) hI; ⟨P, C, h1, h2⟩)
        · exact key (fun adj ha => let ⟨P, C, h1, h2, _⟩ := O3.C76_fullplato haq ico octa ha s ico (.inl ⟨h2, rfl⟩) hI
                     ⟨P, C, h1, h2⟩)
      · by_cases h3 : s = "octa"
        · cases i
          · exact key (fun adj ha => let ⟨P, C, h1, h2, _⟩ := O3.C76_plato haq ico octa ha s octa (.inr ⟨h3, rfl⟩) hO
                       ⟨P, C, h1, h2⟩)
          · exact key (fun adj ha => let ⟨P, C, h1, h2, _⟩ := O3.C76_fullplato haq ico octa ha s octa (.inr ⟨h3, rfl⟩) hO
                       ⟨P, C, h1, h2⟩)
        · cases i <;>
          · rw [O3.subgroup, if_neg h1, if_neg h2, if_neg h3] at hD
            split at hD <;> exact absurd hD (by simp)
  · by_cases hn : n ≤ 0 ∧ n ≠ -1
    · rw [(O3.C76_rejects (aq := aq) ico octa adj i).2.2.2.1 flip n hn] at hD
      exact absurd hD (by simp)
    by_cases h1 : n = -1
    · subst h1
      cases flip <;> cases i
      · exact key (fun adj ha => let ⟨P, C, h1, h2, _⟩ := O3.C76_so2 haq ico octa ha; ⟨P, C, h1, h2⟩)
      · exact key (fun adj ha => let ⟨P, C, h1, h2, _⟩ := O3.C76_cylinder haq ico octa ha; ⟨P, C, h1, h2⟩)
      · exact key (fun adj ha => let ⟨P, C, h1, h2, _⟩ := O3.C76_o2 haq ico octa ha; ⟨P, C, h1, h2⟩)
      · exact key (fun adj ha => let ⟨P, C, h1, h2, _⟩ := O3.C76_fullcylinder haq ico octa ha; ⟨P, C, h1, h2⟩)
    · obtain ⟨k, rfl⟩ : ∃ k : ℕ, n = k := ⟨n.toNat, by omega⟩
      cases flip
      · cases i
        · exact key (fun adj ha => let ⟨P, C, h1, h2, _⟩ := O3.C76_cyclic haq ico octa ha k (by omega); ⟨P, C, h1, h2⟩)
        · by_cases hk : k = 1
          · subst hk
            exact key (fun adj ha => let ⟨P, C, h1, h2, _⟩ := O3.C76_inversion ico octa ha; ⟨P, C, h1, h2⟩)
          · exact key (fun adj ha => let ⟨P, C, h1, h2, _⟩ := O3.C76_cylinder_discrete haq ico octa ha k (by omega)
                       ⟨P, C, h1, h2⟩)
      · by_cases hk : k = 1
        · subst hk
          cases i <;>
          · rw [O3.subgroup, if_neg (by simp), if_neg (by simp), if_neg (by simp), if_neg (by simp)] at hD
            exact absurd hD (by simp)
        · cases i
          · exact key (fun adj ha => let ⟨P, C, h1, h2, _⟩ := O3.C76_dihedral haq ico octa ha k (by omega); ⟨P, C, h1, h2⟩)
          · exact key (fun adj ha => let ⟨P, C, h1, h2, _⟩ := O3.C76_fullcylinder_discrete haq ico octa ha k (by omega)
                       ⟨P, C, h1, h2⟩)

theorem SO3.processId_unit {aq : UQuat → UQuat} (haq : AsQuat aq) (id : SO3.Id) {adj : UQuat} (hadj : normSq adj = 1) :
    normSq (SO3.processId aq id adj).2 = 1 := by
  match id with
  | .axis a n =>
    by_cases hn : n = 1
    · subst hn
      obtain ⟨adj', e, h, -⟩ := (SO3.C75_ids haq hadj a 1).2.1
      rw [e]; exact h
    · obtain ⟨adj', e, h, -⟩ := (SO3.C75_ids haq hadj a n).1 hn
      rw [e]; exact h
  | .pair true 1 =>
    obtain ⟨adj', e, h, -⟩ := (SO3.C75_ids haq hadj 0 0).2.2.1
    rw [e]; exact h
  | .str s => exact hadj
  | .pair false n => exact hadj
  | .pair true n =>
    by_cases hn : n = 1
    · subst hn
      obtain ⟨adj', e, h, -⟩ := (SO3.C75_ids haq hadj 0 0).2.2.1
      rw [e]; exact h
    · rw [(SO3.C75_ids haq hadj 0 0).2.2.2 _ (by simp) (by simp [hn])]
      exact hadj

/-- Normalising an id twice changes nothing. -/
theorem SO3.processId_idem {aq : UQuat → UQuat} (id : SO3.Id) (adj adj' : UQuat) :
    SO3.processId aq (SO3.processId aq id adj).1 adj' = ((SO3.processId aq id adj).1, adj') := by
  match id with
  | .str s => rfl
  | .pair false n => rfl
  | .pair true n =>
    by_cases hn : n = 1
    · subst hn; rfl
    · simp only [SO3.processId]
      split <;> simp_all
  | .axis a n =>
    by_cases hn : n = 1
    · subst hn; rfl
    · simp only [SO3.processId]
      split <;> simp_all

theorem O3.processId_flip {aq : UQuat → UQuat} {n : ℤ} (hn : n ≠ 1) (i : Bool) (b : O3.Elem) :
    O3.processId aq (.sub i (.pair true n)) b = (.sub i (.pair true n), b) := by
  simp only [O3.processId]
  split
  · rename_i heq
    split at heq <;> simp_all
  · rename_i heq
    split at heq <;> simp_all
  · split <;> simp_all

theorem O3.processId_el {aq : UQuat → UQuat} (haq : AsQuat aq) (id : O3.Id) {adj : O3.Elem} (hadj : O3El adj) :
    O3El (O3.processId aq id adj).2 := by
  have hz : ∀ t : ℝ, O3El (0, quat 0 0 (sin t) (cos t)) := fun t => ⟨.inl rfl, SO3.unit_z t⟩
  have hy : O3El (0, quat 0 (sin (-π / 4)) 0 (cos (-π / 4))) :=
    ⟨.inl rfl, by rw [SO3.normSq_quat]; nlinarith [sin_sq_add_cos_sq (-π / 4)]⟩
  rcases id with _ | _ | ⟨i, s | ⟨flip, n⟩ | ⟨a, n⟩⟩ | n | ⟨a, n⟩ | _
  · exact hadj
  · exact hadj
  · cases i <;> exact hadj
  · cases flip
    · simp only [O3.processId]
      split
      · exact O3.identity_el
      · simp_all
      · exact hadj
    · by_cases hn : n = 1
      · subst hn
        cases i <;> exact O3.combine_el haq hy hadj
      · rw [O3.processId_flip hn]
        exact hadj
  · have h1 := O3.combine_el haq (O3.inverse_el haq (hz (a / 2 / 2))) hadj
    by_cases hn : n = 1
    · subst hn
      cases i <;> exact O3.combine_el haq hy h1
    · obtain ⟨adj', e, h, -⟩ := (O3.C76_ids haq hadj i a n).2.2.1 hn
      rw [e]; exact h
  · exact hadj
  · exact O3.combine_el haq (hz _) hadj
  · exact hadj

/-- A normalised id is not changed, up to the adjoint element of the inversion, which is not used. -/
theorem O3.processId_idem {aq : UQuat → UQuat} (id : O3.Id) (adj adj' : O3.Elem) :
    (O3.processId aq (O3.processId aq id adj).1 adj').1 = (O3.processId aq id adj).1 ∧
    ((O3.processId aq id adj).1 ≠ .sub true (.pair false 1) →
      (O3.processId aq (O3.processId aq id adj).1 adj').2 = adj') := by
  rcases id with _ | _ | ⟨i, s | ⟨flip, n⟩ | ⟨a, n⟩⟩ | n | ⟨a, n⟩ | _
  · exact ⟨rfl, fun _ => rfl⟩
  · exact ⟨rfl, fun _ => rfl⟩
  · cases i <;> exact ⟨rfl, fun _ => rfl⟩
  · cases flip
    · cases i
      · exact ⟨rfl, fun _ => rfl⟩
      · by_cases hn : n = 1
        · subst hn
          exact ⟨rfl, fun h => absurd rfl h⟩
        · have e : ∀ b, O3.processId aq (.sub true (.pair false n)) b = (.sub true (.pair false n), b) := by
            intro b
            simp only [O3.processId]
            split <;> simp_all
          rw [e, e]
          exact ⟨rfl, fun _ => rfl⟩
    · by_cases hn : n = 1
      · subst hn
        cases i <;> exact ⟨rfl, fun _ => rfl⟩
      · rw [O3.processId_flip hn, O3.processId_flip hn]
        exact ⟨rfl, fun _ => rfl⟩
  · by_cases hn : n = 1
    · subst hn
      cases i <;> exact ⟨rfl, fun _ => rfl⟩
    · have e' : (O3.processId aq (.sub i (.axis a n)) adj).1 = .sub i (.pair true n) := by
        change (O3.processId aq (.sub i (.pair true n)) _).1 = _
        rw [O3.processId_flip hn]
      rw [e', O3.processId_flip hn]
      exact ⟨rfl, fun _ => rfl⟩
  · exact ⟨rfl, fun _ => rfl⟩
  · exact ⟨rfl, fun _ => rfl⟩
  · exact ⟨rfl, fun _ => rfl⟩

end Escnn
