import Verif.Model.StoredFilters
import Verif.Props.C65_KernelsR2

/-!
# C65 for the whole group O(2)
-/

namespace Escnn

open NpMat Real

/-- **C65** for O(2) and every axis: every kernel of `kernels_O2_act_R2` is steerable; a rotation turns the plane, and the reflection `(1, 0)` mirrors it at the line with the slope `axis`. -/
theorem C65_o2 (K : KGroup O2.Elem (ℕ × ℕ)) (hK : K.T = O2.table) (rin rout : Rep O2.Elem (ℕ × ℕ)) (radii sigma : List ℝ) (L : ℕ) (axis : ℝ)
    (filter : Option (ℕ × ℕ → ℕ → Bool)) (junk : ℕ → ℝ) (hE : EndoValid K.T K.typ O2.IsElement) (hin : rin.WF O2.table O2.IsElement) (hout : rout.WF O2.table O2.IsElement)
    (hcg : ∀ m ∈ rin.irreps, ∀ n ∈ rout.irreps, ((K.tensor m n).map Prod.fst).Nodup ∧ ∀ p ∈ K.tensor m n, O2.table.ok p.1 = true ∧
      (K.cg n m p.1).mult = p.2 ∧ ∀ g, O2.IsElement g → Intertwines (O2.table.mat n g) (O2.table.mat m g) (O2.table.mat p.1 g) (K.cg n m p.1))
    (hlen : radii.length = sigma.length) (hr : ∀ r ∈ radii, 0 ≤ r) (hs : ∀ s ∈ sigma, 0 < s) :
    kernelsO2 K rin rout radii sigma L axis filter junk = .error .emptyBasis ∨
    ∃ s F, ∃ act : O2.Elem → ℝ × ℝ → ℝ × ℝ, kernelsO2 K rin rout radii sigma L axis filter junk = .ok (s, F) ∧ s.rows = rout.size ∧ s.cols = rin.size ∧
      (∀ θ r φ, O2.IsElement (0, θ) → act (0, θ) (r * cos φ, r * sin φ) = (r * cos (φ + θ), r * sin (φ + θ))) ∧
      (∀ θ r φ, O2.IsElement (1, θ) → act (1, θ) (r * cos φ, r * sin φ) = (r * cos ((2 * axis - φ) + θ), r * sin ((2 * axis - φ) + θ))) ∧
      ∀ e < s.dim, SteerableKernel O2.IsElement act rin.mat rout.mat fun x => SKB.sample O2.table.size F s x e := by
  unfold kernelsO2
  rw [if_neg (not_not.2 ⟨hlen, hr, hs⟩)]
  by_cases h0 : radii = []
  · rw [if_pos h0]; exact .inl rfl
  rw [if_neg h0]
  cases hb : Shells.init ShellKind.circ O2.table.size L radii.length filter with
  | error e =>
    left
    unfold Shells.init at hb
    simp only at hb
    split_ifs at hb
    simp only [bind, Except.bind]
    rw [← Except.error.inj hb]
  | ok b =>
    simp only [bind, Except.bind]
    obtain ⟨R, hR, hst⟩ := C39_steerable [] "StandardAction" (by simp) axis junk radii sigma L radii.length filter b hb
    obtain ⟨R', hR', -, -, hrot, hrefl⟩ := C39_action [] "StandardAction" (by simp) axis
    obtain rfl : R = R' := Except.ok.inj (hR.symm.trans hR')
    have hjs := (Shells.init_spec ShellKind.circ_ok hb).2.2.2.1
    have hF : ((circularBasis junk b radii sigma axis).js.map Prod.fst).Nodup := by
      show (b.js.map Prod.fst).Nodup
      rw [hjs, List.map_map]
      exact List.Nodup.map_on (fun x _ y _ e => congrArg Prod.snd (show ShellKind.circ.id x = ShellKind.circ.id y from e)) List.nodup_range
    have hFok : ∀ e ∈ (circularBasis junk b radii sigma axis).js, O2.table.ok e.1 = true := by
      intro e he
      have he' : e ∈ b.js := he
      rw [hjs] at he'
      obtain ⟨j, -, rfl⟩ := List.mem_map.1 he'
      exact (circ_id_ok j).1
    obtain ⟨T, typ, tensor, cg⟩ := K
    simp only at hK
    subst hK
    rcases SKB.C38_wigner_eckart ⟨O2.table, typ, tensor, cg⟩ (circularBasis junk b radii sigma axis) rin rout (0, 0) O2.table_valid hE hin hout hcg hF hFok hst with h | ⟨s, h1, h2, h3, -, h5⟩
    · rw [h.1]; exact .inl rfl
    · rw [h1]
      exact .inr ⟨s, _, fun g p => moveBy (R.mat g) p, rfl, h2, h3, hrot, hrefl, h5⟩

/-- Clebsch-Gordan coefficients of O(2) for the pair of the trivial irrep and the irrep `(1, 1)`. -/
noncomputable def demoO2 : KGroup O2.Elem (ℕ × ℕ) :=
  ⟨O2.table, fun _ => .R, fun m n => if m = (0, 0) ∧ n = (1, 1) then [((1, 1), 1)] else [], fun _ _ _ => ⟨1, fun p _ _ i => if p = i then 1 else 0⟩⟩

theorem demoO2_cg : ∀ m ∈ [((0, 0) : ℕ × ℕ)], ∀ n ∈ [((1, 1) : ℕ × ℕ)], ((demoO2.tensor m n).map Prod.fst).Nodup ∧ ∀ p ∈ demoO2.tensor m n, O2.table.ok p.1 = true ∧
      (demoO2.cg n m p.1).mult = p.2 ∧ ∀ g, O2.IsElement g → Intertwines (O2.table.mat n g) (O2.table.mat m g) (O2.table.mat p.1 g) (demoO2.cg n m p.1) := by
  intro m hm n hn
  obtain rfl := List.mem_singleton.1 hm
  obtain rfl := List.mem_singleton.1 hn
  refine ⟨by simp [demoO2], fun p hp => ?_⟩
  obtain rfl : p = ((1, 1), 1) := by simpa [demoO2] using hp
  refine ⟨rfl, rfl, fun g _ a b s c ha hb hs hc => ?_⟩
  have ha' : a < 2 := ha
  have hb' : b < 1 := hb
  have hc' : c < 2 := hc
  obtain rfl : b = 0 := by omega
  show ∑ a' ∈ Finset.range 2, ∑ b' ∈ Finset.range 1, (O2.irrepMat 1 1 g).get a a' * (O2.irrepMat 0 0 g).get 0 b' * (if a' = c then 1 else 0) =
    ∑ c' ∈ Finset.range 2, (if a = c' then 1 else 0) * (O2.irrepMat 1 1 g).get c' c
  interval_cases a <;> interval_cases c <;> simp [Finset.sum_range_succ, O2.irrepMat, eye]

/-- Both representations are well formed, the coefficients intertwine: the theorem applies to them. -/
example (axis : ℝ) (junk : ℕ → ℝ) := C65_o2 demoO2 rfl (irrepRep O2.table "irrep_0,0" ∅ (0, 0)) (irrepRep O2.table "irrep_1,1" ∅ (1, 1)) [1] [1] 1 axis none junk O2.C18_o2
  (irrepRep_wf O2.table_valid rfl (by decide) _ _) (irrepRep_wf O2.table_valid rfl (by decide) _ _) demoO2_cg rfl (by simp) (by simp)

end Escnn
