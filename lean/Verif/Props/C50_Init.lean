import Verif.Props.C50_Uniform

/-!
# C50: which types the gated nonlinearities accept; examples
-/

namespace Escnn

variable {B P S G Id C : Type} {El : G → Prop}

namespace GatedNL

/-- **C50** The constructor accepts a list of gates exactly if it gives one entry for each field, every `"gate"` is a trivial field, every other field is marked `"gated"` and supports it, and there are as many gates as
gated fields, at least one. -/
theorem C50_init [DecidableEq Id] {triv : Id} (bias : ℕ → ℝ) (t : FType S (Rep G Id)) (hpos : ∀ r ∈ t.reprs, 0 < r.size) (gs : List String) (drop : Bool) :
    (∃ m, init triv bias t (some gs) drop = .ok m) ↔ gs.length = t.reprs.length ∧
      (∀ (k : ℕ) g r, gs[k]? = some g → t.reprs[k]? = some r → (g = "gate" ∧ r.irreps = [triv] ∧ r.cob ≈ NpMat.eye r.size) ∨ (g = "gated" ∧ "gated" ∈ r.nonlin)) ∧
      gs.count "gate" = gs.count "gated" ∧ gs ≠ [] := by
  constructor
  · rintro ⟨m, hm⟩
    obtain ⟨gs', hgs, F, -, h1, h2⟩ := facts hm
    obtain rfl : gs = gs' := Except.ok.inj hgs
    refine ⟨F.len, fun k g r hg hr => ?_, F.count, fun e => ?_⟩
    · rcases F.kind k g hg with rfl | rfl
      · have := h1 k r hg hr
        simp only [Rep.isTrivial, decide_eq_true_eq] at this
        exact .inl ⟨rfl, this⟩
      · exact .inr ⟨rfl, h2 k r hg hr⟩
    · have h := F.some_gate
      rw [F.labels, e] at h
      simp [gateLabels] at h
  · rintro ⟨hlen, hck, hcount, hne⟩
    have hchk : ∃ us, mapE (checkField triv) (gs.zip t.reprs) = .ok us := by
      refine ⟨(gs.zip t.reprs).map fun _ => (), mapE_ok_iff.2 ?_⟩
      rw [List.forall₂_map_right_iff, List.forall₂_same]
      rintro ⟨g, r⟩ hgr
      obtain ⟨k, hk⟩ := List.mem_iff_getElem?.1 hgr
      obtain ⟨h1, h2⟩ := List.getElem?_zip_eq_some.1 hk
      rcases hck k g r h1 h2 with ⟨rfl, h⟩ | ⟨rfl, h⟩
      · have : r.isTrivial triv = true := by
          simp only [Rep.isTrivial, decide_eq_true_eq]
          exact h
        rw [checkField, if_pos rfl, if_pos this]
      · rw [checkField, if_neg (by simp), if_pos rfl, if_pos h]
    obtain ⟨us, hus⟩ := hchk
    have hkind : ∀ g ∈ gs, g = "gate" ∨ g = "gated" := by
      intro g hg
      obtain ⟨k, hk⟩ := List.mem_iff_getElem?.1 hg
      have hkl : k < t.reprs.length := by rw [← hlen]; exact (List.getElem?_eq_some_iff.1 hk).1
      rcases hck k g _ hk (List.getElem?_eq_getElem hkl) with h | h
      · exact .inl h.1
      · exact .inr h.1
    have hboth : "gate" ∈ gs ∧ "gated" ∈ gs := by
      obtain ⟨g, hg⟩ := List.exists_mem_of_ne_nil gs hne
      have h1 : 0 < gs.count "gate" ↔ "gate" ∈ gs := List.count_pos_iff
      have h2 : 0 < gs.count "gated" ↔ "gated" ∈ gs := List.count_pos_iff
      rcases hkind g hg with rfl | rfl
      · exact ⟨hg, h2.1 (hcount ▸ h1.2 hg)⟩
      · exact ⟨h1.1 (hcount ▸ h2.2 hg), hg⟩
    have hll : (gateLabels Rep.size gs t.reprs).length = t.reprs.length := by simp [gateLabels, hlen]
    obtain ⟨tabs, htabs, -⟩ := gatedTables_spec (sz := Rep.size) hpos (gateLabels Rep.size gs t.reprs) hll drop
    have hout : ∃ out, gatedOut t gs drop = .ok out := by
      unfold gatedOut
      cases drop with
      | false => exact ⟨t, if_neg (by simp)⟩
      | true =>
        rw [if_pos rfl]
        obtain ⟨k, hk⟩ := List.mem_iff_getElem?.1 hboth.2
        have hI : ∀ i ∈ (List.range gs.length).filter fun i => gs[i]? = some "gated", i < t.reprs.length := fun i hi => by
          rw [← hlen]; exact List.mem_range.1 (List.mem_filter.1 hi).1
        refine ⟨⟨t.gspace, ((List.range gs.length).filter fun i => gs[i]? = some "gated").filterMap fun i => t.reprs[i]?⟩, indexSelect_nat.2 ⟨?_, rfl, ?_⟩⟩
        · exact List.ne_nil_of_mem (List.mem_filter.2 ⟨List.mem_range.2 (List.getElem?_eq_some_iff.1 hk).1, by simpa using hk⟩)
        · generalize (List.range gs.length).filter (fun i => decide (gs[i]? = some "gated")) = I at hI
          induction I with
          | nil => exact List.Forall₂.nil
          | cons i I ih =>
            have hi := hI i (by simp)
            simp only [List.filterMap_cons, List.getElem?_eq_getElem hi]
            exact List.Forall₂.cons (List.getElem?_eq_getElem hi) (ih fun j hj => hI j (by simp [hj]))
    obtain ⟨out, hout⟩ := hout
    have hnone : none ∈ gateLabels Rep.size gs t.reprs := by
      obtain ⟨k, hk⟩ := List.mem_iff_getElem?.1 hboth.1
      have hkl : k < t.reprs.length := by rw [← hlen]; exact (List.getElem?_eq_some_iff.1 hk).1
      have := gateLabels_get (lab := Rep.size) hk (List.getElem?_eq_getElem hkl)
      rw [if_pos rfl] at this
      exact List.mem_of_getElem? this
    unfold init
    simp only [defaultGates, bind, Except.bind]
    rw [if_neg (show ¬ gs.length ≠ t.len from not_not.2 hlen)]
    simp only [hus]
    rw [if_neg (show ¬ gs.count "gate" ≠ gs.count "gated" from not_not.2 hcount)]
    simp only [hout, htabs]
    exact ⟨_, if_pos hnone⟩

/-- **C50** Without a list of gates, the first half of the fields are the gates of the second half; a type with an odd number of fields is rejected. -/
theorem C50_default [DecidableEq Id] {triv : Id} (bias : ℕ → ℝ) (t : FType S (Rep G Id)) (drop : Bool) (n : ℕ) :
    (t.reprs.length = 2 * n → init triv bias t none drop = init triv bias t (some (List.replicate n "gate" ++ List.replicate n "gated")) drop) ∧
      (t.reprs.length = 2 * n + 1 → init triv bias t none drop = .error .assertion) := by
  constructor <;> intro h
  · have h1 : t.len = 2 * n := h
    unfold init
    simp only [defaultGates, h1, Nat.mul_mod_right, if_true, bind, Except.bind, Nat.mul_div_cancel_left n (show 0 < 2 by decide)]
  · have h1 : t.len = 2 * n + 1 := h
    unfold init
    rw [show defaultGates t.len none = .error .assertion by rw [h1, defaultGates, if_neg (by omega)]]
    rfl

/-- A trivial gate and a field of type sign. -/
example (bias : ℕ → ℝ) (drop : Bool) : (∀ r ∈ (⟨(), [boolRep false, boolRep true]⟩ : FType Unit (Rep Bool Bool)).reprs, r.WF boolTable fun _ => True) ∧
    ∃ m, init false bias (⟨(), [boolRep false, boolRep true]⟩ : FType Unit (Rep Bool Bool)) (some ["gate", "gated"]) drop = .ok m := by
  have hwf : ∀ r ∈ (⟨(), [boolRep false, boolRep true]⟩ : FType Unit (Rep Bool Bool)).reprs, r.WF boolTable fun _ => True := by
    intro r hr
    simp only [List.mem_cons, List.not_mem_nil, or_false] at hr
    rcases hr with rfl | rfl <;> exact boolRep_wf _
  refine ⟨hwf, (C50_init bias _ (fun r hr => (hwf r hr).pos) _ drop).2 ⟨rfl, ?_, rfl, by simp⟩⟩
  intro k g r hg hr
  match k with
  | 0 =>
    cases hg; cases hr
    exact .inl ⟨rfl, rfl, NpMat.Eqv.refl _⟩
  | 1 =>
    cases hg; cases hr
    exact .inr ⟨rfl, by simp [boolRep, irrepRep]⟩
  | k + 2 => cases hg

end GatedNL

namespace GatedNL2

/-- A trivial gate for a field of type sign. -/
example (bias : ℕ → ℝ) : ∃ m, init false bias (⟨(), [boolRep false]⟩ : FType Unit (Rep Bool Bool)) (⟨(), [boolRep true]⟩ : FType Unit (Rep Bool Bool)) = .ok m := by
  obtain ⟨d, hd, -⟩ := runTable_spec (sz := Rep.size) (⟨(), [boolRep true]⟩ : FType Unit (Rep Bool Bool)) (by intro r hr; rw [List.mem_singleton.1 hr]; exact one_pos) [(boolRep true).size] rfl
  rw [init, if_neg (by simp), if_neg ?_, if_neg ?_, if_neg (by decide)]
  · simp only [List.map_cons, List.map_nil, bind, Except.bind, hd]
    exact ⟨_, rfl⟩
  · rw [not_not]
    intro r hr
    rw [List.mem_singleton.1 hr]
    simp [boolRep, irrepRep]
  · rw [not_not]
    intro r hr
    rw [List.mem_singleton.1 hr]
    simp only [Rep.isTrivial, decide_eq_true_eq]
    exact ⟨rfl, NpMat.Eqv.refl _⟩

end GatedNL2

namespace GatedUniform

/-- One field, the sum of a trivial gate and of the sign representation. -/
example (gate : ℝ → ℝ) (bias : ℕ → ℕ → ℝ) : ∃ m, init boolTable [] boolRep false gate bias (⟨(), [boolSum [false, true]]⟩ : FType Unit (Rep Bool Bool)) = .ok m := by
  obtain ⟨r, hr, -⟩ := C14_directsum_plain boolTable_valid [] [boolRep true] (by simp) (by intro r hr; rw [List.mem_singleton.1 hr]; exact boolRep_wf _)
    ("_".intercalate ([boolRep true].map fun r => "[" ++ r.name ++ "]")) (by simp)
  have hr' : directsum boolTable [] [boolRep true] none none = .ok r := hr
  unfold init
  simp only
  rw [if_neg (by simp), if_neg (by simp [boolSum]), if_neg (show ¬ ¬ (boolSum [false, true]).cob ≈ NpMat.eye (boolSum [false, true]).size from not_not.2 (NpMat.Eqv.refl _)), if_neg (by simp [boolSum])]
  have e : ((boolSum [false, true]).irreps.drop ((boolSum [false, true]).irreps.length / 2)).map boolRep = [boolRep true] := rfl
  rw [e, hr']
  exact ⟨_, rfl⟩

end GatedUniform

end Escnn
