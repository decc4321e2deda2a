import Verif.Lemmas.Fields
import Verif.Props.C27_Arith

/-!
# Selections of fields and the action on the fibres
-/

namespace Escnn

open NpMat

variable {B P S R C G Id : Type} {T : IrrepTable G Id} {El : G → Prop} {op : G → G → G} {one : G} {sz : R → ℕ}

/-- Geometric tensors with equal types, coordinates and entries. -/
def GTensor.Eqv (x y : GTensor B P S R C) : Prop := x.type = y.type ∧ x.coords = y.coords ∧ x.tensor ≈ y.tensor

instance : HasEquiv (GTensor B P S R C) := ⟨GTensor.Eqv⟩

@[refl] theorem GTensor.Eqv.refl (x : GTensor B P S R C) : x ≈ x := ⟨rfl, rfl, FTensor.Eqv.refl _⟩
@[symm] theorem GTensor.Eqv.symm {x y : GTensor B P S R C} (h : x ≈ y) : y ≈ x := ⟨h.1.symm, h.2.1.symm, h.2.2.symm⟩
@[trans] theorem GTensor.Eqv.trans {x y z : GTensor B P S R C} (h : x ≈ y) (h' : y ≈ z) : x ≈ z :=
  ⟨h.1.trans h'.1, h.2.1.trans h'.2.1, h.2.2.trans h'.2.2⟩

namespace IsSelection

variable {x x' y y' z : GTensor B P S R C} {I J : List ℕ}

theorem mem_of_mem (h : IsSelection sz x I y) {r : R} (hr : r ∈ y.type.reprs) : ∃ k i : ℕ, y.type.reprs[k]? = some r ∧ I[k]? = some i ∧ x.type.reprs[i]? = some r := by
  obtain ⟨k, hk⟩ := List.mem_iff_getElem?.1 hr
  have hk' : k < I.length := by rw [← h.len]; exact (List.getElem?_eq_some_iff.1 hk).1
  refine ⟨k, I[k], hk, List.getElem?_eq_getElem hk', ?_⟩
  rw [← h.repr k _ (List.getElem?_eq_getElem hk'), hk]

theorem congr_left (h : IsSelection sz x I y) (hx : x.tensor.chans = (x.type.reprs.map sz).sum) (hxx : x ≈ x') : IsSelection sz x' I y := by
  obtain ⟨e1, e2, e3⟩ := hxx
  refine ⟨by rw [h.gspace, e1], by rw [h.coords, e2], h.len, by rw [← e1]; exact h.mem, by rw [← e1]; exact h.repr, h.chans, ?_⟩
  intro k i r hk hr b o p ho
  rw [← e1] at hr ⊢
  rw [h.data k i r hk hr b o p ho]
  refine e3.2 b _ p ?_
  rw [hx]
  exact chanOffset_lt hr ho

theorem congr_right (h : IsSelection sz x I y) (hyy : y ≈ y') : IsSelection sz x I y' := by
  obtain ⟨e1, e2, e3⟩ := hyy
  refine ⟨by rw [← e1, h.gspace], by rw [← e2, h.coords], by rw [← e1]; exact h.len, h.mem, by rw [← e1]; exact h.repr,
    by rw [← e3.1, ← e1]; exact h.chans, ?_⟩
  intro k i r hk hr b o p ho
  rw [← h.data k i r hk hr b o p ho, ← e1]
  symm
  refine e3.2 b _ p ?_
  rw [h.chans]
  exact chanOffset_lt (by rw [h.repr k i hk, hr]) ho

theorem unique (h : IsSelection sz x I y) (h' : IsSelection sz x I y') : y ≈ y' := by
  have hr : y.type.reprs = y'.type.reprs := by
    refine List.ext_getElem? fun k => ?_
    by_cases hk : k < I.length
    · have e := List.getElem?_eq_getElem hk
      rw [h.repr k _ e, h'.repr k _ e]
    · rw [List.getElem?_eq_none (by rw [h.len]; omega), List.getElem?_eq_none (by rw [h'.len]; omega)]
  have ht : y.type = y'.type := by
    have e := h.gspace.trans h'.gspace.symm
    cases hy : y.type; cases hy' : y'.type
    rw [hy, hy'] at e hr
    simp_all
  refine ⟨ht, h.coords.trans h'.coords.symm, by rw [h.chans, h'.chans, hr], fun b c p hc => ?_⟩
  rw [h.chans] at hc
  obtain ⟨k, r, o, h1, h2, rfl⟩ := exists_field hc
  have hk' : k < I.length := by rw [← h.len]; exact (List.getElem?_eq_some_iff.1 h1).1
  have e := List.getElem?_eq_getElem hk'
  have hx : x.type.reprs[I[k]]? = some r := by rw [← h.repr k _ e, h1]
  rw [h.data k _ r e hx b o p h2, hr, h'.data k _ r e hx b o p h2]

/-- A selection of a selection. -/
theorem comp (h : IsSelection sz x I y) (h' : IsSelection sz y J z) : IsSelection sz x (J.map fun j => I.getD j 0) z := by
  have key : ∀ k i : ℕ, (J.map fun j => I.getD j 0)[k]? = some i → ∃ j : ℕ, J[k]? = some j ∧ I[j]? = some i := by
    intro k i hk
    rw [List.getElem?_map, Option.map_eq_some_iff] at hk
    obtain ⟨j, hj, hi⟩ := hk
    have hjy := h'.mem j (List.mem_of_getElem? hj)
    rw [h.len] at hjy
    rw [List.getD_eq_getElem _ _ hjy] at hi
    exact ⟨j, hj, by rw [← hi]; exact List.getElem?_eq_getElem hjy⟩
  refine ⟨h'.gspace.trans h.gspace, h'.coords.trans h.coords, by rw [h'.len]; simp, ?_, ?_, h'.chans, ?_⟩
  · intro i hi
    obtain ⟨k, hk⟩ := List.mem_iff_getElem?.1 hi
    obtain ⟨j, -, hj⟩ := key k i hk
    exact h.mem i (List.mem_of_getElem? hj)
  · intro k i hk
    obtain ⟨j, h1, h2⟩ := key k i hk
    rw [h'.repr k j h1, h.repr j i h2]
  · intro k i r hk hr b o p ho
    obtain ⟨j, h1, h2⟩ := key k i hk
    rw [h'.data k j r h1 (by rw [h.repr j i h2, hr]) b o p ho, h.data j i r h2 hr b o p ho]

/-- Selections are preserved by every operation which acts in the same way on every channel. -/
theorem mapP {P' : Type} (h : IsSelection sz x I y) (F : (P → ℝ) → (P' → ℝ)) :
    IsSelection sz (⟨⟨x.tensor.chans, fun b c => F (x.tensor.get b c)⟩, x.type, x.coords⟩ : GTensor B P' S R C) I
      ⟨⟨y.tensor.chans, fun b c => F (y.tensor.get b c)⟩, y.type, y.coords⟩ := by
  refine ⟨h.gspace, h.coords, h.len, h.mem, h.repr, h.chans, fun k i r hk hr b o p ho => ?_⟩
  simp only
  have : y.tensor.get b (chanOffset sz y.type.reprs k + o) = x.tensor.get b (chanOffset sz x.type.reprs i + o) :=
    funext fun p => h.data k i r hk hr b o p ho
  rw [this]

end IsSelection

section action

variable {x x' y y' : GTensor B P S (Rep G Id) C} {I : List ℕ}

theorem IsSelection.wf (h : IsSelection Rep.size x I y) (hx : x.WF T El) : y.WF T El := by
  refine ⟨by rw [h.chans, FType.size_eq], fun r hr => ?_⟩
  obtain ⟨k, i, -, -, h3⟩ := h.mem_of_mem hr
  exact hx.reps r (List.mem_of_getElem? h3)

/-- Selections commute with the action on the fibres. -/
theorem IsSelection.transform (hT : T.Valid El op one) (hx : x.WF T El) (h : IsSelection Rep.size x I y) {g : G} (hg : El g) :
    ∃ x' y', x.transformFibers g = .ok x' ∧ y.transformFibers g = .ok y' ∧ IsSelection Rep.size x' I y' := by
  have hy := h.wf hx
  refine ⟨_, _, GTensor.transformFibers_ok hT hx hg, GTensor.transformFibers_ok hT hy hg, h.gspace, h.coords, h.len, h.mem, h.repr, ?_, ?_⟩
  · simp only [chanMul]
    rw [(fiberRep_shape hy.reps hT hg).1, FType.size_eq]
  · intro k i r hk hr b o p ho
    have hkr : y.type.reprs[k]? = some r := by rw [h.repr k i hk]; exact hr
    have e1 := ((C25_fieldwise (B := B) (P := P) hT y.type hy.reps y.tensor g hg).2 _
      (matChannels_ok ((fiberRep_shape hy.reps hT hg).2.trans hy.chans.symm))).2 k r _ hkr rfl b o p ho
    have e2 := ((C25_fieldwise (B := B) (P := P) hT x.type hx.reps x.tensor g hg).2 _
      (matChannels_ok ((fiberRep_shape hx.reps hT hg).2.trans hx.chans.symm))).2 i r _ hr rfl b o p ho
    refine e1.trans (Eq.trans (Finset.sum_congr rfl fun j hj => ?_) e2.symm)
    rw [Finset.mem_range] at hj
    congr 1
    exact h.data k i r hk hr b j p hj

/-- Acting on tensors whose types are equal in the sense of the library. -/
theorem GTensor.transform_congr (hT : T.Valid El op one) (hx : x.WF T El) (hy : y.WF T El) (ht : x.type.PyEq Rep.PyEq y.type)
    (hc : x.coords = y.coords) (hd : x.tensor ≈ y.tensor) {g : G} (hg : El g) :
    ∃ x' y', x.transformFibers g = .ok x' ∧ y.transformFibers g = .ok y' ∧ x'.type = x.type ∧ y'.type = y.type ∧ x'.coords = y'.coords ∧
      x'.tensor ≈ y'.tensor :=
  ⟨_, _, GTensor.transformFibers_ok hT hx hg, GTensor.transformFibers_ok hT hy hg, rfl, rfl, hc,
    chanMul_congr (ht.fiberRep hx.reps hy.reps hT hg) hd ((fiberRep_shape hx.reps hT hg).2.trans hx.chans.symm)⟩

theorem Rep.PyEq.refl (r : Rep G Id) : r.PyEq r := ⟨rfl, Eqv.refl _, rfl, rfl⟩
theorem Rep.PyEq.symm {r r' : Rep G Id} (h : r.PyEq r') : r'.PyEq r := ⟨h.1.symm, h.2.1.symm, h.2.2.1.symm, h.2.2.2.symm⟩
theorem Rep.PyEq.trans {r r' r'' : Rep G Id} (h : r.PyEq r') (h' : r'.PyEq r'') : r.PyEq r'' :=
  ⟨h.1.trans h'.1, h.2.1.trans h'.2.1, h.2.2.1.trans h'.2.2.1, h.2.2.2.trans h'.2.2.2⟩

theorem FType.PyEq.refl (t : FType S (Rep G Id)) : t.PyEq Rep.PyEq t := ⟨rfl, List.forall₂_same.2 fun r _ => Rep.PyEq.refl r⟩
theorem FType.PyEq.symm {t t' : FType S (Rep G Id)} (h : t.PyEq Rep.PyEq t') : t'.PyEq Rep.PyEq t :=
  ⟨h.1.symm, (h.2.flip).imp fun _ _ h => Rep.PyEq.symm h⟩

end action

end Escnn
