import Verif.Lemmas.MatKinds
import Verif.Spec.Invariants
import Verif.Lemmas.BlockRows
import Verif.Props.C36_RestrictedWE

/-!
# Small representations of the group with two elements (`Bool`, with exclusive or), used in examples
-/

namespace Escnn

/-- The trivial representation. -/
noncomputable def trivRep : Rep Bool Unit := ⟨"irrep_0", [()], NpMat.eye 1, NpMat.eye 1, fun _ => NpMat.eye 1, {"pointwise", "norm", "gate", "gated", "concatenated"}⟩
/-- The sign representation. -/
noncomputable def signRep : Rep Bool Unit := ⟨"irrep_1", [()], NpMat.eye 1, NpMat.eye 1, fun g => ⟨1, 1, fun _ _ => if g then -1 else 1⟩, {"norm", "gated", "concatenated"}⟩
/-- The regular representation. -/
noncomputable def swapRep : Rep Bool Unit := ⟨"regular", [(), ()], NpMat.eye 2, NpMat.eye 2, fun g => ⟨2, 2, fun i j => if g then (if i = j then 0 else 1) else (if i = j then 1 else 0)⟩, {"pointwise", "norm", "gated"}⟩

theorem trivRep_perm (g : Bool) : IsPermMat trivRep.size (trivRep.mat g) := by
  change IsPermMat 1 (trivRep.mat g)
  refine ⟨rfl, rfl, 1, fun i j => ?_⟩
  obtain rfl := Subsingleton.elim i j
  simp [trivRep, NpMat.eye]

theorem swapRep_perm (g : Bool) : IsPermMat swapRep.size (swapRep.mat g) := by
  change IsPermMat 2 (swapRep.mat g)
  refine ⟨rfl, rfl, if g then Equiv.swap 0 1 else 1, fun i j => ?_⟩
  cases g <;> fin_cases i <;> fin_cases j <;> simp [swapRep]

theorem signRep_signed (g : Bool) : IsSignedPermMat signRep.size (signRep.mat g) := by
  change IsSignedPermMat 1 (signRep.mat g)
  refine ⟨rfl, rfl, 1, fun _ => if g then -1 else 1, fun j => by cases g <;> simp, fun i j => ?_⟩
  obtain rfl := Subsingleton.elim i j
  simp [signRep]

/-! ### The table of the irreps of the group with two elements -/

/-- The trivial irrep `false` and the sign irrep `true`. -/
noncomputable def boolTable : IrrepTable Bool Bool := ⟨fun _ => true, fun _ => 1, fun i g => ⟨1, 1, fun _ _ => if i && g then -1 else 1⟩⟩

theorem boolTable_valid : boolTable.Valid (fun _ => True) Bool.xor false := by
  intro i _
  refine ⟨fun g _ => rfl, fun g _ => rfl, ?_, ?_, ?_⟩
  · refine ⟨rfl, rfl, fun a b ha hb => ?_⟩
    have ha : a < 1 := ha
    have hb : b < 1 := hb
    obtain rfl : a = b := by omega
    simp [boolTable, NpMat.eye]
  · intro g h _ _
    refine ⟨rfl, rfl, fun a b _ _ => ?_⟩
    cases i <;> cases g <;> cases h <;> simp [boolTable, NpMat.mul]
  · intro g _
    refine ⟨rfl, ?_, ?_⟩ <;>
    · refine ⟨rfl, rfl, fun a b ha hb => ?_⟩
      have ha : a < 1 := ha
      have hb : b < 1 := hb
      obtain rfl : a = b := by omega
      cases i <;> cases g <;> simp [boolTable, NpMat.mul, NpMat.transpose, NpMat.eye]

theorem boolTable_triv : boolTable.IsTrivial (fun _ => True) false := ⟨rfl, rfl, fun g _ => by simp [boolTable]⟩

/-- An irrep as a representation. -/
noncomputable def boolRep (i : Bool) : Rep Bool Bool := irrepRep boolTable (if i then "irrep_1" else "irrep_0") (if i then {"norm", "gated", "concatenated"} else {"pointwise", "norm", "gate", "gated", "concatenated"}) i

theorem boolRep_wf (i : Bool) : (boolRep i).WF boolTable (fun _ => True) := irrepRep_wf boolTable_valid rfl one_pos _ _

theorem boolRep_size (i : Bool) : (boolRep i).size = 1 := rfl

/-- A sum of irreps, without a change of basis. -/
noncomputable def boolSum (L : List Bool) : Rep Bool Bool :=
  ⟨"sum", L, NpMat.eye L.length, NpMat.eye L.length, fun g => NpMat.blockDiag (L.map fun i => boolTable.mat i g), {"norm", "gated", "concatenated"}⟩

theorem boolSum_size (L : List Bool) : (boolSum L).size = L.length := rfl

theorem boolSum_wf {L : List Bool} (h : L ≠ []) : (boolSum L).WF boolTable (fun _ => True) := by
  have hs : (L.map boolTable.size).sum = L.length := by
    have : boolTable.size = fun _ => 1 := rfl
    simp [this]
  refine ⟨by rw [boolSum_size]; exact List.length_pos_of_ne_nil h, NpMat.IsInv.eye _, fun _ _ => rfl, hs, fun g hg => ?_⟩
  have hb := blockDiag_map_size (rs := L) (ρ := fun i => boolTable.mat i g) (sz := boolTable.size) (fun i _ => ⟨rfl, rfl⟩)
  exact (NpMat.conjBy_eye_left (hb.1.trans hs) (hb.2.trans hs)).symm

end Escnn
