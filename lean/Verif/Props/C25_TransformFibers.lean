import Verif.Lemmas.FTensor
import Verif.Props.C14_DirectSum
import Verif.Props.C23_FieldType

/-!
# C25: the action on the fibres
-/

namespace Escnn

open NpMat

variable {B P G Id S : Type} {T : IrrepTable G Id} {El : G → Prop} {op : G → G → G} {one : G}

theorem fiberRep_shape {t : FType S (Rep G Id)} (hwf : ∀ r ∈ t.reprs, r.WF T El) (hT : T.Valid El op one) {g : G} (hg : El g) :
    (t.fiberRep g).rows = t.size Rep.size ∧ (t.fiberRep g).cols = t.size Rep.size := by
  rw [FType.size_eq, FType.fiberRep, blockDiag_rows, blockDiag_cols, List.map_map, List.map_map]
  refine ⟨congrArg _ (List.map_congr_left fun r hr => (hwf r hr).rows hg), congrArg _ (List.map_congr_left fun r hr => (hwf r hr).cols hg)⟩

/-- **C25** `transform_fibers` accepts exactly the tensors with `size` channels, and transforms every field by its own
representation: field `k` occupies the channels from the sum `s` of the sizes of the fields before it. -/
theorem C25_fieldwise (hT : T.Valid El op one) (t : FType S (Rep G Id)) (hwf : ∀ r ∈ t.reprs, r.WF T El) (x : FTensor B P) (g : G) (hg : El g) :
    ((∃ y, t.transformFibers x g = .ok y) ↔ x.chans = t.size Rep.size) ∧
    ∀ y, t.transformFibers x g = .ok y → y.chans = x.chans ∧
      ∀ (k : ℕ) (r : Rep G Id) (s : ℕ), t.reprs[k]? = some r → s = ((t.reprs.take k).map Rep.size).sum →
        ∀ b o p, o < r.size → y.get b (s + o) p = ∑ j ∈ Finset.range r.size, (r.mat g).get o j * x.get b (s + j) p := by
  obtain ⟨hr, hc⟩ := fiberRep_shape hwf hT hg
  constructor
  · constructor
    · rintro ⟨y, hy⟩
      rw [← (matChannels_iff.1 hy).1, hc]
    · intro h
      exact ⟨_, matChannels_ok (hc.trans h.symm)⟩
  · intro y hy
    obtain ⟨h1, rfl⟩ := matChannels_iff.1 hy
    refine ⟨hr.trans (hc.symm.trans h1), fun k r s hk hs b o p ho => ?_⟩
    obtain ⟨hk', rfl⟩ := List.getElem?_eq_some_iff.1 hk
    have hw := hwf _ (List.getElem_mem hk')
    have hA : ∀ A ∈ t.reprs.take k, (A.mat g).rows = A.size ∧ (A.mat g).cols = A.size := fun A hA =>
      ⟨(hwf A (List.mem_of_mem_take hA)).rows hg, (hwf A (List.mem_of_mem_take hA)).cols hg⟩
    have key := blockDiag_apply (t.reprs.map fun r => r.mat g) (fun i => x.get b i p) k o (by simpa using hk')
      (by rw [List.getElem_map, hw.rows hg]; exact ho)
    rw [List.getElem_map, hw.cols hg, ← List.map_take, List.map_map, List.map_map] at key
    rw [show (t.reprs.take k).map (rows ∘ fun r => r.mat g) = (t.reprs.take k).map Rep.size from
      List.map_congr_left fun A h => (hA A h).1,
      show (t.reprs.take k).map (cols ∘ fun r => r.mat g) = (t.reprs.take k).map Rep.size from
      List.map_congr_left fun A h => (hA A h).2, ← hs] at key
    exact key

/-- **C25** The action laws. -/
theorem C25_action (hT : T.Valid El op one) (hone : El one) (hop : ∀ g h, El g → El h → El (op g h)) (t : FType S (Rep G Id))
    (hwf : ∀ r ∈ t.reprs, r.WF T El) (x : FTensor B P) (hx : x.chans = t.size Rep.size) :
    (∃ y, t.transformFibers x one = .ok y ∧ y ≈ x) ∧
    ∀ g h, El g → El h → ∃ y z w, t.transformFibers x h = .ok y ∧ t.transformFibers y g = .ok z ∧
      t.transformFibers x (op g h) = .ok w ∧ z ≈ w := by
  have hl : ∀ r ∈ t.reprs, LinRep El op one r.size r.mat := fun r hr => C14_wf_is_representation hT hone hop r (hwf r hr)
  constructor
  · obtain ⟨hr, hc⟩ := fiberRep_shape hwf hT hone
    refine ⟨_, matChannels_ok (hc.trans hx.symm), ?_⟩
    have e : t.fiberRep one ≈ eye x.chans := by
      rw [FType.fiberRep, hx, FType.size_eq]
      exact (blockDiag_map_congr fun r hr => (hl r hr).map_one).trans (blockDiag_eye _ _)
    exact (chanMul_congr e (FTensor.Eqv.refl x) (hc.trans hx.symm)).trans (chanMul_eye x)
  · intro g h hg hh
    obtain ⟨hr1, hc1⟩ := fiberRep_shape hwf hT hh
    obtain ⟨hr2, hc2⟩ := fiberRep_shape hwf hT hg
    obtain ⟨hr3, hc3⟩ := fiberRep_shape hwf hT (hop g h hg hh)
    refine ⟨_, _, _, matChannels_ok (hc1.trans hx.symm), matChannels_ok (hc2.trans hr1.symm), matChannels_ok (hc3.trans hx.symm), ?_⟩
    refine (chanMul_mul _ _ x).symm.trans (chanMul_congr ?_ (FTensor.Eqv.refl x) (hc1.trans hx.symm))
    refine (blockDiag_mul t.reprs (fun r => r.mat g) (fun r => r.mat h) fun r hr => ?_).trans
      (blockDiag_map_congr fun r hr => ((hl r hr).map_mul g h hg hh).symm)
    rw [(hl r hr).cols g hg, (hl r hr).rows h hh]

/-- **C25** `type.representation` exists, has size `size`, and `transform_fibers` multiplies the fibres by it. -/
theorem C25_representation (hT : T.Valid El op one) (t : FType S (Rep G Id)) (hne : t.reprs ≠ []) (hwf : ∀ r ∈ t.reprs, r.WF T El)
    (taken : List String) (name : String) (hname : name ∉ taken) :
    ∃ ρ, t.representation T taken name = .ok ρ ∧ ρ.WF T El ∧ ρ.size = t.size Rep.size ∧ ρ.irreps = t.irreps Rep.irreps ∧
      ∀ g, El g → ∀ x y : FTensor B P, t.transformFibers x g = .ok y →
        ∀ b o p, o < ρ.size → y.get b o p = ∑ i ∈ Finset.range ρ.size, (ρ.mat g).get o i * x.get b i p := by
  obtain ⟨ρ, h1, h2, -, h4, h5, h6⟩ := C14_directsum_plain hT taken t.reprs hne hwf name hname
  have hsize : ρ.size = t.size Rep.size := by rw [h4, FType.size_eq]
  refine ⟨ρ, h1, h2, hsize, ?_, fun g hg x y hy b o p ho => ?_⟩
  · rw [h5, FType.C23_irreps, List.flatMap_def]
  · obtain ⟨e1, rfl⟩ := matChannels_iff.1 hy
    obtain ⟨hr, hc⟩ := fiberRep_shape hwf hT hg
    have := h6 g hg
    simp only [chanMul]
    rw [hc, ← hsize]
    refine Finset.sum_congr rfl fun i hi => ?_
    rw [Finset.mem_range] at hi
    rw [this.2.2 o i (by rw [h2.rows hg]; exact ho) (by rw [h2.cols hg]; exact hi)]
    rfl

example : ∃ (t : FType Unit (Rep ℤ ℕ)) (x : FTensor Unit Unit), t.reprs ≠ [] ∧
    (∀ r ∈ t.reprs, r.WF (Cyclic.table 4) (fun e => Cyclic.isElement 4 e = true)) ∧ x.chans = t.size Rep.size ∧ x.chans = 6 := by
  obtain ⟨r, -, hwf, -, -, hcob, -⟩ := C14_constructor (Cyclic.table_valid 4 (by norm_num)) [] "r" [0, 1] (eye 3) (eye 3) ∅ (by simp)
    (by simp) (IsInv.eye 3) (by simp [Cyclic.table]) (by simp [Cyclic.table, Cyclic.irrepSize]) false
  have hs : r.size = 3 := by rw [Rep.size, hcob]; rfl
  refine ⟨⟨(), [r, r]⟩, ⟨6, fun _ c _ => c⟩, by simp, by simpa using hwf, ?_, rfl⟩
  rw [FType.size_eq]
  simp [hs]

end Escnn
