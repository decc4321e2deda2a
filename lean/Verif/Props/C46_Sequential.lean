import Verif.Props.C46_Tensor
import Verif.Props.C30_Sequential

/-!
# C46: exported sequential modules
-/

namespace Escnn.Seq

variable {X T Sh Y : Type} {attr : String → Bool} {typeOf : X → T}

theorem run_same (H : T → X → Y → Prop) : ∀ (mods : List (ExMod X T Sh Y)) (a : ExMod X T Sh Y) (hs : List (Y → Except Err Y)) (h : Y → Except Err Y),
    Matching Eq ((a :: mods).map ExMod.toSMod) → SameFunction (H a.inType) (H a.outType) a.forward h →
    List.Forall₂ (fun m h => SameFunction (H m.inType) (H m.outType) m.forward h) mods hs →
    SameFunction (H a.inType) (H ((a :: mods).getLast (by simp)).outType) (run ((a :: mods).map ExMod.toSMod)) (torchSequential (h :: hs))
  | [], a, _, h, _, ha, .nil => by
    intro x z hx
    refine (ha x z hx).bind fun y w hy => ?_
    exact SameResult.ok hy
  | b :: mods, a, _, h, hm, ha, .cons (l₂ := hs) (b := h') hb hrest => by
    intro x z hx
    obtain ⟨e, hm'⟩ := matching_cons.1 hm
    refine (ha x z hx).bind fun y w hy => ?_
    rw [List.getLast_cons (by simp)]
    exact run_same H mods b hs h' hm' hb hrest y w (by rw [e]; exact hy)

/-- **C46** Sequential modules: if the submodules can be exported to modules which compute the same functions, the exported `torch.nn.Sequential` computes the same function as the sequential module, with its checks of the types.
`H t x z` says that `x` has the type `t` and holds the tensor `z`. -/
theorem C46_sequential (H : T → X → Y → Prop) (htype : ∀ t x z, H t x z → typeOf x = t) (hattr : ∀ n : ℕ, attr (toString n) = false) (mods : List (ExMod X T Sh Y)) (hne : mods ≠ [])
    (hx : ∀ m ∈ mods, ∃ h, m.export' = .ok h ∧ SameFunction (H m.inType) (H m.outType) m.forward h) {s : Seq X T Sh} (hs : init Eq attr (mods.map ExMod.toSMod) = .ok s) :
    ∃ h, export' mods = .ok h ∧ s.inType = some (mods.head hne).inType ∧ s.outType = some (mods.getLast hne).outType ∧
      SameFunction (H (mods.head hne).inType) (H (mods.getLast hne).outType) (forward Eq typeOf s) h := by
  obtain ⟨hs', h1, h2⟩ : ∃ hs', mapE (fun m : ExMod X T Sh Y => m.export') mods = .ok hs' ∧ List.Forall₂ (fun m h => SameFunction (H m.inType) (H m.outType) m.forward h) mods hs' := by
    clear hne hs
    induction mods with
    | nil => exact ⟨[], rfl, .nil⟩
    | cons m mods ih =>
      obtain ⟨h, e1, e2⟩ := hx m (by simp)
      obtain ⟨hs', e3, e4⟩ := ih fun m hm => hx m (List.mem_cons_of_mem _ hm)
      refine ⟨h :: hs', ?_, .cons e2 e4⟩
      rw [mapE, e1]
      simp only [e3]
  obtain ⟨g1, g2⟩ := addAll_spec (eqT := Eq) (attr := attr) ((mods.map ExMod.toSMod).zipIdx.map fun mi => (toString mi.2, mi.1)) ⟨[], none, none⟩ ⟨rfl, rfl⟩ (fun p hp => by
    obtain ⟨q, -, rfl⟩ := List.mem_map.1 hp
    exact goodName_nat hattr q.2) (positions_nodup _)
  have hmatch := g1.1 ⟨s, hs⟩
  obtain ⟨e1, e2⟩ := g2 s hs
  have hsnd : ((mods.map ExMod.toSMod).zipIdx.map fun mi => (toString mi.2, mi.1)).map Prod.snd = mods.map ExMod.toSMod := by
    rw [List.map_map]
    exact List.zipIdx_map_fst 0 _
  have hit : s.iter = mods.map ExMod.toSMod := by
    rw [iter, e1]
    exact hsnd
  rw [hsnd] at hmatch
  obtain ⟨a, L, rfl⟩ := List.exists_cons_of_ne_nil hne
  obtain ⟨h, hs', ha, hL, rfl⟩ := List.forall₂_cons_left_iff.1 h2
  have hin : s.inType = some a.inType := by
    rw [e2.1, hit]; rfl
  have hout : s.outType = some ((a :: L).getLast (by simp)).outType := by
    rw [e2.2, hit, List.getLast?_map, List.getLast?_eq_some_getLast (by simp)]
    rfl
  refine ⟨torchSequential (h :: hs'), by simp only [export', h1, bind, Except.bind], hin, hout, fun x z hxz => ?_⟩
  unfold forward
  rw [if_pos ⟨_, hin, htype _ _ _ hxz⟩, hit]
  rcases run_same H L a hs' h hmatch ha hL x z hxz with ⟨y, w, f1, f2, f3⟩ | ⟨⟨e, f1⟩, f2⟩
  · refine .inl ⟨y, w, ?_, f2, f3⟩
    simp only [f1, bind, Except.bind]
    exact if_pos ⟨_, hout, htype _ _ _ f3⟩
  · refine .inr ⟨⟨e, ?_⟩, f2⟩
    simp only [f1, bind, Except.bind]

/-- A `ReLU` followed by an `ELU`, on each type which supports pointwise nonlinearities. -/
example {B P S G Id C : Type} (t : FType S (Rep G Id)) (alpha : ℝ) :
    let mk : (ℝ → ℝ) → ExMod (GTensor B P S (Rep G Id) C) (FType S (Rep G Id)) Unit (FTensor B P) := fun f => ⟨⟨t, t, (⟨t, f⟩ : PointwiseNL S (Rep G Id)).forward, .ok⟩, .ok (⟨t, f⟩ : PointwiseNL S (Rep G Id)).export'⟩
    ∃ s h, init Eq (fun _ => false) ([mk torchRelu, mk (torchElu alpha)].map ExMod.toSMod) = .ok s ∧ export' [mk torchRelu, mk (torchElu alpha)] = .ok h ∧
      SameFunction (HoldsTensor t) (HoldsTensor t) (forward Eq GTensor.type s) h := by
  intro mk
  obtain ⟨s, hs⟩ := (addAll_spec (eqT := Eq) (attr := fun _ => false) (([mk torchRelu, mk (torchElu alpha)].map ExMod.toSMod).zipIdx.map fun mi => (toString mi.2, mi.1)) ⟨[], none, none⟩ ⟨rfl, rfl⟩ (fun p hp => by
    obtain ⟨q, -, rfl⟩ := List.mem_map.1 hp
    exact goodName_nat (fun _ => rfl) q.2) (positions_nodup _)).1.2 (matching_cons.2 ⟨rfl, fun i a b h1 h2 => by simp at h2⟩)
  obtain ⟨h, e1, -, -, e4⟩ := C46_sequential (typeOf := GTensor.type) HoldsTensor (fun _ _ _ h => h.1) (fun _ => rfl) [mk torchRelu, mk (torchElu alpha)] (by simp) (fun m hm => by
    simp only [List.mem_cons, List.not_mem_nil, or_false] at hm
    rcases hm with rfl | rfl
    · exact ⟨_, rfl, PointwiseNL.C46_pointwise (⟨t, torchRelu⟩ : PointwiseNL S (Rep G Id))⟩
    · exact ⟨_, rfl, PointwiseNL.C46_pointwise (⟨t, torchElu alpha⟩ : PointwiseNL S (Rep G Id))⟩) hs
  exact ⟨s, h, hs, e1, e4⟩

end Escnn.Seq
