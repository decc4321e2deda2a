import Verif.Props.C71_Upsampling
import Verif.Props.C46_Tensor
import Verif.Props.C46_Pool
import Verif.Props.C31_TypeModules

/-!
# C46 and C47 for upsampling; C46 for the identity, the restriction and the dropout
-/

namespace Escnn

open NdArr

variable {n : ℕ} {B P C S S' G H Id Id' : Type}

theorem interpolate_congr (size : Option (Fin n → ℕ)) (scale : Option ℚ) (mode : String) (align : Option Bool) {x z : FMap n B} (h : x ≈ z) :
    SameResult (fun y w => y ≈ w) (interpolate size scale mode align x) (interpolate size scale mode align z) := by
  obtain ⟨h1, h2, h3⟩ := h
  unfold interpolate
  rw [← h2]
  by_cases c1 : size.isSome = scale.isSome
  · rw [if_pos c1, if_pos c1]
    exact .inr ⟨⟨_, rfl⟩, _, rfl⟩
  rw [if_neg c1, if_neg c1]
  by_cases c2 : ¬ ((∀ i, 0 < x.shape i) ∧ ∀ i, 0 < interpSize size scale i (x.shape i))
  · rw [if_pos c2, if_pos c2]
    exact .inr ⟨⟨_, rfl⟩, _, rfl⟩
  rw [if_neg c2, if_neg c2]
  rw [not_not] at c2
  by_cases c3 : mode = "nearest"
  · rw [if_pos c3, if_pos c3]
    split_ifs
    · exact .inr ⟨⟨_, rfl⟩, _, rfl⟩
    · refine SameResult.ok ⟨h1, rfl, fun b c hc o _ => h3 b c hc _ fun i => ?_⟩
      have := c2.1 i
      simp only [nearestIndex]
      omega
  rw [if_neg c3, if_neg c3]
  split_ifs
  · refine SameResult.ok ⟨h1, rfl, fun b c hc o _ => Finset.sum_congr rfl fun k hk => ?_⟩
    rw [h3 b c hc k fun i => Finset.mem_range.1 (Fintype.mem_piFinset.1 hk i)]
  · exact .inr ⟨⟨_, rfl⟩, _, rfl⟩

theorem interpolate_shape {size : Option (Fin n → ℕ)} {scale : Option ℚ} {mode : String} {align : Option Bool} {x y : FMap n B} (h : interpolate size scale mode align x = .ok y) :
    size.isSome ≠ scale.isSome ∧ y.chans = x.chans ∧ ∀ i, y.shape i = interpSize size scale i (x.shape i) ∧ 0 < y.shape i := by
  unfold interpolate at h
  split_ifs at h with h1 h2 h3 h4 h5 <;> obtain rfl := Except.ok.inj h <;> exact ⟨h1, rfl, fun i => ⟨rfl, h2.2 i⟩⟩

namespace Upsampling

/-- **C46** Upsampling: the exported module computes the same on all inputs. -/
theorem C46_upsampling (m : Upsampling n S (Rep G Id)) :
    SameFunction (HoldsMap m.inType) (HoldsMap m.inType) (fun x : GMap n B S (Rep G Id) => m.forward Rep.size x) m.export' := by
  refine wrap_same (k := interpolate m.size m.scale m.mode m.align) (fun x hx => ?_) (fun x z hxz _ => interpolate_congr _ _ _ _ hxz) fun x y hx hy => ?_
  · unfold forward
    rw [if_neg (not_not.2 hx)]
  · rw [(interpolate_shape hy).2.1, hx]

/-- **C47** Upsampling: the predicted shape is the shape of the output, for every `size` and (rational) `scale_factor`. -/
theorem C47_upsampling (m : Upsampling n S (Rep G Id)) (x y : GMap n B S (Rep G Id)) (hx : x.map.chans = x.type.size Rep.size) (h : m.forward Rep.size x = .ok y) (b : ℤ) :
    m.evaluateOutputShape Rep.size (x.map.sizes b) = .ok (y.map.sizes b) := by
  unfold forward at h
  split_ifs at h with ht
  rw [not_not] at ht
  obtain ⟨z, h1, h⟩ := bind_ok h
  obtain ⟨rfl, hc⟩ := GMap.mk'_ok h
  obtain ⟨e0, e1, e2⟩ := interpolate_shape h1
  rw [evaluateOutputShape, checkedShape_sizes _ _ (by rw [hx, ht])]
  rcases hs : m.size with _ | s
  · rcases hf : m.scale with _ | f
    · simp [hs, hf] at e0
    · simp only [FMap.sizes, hc]
      congr 4
      funext i
      obtain ⟨e3, e4⟩ := e2 i
      rw [e3] at e4 ⊢
      simp only [hs, hf, interpSize, Option.getD_some] at e4 ⊢
      simp only [List.getD_eq_getElem?_getD, List.getElem?_ofFn, i.2, dif_pos, Option.getD_some, Fin.eta, Int.cast_natCast]
      omega
  · simp only [FMap.sizes, hc]
    congr 4
    funext i
    rw [(e2 i).1, hs]
    rfl

/-- A 3 × 3 map resized with the scale factor 3/2: the shape 4 × 4 is predicted. -/
example : ∃ y, Upsampling.forward Rep.size ⟨shapeType, none, some (3 / 2), "bilinear", some false⟩ ⟨shapeMap 2 3, shapeType⟩ = .ok y ∧ y.map.shape = fun _ => 4 := by
  have e : ∀ i : Fin 2, interpSize none (some (3 / 2)) i 3 = 4 := fun i => by
    show ⌊((3 : ℕ) : ℚ) * (3 / 2)⌋.toNat = 4
    rw [show ⌊((3 : ℕ) : ℚ) * (3 / 2)⌋ = 4 by rw [Int.floor_eq_iff]; norm_num]
    rfl
  obtain ⟨y, h1, h2⟩ := interpolate_ok (size := none) (scale := some (3 / 2)) (mode := "bilinear") (align := some false) (x := shapeMap 2 3) (by simp) (fun _ => by simp [shapeMap])
    (fun i => by show 0 < interpSize none (some (3 / 2)) i 3; rw [e]; norm_num) (by simp)
  exact ⟨⟨y, shapeType⟩, forward_ok h1 h2, funext fun i => by rw [((interpolate_shape h1).2.2 i).1]; exact e i⟩

end Upsampling

/-- **C46** `IdentityModule`. -/
theorem C46_identity (t : FType S (Rep G Id)) : SameFunction (HoldsTensor (B := B) (P := P) (C := C) t) (HoldsTensor t) (identityForward t) identityExport := by
  intro x z ⟨h1, h2, h3⟩
  exact .inl ⟨x, z, if_pos h1, rfl, h1, h2, h3⟩

/-- **C46** `RestrictionModule`: the exported module is the identity, which holds the same tensor; the restricted type has the size of the type. -/
theorem C46_restriction (t : FType S (Rep G Id)) (hne : t.reprs ≠ []) (res : Rep G Id → Except Err (Rep H Id')) (sub : S') (uniq : List (Rep G Id)) (hu : ∀ r, r ∈ uniq ↔ r ∈ t.reprs)
    (hname : ∀ r ∈ t.reprs, ∀ r' ∈ t.reprs, r.name = r'.name → r = r') (hres : ∀ r ∈ t.reprs, ∃ r', res r = .ok r' ∧ r'.size = r.size) :
    ∃ m, RestrictionM.init Rep.name res sub uniq t = .ok m ∧ SameFunction (HoldsTensor (B := B) (P := P) (C := C) t) (HoldsTensor m.outType) (m.forward Rep.PyEq Rep.size) identityExport := by
  obtain ⟨m, h1, h2, h3, h4⟩ := C31_restriction_partial (ElH := fun _ => False) (B := B) (P := P) (C := C) t hne res sub (fun _ => .error .notImplemented) uniq hu hname
    fun r hr => by
      obtain ⟨r', e1, e2⟩ := hres r hr
      exact ⟨r', e1, e2, fun _ _ h => h.elim⟩
  refine ⟨m, h1, fun x z ⟨a1, a2, a3⟩ => ?_⟩
  obtain ⟨y, b1, b2, b3, b4, -⟩ := h4 x a1 (a1 ▸ a2)
  refine .inl ⟨y, z, b1, rfl, b3, ?_, b2 ▸ a3⟩
  rw [b2, a2, FType.size_eq, FType.size_eq]
  congr 1
  refine List.ext_getElem (by simp [h2.length_eq]) fun i i1 i2 => ?_
  rw [List.getElem_map, List.getElem_map]
  have hi : i < t.reprs.length := by simpa using i1
  obtain ⟨r', e1, e2⟩ := hres t.reprs[i] (List.getElem_mem hi)
  have := h2.get (i := i) (by simpa using i1) (by simpa using i2)
  rw [List.get_eq_getElem, List.get_eq_getElem] at this
  rw [this] at e1
  rw [← Except.ok.inj e1] at e2
  exact e2.symm

/-- **C46** `PointwiseDropout` in eval mode, whatever the random numbers. -/
theorem C46_dropout (m : PointDropout S (Rep G Id)) (u u' : B → ℕ → P → ℝ) :
    SameFunction (HoldsTensor (C := C) m.inType) (HoldsTensor m.inType) (m.forward Rep.size false u) (m.export' u') := by
  refine wrapT_same (k := fun x => .ok ⟨x.chans, x.get⟩) (fun x hx => ?_) (fun x z h _ => ?_) fun x y hx h => ?_
  · unfold PointDropout.forward
    rw [if_pos hx]
    rfl
  · exact SameResult.ok ⟨h.1, fun b c p hc => h.2 b c p hc⟩
  · rw [← Except.ok.inj h]
    exact hx

/-- The restriction of a vector field to a subgroup which keeps the size. -/
example (r : Rep ℤ ℕ) : ∃ m, RestrictionM.init (S' := Unit) Rep.name (fun r : Rep ℤ ℕ => .ok r) () [r] (⟨(), [r, r]⟩ : FType Unit (Rep ℤ ℕ)) = .ok m ∧
    SameFunction (HoldsTensor (B := B) (P := P) (C := C) ⟨(), [r, r]⟩) (HoldsTensor m.outType) (m.forward Rep.PyEq Rep.size) identityExport :=
  C46_restriction _ (by simp) _ () [r] (by simp) (by simp) fun r _ => ⟨r, rfl, rfl⟩

/-- A dropout with probability 1/2. -/
example (t : FType Unit (Rep ℤ ℕ)) (ht : ∀ r ∈ t.reprs, "pointwise" ∈ r.nonlin) (u : B → ℕ → P → ℝ) : ∃ m, PointDropout.init t (1 / 2) false = .ok m ∧
    SameFunction (HoldsTensor (C := C) t) (HoldsTensor t) (m.forward Rep.size false u) (m.export' u) :=
  ⟨⟨t, 1 / 2, false⟩, by rw [PointDropout.init, if_neg (by norm_num), if_pos ht], C46_dropout ⟨t, 1 / 2, false⟩ u u⟩

end Escnn
