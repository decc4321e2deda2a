import Verif.Model.Pointwise
import Verif.Lemmas.Equivariant
import Verif.Lemmas.Fixtures

/-!
# C48: pointwise nonlinearities commute with permutation representations
-/

namespace Escnn

namespace PointwiseNL

variable {B P S G Id C : Type} {El : G → Prop}

/-- Every representation of the type acts by permutation matrices. -/
def Permutes (El : G → Prop) (t : FType S (Rep G Id)) : Prop := ∀ r ∈ t.reprs, ∀ g, El g → IsPermMat r.size (r.mat g)

theorem forward_ok (m : PointwiseNL S (Rep G Id)) (x : GTensor B P S (Rep G Id) C) (h : x.type = m.inType) (hc : x.tensor.chans = m.inType.size Rep.size) :
    m.forward x = .ok ⟨⟨x.tensor.chans, fun b c p => m.function (x.tensor.get b c p)⟩, m.inType, x.coords⟩ := by
  rw [forward, if_pos h]
  exact if_pos hc

theorem forward_need {m : PointwiseNL S (Rep G Id)} {x y : GTensor B P S (Rep G Id) C} (h : m.forward x = .ok y) : x.type = m.inType ∧ x.tensor.chans = m.inType.size Rep.size := by
  unfold forward GTensor.mk' at h
  split_ifs at h with h1 h2
  exact ⟨h1, h2⟩

theorem Permutes.square {t : FType S (Rep G Id)} (h : Permutes El t) : t.Square El := fun r hr g hg => ⟨(h r hr g hg).1, (h r hr g hg).2.1⟩

/-- **C48** Whatever the function, the module computes the same function on every entry, and commutes with the action on the fibres if all the representations are permutations. -/
theorem C48_equivariant (m : PointwiseNL S (Rep G Id)) (h : Permutes El m.inType) :
    FibreEquivariant (B := B) (P := P) (C := C) El m.inType m.inType m.forward ∧ PositionLocal (B := B) (P := P) (C := C) Rep.size m.inType m.forward ∧
    ∀ x y : GTensor B P S (Rep G Id) C, m.forward x = .ok y → y.tensor.chans = x.tensor.chans ∧ ∀ b c p, y.tensor.get b c p = m.function (x.tensor.get b c p) := by
  have hf : ∀ x : GTensor B P S (Rep G Id) C, x.type = m.inType → x.tensor.chans = m.inType.size Rep.size → ∃ y, m.forward x = .ok y ∧ y.type = m.inType ∧ y.coords = x.coords ∧
      y.tensor.chans = m.inType.size Rep.size ∧
      ∀ (k : ℕ) (r : Rep G Id), m.inType.reprs[k]? = some r → ∀ o < r.size, ∀ b p, y.tensor.get b (chanOffset Rep.size m.inType.reprs k + o) p =
        m.function (x.tensor.get b (chanOffset Rep.size m.inType.reprs k + o) p) := fun x hx hc =>
    ⟨_, forward_ok m x hx hc, rfl, rfl, hc, fun _ _ _ _ _ _ _ => rfl⟩
  refine ⟨FibreEquivariant.of_fields h.square h.square (fun x k o b p => m.function (x.get b (chanOffset Rep.size m.inType.reprs k + o) p)) hf ?_,
    PositionLocal.of_fields (fun x k o b p => m.function (x.get b (chanOffset Rep.size m.inType.reprs k + o) p)) hf fun _ _ _ _ _ _ => rfl, fun x y hy => ?_⟩
  · intro g hg x gx _ _ hact k r hk o ho b p
    obtain ⟨σ, hσ⟩ := (h r (List.mem_of_getElem? hk) g hg).perm
    rw [hact k r hk b o p ho, hσ (fun j => x.get b (chanOffset Rep.size m.inType.reprs k + j) p) ⟨o, ho⟩, hσ (fun j => m.function (x.get b (chanOffset Rep.size m.inType.reprs k + j) p)) ⟨o, ho⟩]
  · obtain ⟨h1, h2⟩ := forward_need hy
    rw [forward_ok m x h1 h2] at hy
    obtain rfl := Except.ok.inj hy
    exact ⟨rfl, fun _ _ _ => rfl⟩

/-- **C48** On feature maps, the module commutes with `transform`. -/
theorem C48_transform {n : ℕ} (m : PointwiseNL S (Rep G Id)) (h : Permutes El m.inType) (base : G → NpMat ℝ) : GridEquivariant (n := n) (B := B) El base m.inType m.inType (onGrid m.forward) :=
  (C48_equivariant m h).1.onGrid h.square h.square (C48_equivariant m h).2.1 base

/-- **C48** The constructors accept exactly the types all of whose representations support `pointwise`, and the four names of functions. -/
theorem C48_init (t : FType S (Rep G Id)) (function : String) :
    (∃ m, init t function = .ok m) ↔ (∀ r ∈ t.reprs, "pointwise" ∈ r.nonlin) ∧ function ∈ ["p_relu", "p_elu", "p_sigmoid", "p_tanh"] := by
  unfold init
  by_cases h : ∀ r ∈ t.reprs, "pointwise" ∈ r.nonlin
  · rw [if_pos h]
    split_ifs with h1 h2 h3 h4
    · simp [h1]; exact h
    · simp [h2]; exact h
    · simp [h3]; exact h
    · simp [h4]; exact h
    · simp [h1, h2, h3, h4]
  · rw [if_neg h]
    simp only [reduceCtorEq, exists_false, false_iff]
    exact fun h' => h h'.1

theorem C48_init_type (t : FType S (Rep G Id)) (function : String) (m : PointwiseNL S (Rep G Id)) (h : init t function = .ok m) :
    m.inType = t ∧ (function = "p_relu" → m.function = fun t => max t 0) ∧ (function = "p_tanh" → m.function = Real.tanh) ∧ (function = "p_sigmoid" → m.function = fun t => 1 / (1 + Real.exp (-t))) ∧
      (function = "p_elu" → ∀ t, (0 < t → m.function t = t) ∧ (t ≤ 0 → m.function t = Real.exp t - 1)) := by
  unfold init at h
  split_ifs at h with h1 h2 h3 h4 h5 <;> obtain rfl := Except.ok.inj h <;> subst function
  · exact ⟨rfl, fun _ => rfl, by simp, by simp, by simp⟩
  · refine ⟨rfl, by simp, by simp, by simp, fun _ t => ⟨fun h => if_pos h, fun h => ?_⟩⟩
    show torchElu 1 t = _
    rw [torchElu, if_neg (not_lt.2 h), one_mul]
  · exact ⟨rfl, by simp, by simp, fun _ => rfl, by simp⟩
  · exact ⟨rfl, by simp, fun _ => rfl, by simp, by simp⟩

/-- **C48** The constructors of `ReLU`, `LeakyReLU` and `ELU` succeed exactly for the types all of whose representations support pointwise nonlinearities, and keep the type. -/
theorem C48_modules (t : FType S (Rep G Id)) (slope alpha : ℝ) :
    ((∃ m, initReLU t = .ok m) ↔ ∀ r ∈ t.reprs, "pointwise" ∈ r.nonlin) ∧ ((∃ m, initLeakyReLU t slope = .ok m) ↔ ∀ r ∈ t.reprs, "pointwise" ∈ r.nonlin) ∧
    ((∃ m, initELU t alpha = .ok m) ↔ ∀ r ∈ t.reprs, "pointwise" ∈ r.nonlin) ∧
    (∀ m, initReLU t = .ok m → m.inType = t ∧ ∀ u, m.function u = max u 0) ∧
    (∀ m, initLeakyReLU t slope = .ok m → m.inType = t ∧ ∀ u, (0 ≤ u → m.function u = u) ∧ (u < 0 → m.function u = slope * u)) ∧
    (∀ m, initELU t alpha = .ok m → m.inType = t ∧ ∀ u, (0 < u → m.function u = u) ∧ (u ≤ 0 → m.function u = alpha * (Real.exp u - 1))) := by
  have key : ∀ f, ((∃ m, make f t = .ok m) ↔ ∀ r ∈ t.reprs, "pointwise" ∈ r.nonlin) ∧ ∀ m, make f t = .ok m → m = ⟨t, f⟩ := by
    intro f
    unfold make
    split_ifs with h
    · exact ⟨⟨fun _ => h, fun _ => ⟨_, rfl⟩⟩, fun m hm => (Except.ok.inj hm).symm⟩
    · exact ⟨⟨fun ⟨m, hm⟩ => by simp at hm, fun h' => absurd h' h⟩, fun m hm => by simp at hm⟩
  refine ⟨(key _).1, (key _).1, (key _).1, fun m hm => ?_, fun m hm => ?_, fun m hm => ?_⟩ <;> rw [(key _).2 m hm]
  · exact ⟨rfl, fun u => rfl⟩
  · refine ⟨rfl, fun u => ⟨fun h => ?_, fun h => ?_⟩⟩
    · show torchLeakyRelu slope u = u
      exact if_pos h
    · show torchLeakyRelu slope u = slope * u
      exact if_neg (not_le.2 h)
  · refine ⟨rfl, fun u => ⟨fun h => if_pos h, fun h => if_neg (not_lt.2 h)⟩⟩

/-! ### The representations which are permutations -/

/-- **C48** A regular representation of a finite group is a permutation. -/
theorem C48_regular [DecidableEq G] {T : IrrepTable G Id} {els : List G} {mul : G → G → G} {inv : G → G} {one : G} (hG : FinGroup els mul inv one) {ids : List Id} {char : Id → G → ℝ} {sumsq : Id → ℕ}
    (hT : T.Valid (· ∈ els) mul one) (hok : ∀ i ∈ ids, T.ok i = true) (hsumsq : ∀ i ∈ ids, sumsq i ≠ 0) (taken : List String) (r : Rep G Id) (h : regularRep T els mul inv ids char sumsq taken = .ok r)
    (s : S) (n : ℕ) (f : ℝ → ℝ) : FibreEquivariant (B := B) (P := P) (C := C) (· ∈ els) ⟨s, List.replicate n r⟩ ⟨s, List.replicate n r⟩ (forward ⟨⟨s, List.replicate n r⟩, f⟩) := by
  obtain ⟨h1, h2, h3, -⟩ := C16_regular_sound hG hT hok hsumsq taken r h
  refine (C48_equivariant ⟨⟨s, List.replicate n r⟩, f⟩ fun r' hr g hg => ?_).1
  obtain rfl : r' = r := List.eq_of_mem_replicate hr
  rw [h2]
  exact (h3 g hg).perm hG hg

/-- **C48** A quotient representation (induced from the trivial representation of a subgroup) is a permutation. -/
theorem C48_quotient {H Id' : Type} [DecidableEq G] [DecidableEq Id'] {TG : IrrepTable G Id} {TH : IrrepTable H Id'} {typH : Id' → IrrType} {els : List G}
    {mulG : G → G → G} {invG : G → G} {oneG : G} {hels : List H} {mulH : H → H → H} {invH : H → H} {oneH : H} {parent : H → G} {child : G → Option H} {rhoH : Id → Rep H Id'}
    (hG : els.Nodup) (hH : hels.Nodup) (hD : InducedData TG TH typH (· ∈ els) mulG invG oneG (· ∈ hels) mulH invH oneH parent child rhoH) {psi : Id'} (hpsi : TH.ok psi = true) (hsz : TH.size psi = 1)
    (htriv : ∀ h ∈ hels, (TH.mat psi h).get 0 0 = 1) {sel : Id → List (NpMat ℝ) → Except Err (List (NpMat ℝ))} (hsel : ∀ i L L', sel i L = .ok L' → ∀ B ∈ L', B ∈ L) (ids : List Id)
    (hok : ∀ i ∈ ids, TG.ok i = true) (taken : List String) (name : String) (nl : Finset String) (r : Rep G Id)
    (hr : inducedRep TG (fun i => diracKernelFT TH typH psi (rhoH i) (sel i)) (TH.size psi) (some (els.length, hels.length))
      (sameCoset mulG invG child) (defaultReps mulG (hels.map parent) [] els) ids taken name nl = .ok r) (s : S) (n : ℕ) (f : ℝ → ℝ) :
    FibreEquivariant (B := B) (P := P) (C := C) (· ∈ els) ⟨s, List.replicate n r⟩ ⟨s, List.replicate n r⟩ (forward ⟨⟨s, List.replicate n r⟩, f⟩) := by
  obtain ⟨h1, h2, h3, -⟩ := C17_default_representatives hG hH hD.incl
  obtain ⟨-, e1, -, e2⟩ := C17_induced_sound hD hpsi hsel ids hok _ h1 h2 _ taken name nl r hr
  rw [hsz] at e1 e2
  refine (C48_equivariant ⟨⟨s, List.replicate n r⟩, f⟩ fun r' hr g hg => ?_).1
  obtain rfl : r' = r := List.eq_of_mem_replicate hr
  rw [e1, mul_one]
  exact (e2 g hg).perm hD.incl h1 h2 (distinct_pairwise hD.incl h1 h3) htriv hg

/-! ### Other representations -/

/-- **C48** If the module is equivariant for *every* function, every row of the matrices of the representations has one entry 1 and otherwise entries 0: for no other representation all the functions are
equivariant. -/
theorem C48_necessary [Nonempty B] [Nonempty P] [Nonempty C] (t : FType S (Rep G Id)) (hsq : t.Square El) (h : ∀ f, FibreEquivariant (B := B) (P := P) (C := C) El t t (forward ⟨t, f⟩)) :
    ∀ r ∈ t.reprs, ∀ g, El g → ∀ i < r.size, ∃ j < r.size, ∀ j' < r.size, (r.mat g).get i j' = if j' = j then 1 else 0 := by
  intro r hr g hg i hi
  obtain ⟨k, hk⟩ := List.getElem?_of_mem hr
  obtain ⟨b⟩ := ‹Nonempty B›
  obtain ⟨p⟩ := ‹Nonempty P›
  obtain ⟨co⟩ := ‹Nonempty C›
  -- the equation for one function and one vector
  have key : ∀ (f : ℝ → ℝ) (v : ℕ → ℝ), f (∑ j ∈ Finset.range r.size, (r.mat g).get i j * v j) = ∑ j ∈ Finset.range r.size, (r.mat g).get i j * f (v j) := by
    intro f v
    obtain ⟨y, gx, gy, gy', h1, -, h3, h4, h5, h6, -, -, h8⟩ := h f ⟨⟨t.size Rep.size, fun _ c _ => v (c - chanOffset Rep.size t.reprs k)⟩, t, co⟩ rfl rfl g hg
    obtain ⟨gxt, a1, a2, a3⟩ := transformFibers_act hsq hg (⟨t.size Rep.size, fun _ c _ => v (c - chanOffset Rep.size t.reprs k)⟩ : FTensor B P) rfl
    rw [forward_ok _ _ rfl rfl] at h1
    obtain rfl := (Except.ok.inj h1).symm
    obtain ⟨gyt, b1, b2, b3⟩ := transformFibers_act hsq hg (⟨t.size Rep.size, fun _ c _ => f (v (c - chanOffset Rep.size t.reprs k))⟩ : FTensor B P) rfl
    obtain rfl : gx = ⟨gxt, t, co⟩ := by
      rw [GTensor.transformFibers] at h4
      simp only [bind, Except.bind, a1] at h4
      rw [GTensor.mk', if_pos a2] at h4
      exact (Except.ok.inj h4).symm
    obtain rfl : gy' = ⟨gyt, t, co⟩ := by
      rw [GTensor.transformFibers] at h6
      simp only [bind, Except.bind, b1] at h6
      rw [GTensor.mk', if_pos b2] at h6
      exact (Except.ok.inj h6).symm
    rw [forward_ok _ _ rfl a2] at h5
    obtain rfl := (Except.ok.inj h5).symm
    have hlt : chanOffset Rep.size t.reprs k + i < gxt.chans := by rw [a2, FType.size_eq]; exact chanOffset_lt hk hi
    have := h8.2 b (chanOffset Rep.size t.reprs k + i) p hlt
    simp only [a3 k r hk b i p hi, b3 k r hk b i p hi, Nat.add_sub_cancel_left] at this
    exact this
  have hrow : ∑ j ∈ Finset.range r.size, (r.mat g).get i j = 1 := by
    have := key (fun _ => 1) fun _ => 0
    simpa using this.symm
  have h01 : ∀ j < r.size, (r.mat g).get i j = 0 ∨ (r.mat g).get i j = 1 := by
    intro j hj
    by_contra hne
    push Not at hne
    have e : ∀ f : ℝ → ℝ, f 0 = 0 → f 1 = 1 → f ((r.mat g).get i j) = (r.mat g).get i j := by
      intro f f0 f1
      have := key f fun j' => if j' = j then 1 else 0
      simp only [mul_ite, mul_one, mul_zero, apply_ite f, f0, f1] at this
      simpa [hj] using this
    have := e (fun t => if t = 0 then 0 else if t = 1 then 1 else t + 1) (by simp) (by simp)
    simp only [hne.1, hne.2, if_false] at this
    linarith
  obtain ⟨j, hj, hj1⟩ : ∃ j < r.size, (r.mat g).get i j = 1 := by
    by_contra hne
    push Not at hne
    have : ∑ j ∈ Finset.range r.size, (r.mat g).get i j = 0 := Finset.sum_eq_zero fun j hj => (h01 j (Finset.mem_range.1 hj)).resolve_right (hne j (Finset.mem_range.1 hj))
    rw [this] at hrow
    exact zero_ne_one hrow
  refine ⟨j, hj, fun j' hj' => ?_⟩
  by_cases e : j' = j
  · rw [if_pos e, e, hj1]
  · rw [if_neg e]
    refine (h01 j' hj').resolve_right fun h1 => ?_
    have hle : ∑ l ∈ ({j, j'} : Finset ℕ), (r.mat g).get i l ≤ ∑ l ∈ Finset.range r.size, (r.mat g).get i l := by
      refine Finset.sum_le_sum_of_subset_of_nonneg ?_ fun l hl _ => ?_
      · intro l hl
        simp only [Finset.mem_insert, Finset.mem_singleton] at hl
        rw [Finset.mem_range]
        rcases hl with rfl | rfl <;> assumption
      · rcases h01 l (Finset.mem_range.1 hl) with e | e <;> rw [e] <;> norm_num
    rw [Finset.sum_pair (Ne.symm e), hj1, h1, hrow] at hle
    norm_num at hle


/-- **C48** For a representation which is not a permutation it can fail: the sign representation with `relu`. -/
theorem C48_not_permutation : ¬ FibreEquivariant (B := Unit) (P := Unit) (C := Unit) (fun _ : Bool => True) ⟨(), [signRep]⟩ ⟨(), [signRep]⟩ (forward ⟨⟨(), [signRep]⟩, torchRelu⟩) := by
  intro h
  have ht : FType.Square (fun _ : Bool => True) (⟨(), [signRep]⟩ : FType Unit (Rep Bool Unit)) := by
    intro r hr g _
    obtain rfl : r = signRep := by simpa using hr
    exact ⟨rfl, rfl⟩
  obtain ⟨y, gx, gy, gy', h1, -, h3, h4, h5, h6, -, -, h8⟩ := h ⟨⟨1, fun _ _ _ => 1⟩, ⟨(), [signRep]⟩, ()⟩ rfl rfl true trivial
  rw [forward_ok _ _ rfl rfl] at h1
  obtain rfl := (Except.ok.inj h1).symm
  obtain ⟨gxt, a1, a2, a3⟩ := transformFibers_act (El := fun _ : Bool => True) ht (g := true) trivial (⟨1, fun _ _ _ => 1⟩ : FTensor Unit Unit) rfl
  obtain ⟨gyt, b1, b2, b3⟩ := transformFibers_act (El := fun _ : Bool => True) ht (g := true) trivial (⟨1, fun _ _ _ => torchRelu 1⟩ : FTensor Unit Unit) rfl
  obtain rfl : gx = ⟨gxt, ⟨(), [signRep]⟩, ()⟩ := by
    rw [GTensor.transformFibers] at h4
    simp only [bind, Except.bind, a1] at h4
    rw [GTensor.mk', if_pos a2] at h4
    exact (Except.ok.inj h4).symm
  obtain rfl : gy' = ⟨gyt, ⟨(), [signRep]⟩, ()⟩ := by
    rw [GTensor.transformFibers] at h6
    simp only [bind, Except.bind, b1] at h6
    rw [GTensor.mk', if_pos b2] at h6
    exact (Except.ok.inj h6).symm
  rw [forward_ok _ _ rfl a2] at h5
  obtain rfl := (Except.ok.inj h5).symm
  have e := h8.2 () 0 () (by show 0 < gxt.chans; rw [a2]; exact one_pos)
  have e1 := a3 0 signRep rfl () 0 () one_pos
  have e2 := b3 0 signRep rfl () 0 () one_pos
  have hs : signRep.size = 1 := rfl
  simp only [hs, Finset.range_one, Finset.sum_singleton, add_zero, chanOffset_zero] at e e1 e2
  rw [e1, e2] at e
  simp [torchRelu, signRep] at e

/-- A type with two different fields. -/
example (f : ℝ → ℝ) : FibreEquivariant (B := Unit) (P := Unit) (C := Unit) (fun _ : Bool => True) ⟨(), [swapRep, trivRep]⟩ ⟨(), [swapRep, trivRep]⟩ (forward ⟨⟨(), [swapRep, trivRep]⟩, f⟩) :=
  (C48_equivariant (⟨⟨(), [swapRep, trivRep]⟩, f⟩ : PointwiseNL Unit (Rep Bool Unit)) (by
    intro r hr g _
    have hr : r ∈ [swapRep, trivRep] := hr
    simp only [List.mem_cons, List.not_mem_nil, or_false] at hr
    rcases hr with rfl | rfl
    · exact swapRep_perm g
    · exact trivRep_perm g)).1

/-- The regular representation of `C_4` and all functions. -/
example (f : ℝ → ℝ) : ∃ r, regularRep (Cyclic.table 4) (Cyclic.elements 4) (Cyclic.combine 4) (Cyclic.inverse 4) (Cyclic.irrepIds 4) (Cyclic.irrepChar 4) (Cyclic.irrepSumSq 4) [] = .ok r ∧ r.size = 4 ∧
    FibreEquivariant (B := Unit) (P := Unit) (C := Unit) (· ∈ Cyclic.elements 4) ⟨(), [r, r]⟩ ⟨(), [r, r]⟩ (forward ⟨⟨(), [r, r]⟩, f⟩) := by
  obtain ⟨r, h1, -, h2, h3, -⟩ := Cyclic.C16_cyclic 4 (by norm_num) [] (by simp)
  refine ⟨r, h1, h2, (C48_equivariant ⟨⟨(), [r, r]⟩, f⟩ fun r' hr g hg => ?_).1⟩
  obtain rfl : r' = r := by simpa using hr
  rw [h2]
  have hl : (Cyclic.elements 4).length = 4 := by decide
  have := (h3 g hg).perm (Cyclic.finGroup 4 (by norm_num)) hg
  rwa [hl] at this

end PointwiseNL

end Escnn
