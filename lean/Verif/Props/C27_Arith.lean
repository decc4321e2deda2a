import Verif.Model.Arith
import Verif.Lemmas.Fields
import Verif.Props.C25_TransformFibers

/-!
# C27: arithmetic of geometric tensors
-/

namespace Escnn

open NpMat

variable {B P S R C G Id : Type} {T : IrrepTable G Id} {El : G → Prop} {op : G → G → G} {one : G} {sz : R → ℕ}

/-- Equal representations (in the sense of the library) have the same matrices. -/
theorem Rep.PyEq.mat {r r' : Rep G Id} (h : r.PyEq r') (hr : r.WF T El) (hr' : r'.WF T El) (hT : T.Valid El op one) {g : G} (hg : El g) :
    r.mat g ≈ r'.mat g := by
  obtain ⟨-, h2, h3, -⟩ := h
  have hi : r.cobInv ≈ r'.cobInv := hr.inv.unique (hr'.inv.congr h2.symm (Eqv.refl _))
  refine (hr.mat g hg).trans (Eqv.trans ?_ (hr'.mat g hg).symm)
  rw [h3]
  have e1 := irrepsBlock_rows hT hr'.ok hg
  have e2 := irrepsBlock_cols hT hr'.ok hg
  refine conjBy_congr h2 (Eqv.refl _) hi ?_ ?_
  · rw [e1, hr'.size, hr.cob_cols]; exact h2.1
  · rw [e2, hr'.size, hr.inv_rows]; exact h2.1.symm

theorem FType.PyEq.fiberRep {t t' : FType S (Rep G Id)} (h : t.PyEq Rep.PyEq t') (ht : ∀ r ∈ t.reprs, r.WF T El)
    (ht' : ∀ r ∈ t'.reprs, r.WF T El) (hT : T.Valid El op one) {g : G} (hg : El g) : t.fiberRep g ≈ t'.fiberRep g := by
  obtain ⟨-, h⟩ := h
  unfold FType.fiberRep
  generalize t.reprs = L at *
  generalize t'.reprs = L' at *
  induction h with
  | nil => exact Eqv.refl _
  | cons h1 _ ih =>
    exact diag2_congr (h1.mat (ht _ (by simp)) (ht' _ (by simp)) hT hg)
      (ih (fun r hr => ht r (List.mem_cons_of_mem _ hr)) fun r hr => ht' r (List.mem_cons_of_mem _ hr))

theorem FType.PyEq.size {t t' : FType S (Rep G Id)} (h : t.PyEq Rep.PyEq t') : t.size Rep.size = t'.size Rep.size := by
  obtain ⟨-, h⟩ := h
  rw [FType.size_eq, FType.size_eq]
  generalize t.reprs = L at *
  generalize t'.reprs = L' at *
  induction h with
  | nil => rfl
  | cons h1 _ ih => simp only [List.map_cons, List.sum_cons, ih]; rw [show Rep.size _ = Rep.size _ from h1.2.1.1]

namespace GTensor

/-- A geometric tensor as the constructor leaves it, over well-formed representations. -/
structure WF (T : IrrepTable G Id) (El : G → Prop) (x : GTensor B P S (Rep G Id) C) : Prop where
  chans : x.tensor.chans = x.type.size Rep.size
  reps : ∀ r ∈ x.type.reprs, r.WF T El

theorem transformFibers_ok (hT : T.Valid El op one) {x : GTensor B P S (Rep G Id) C} (hx : x.WF T El) {g : G} (hg : El g) :
    x.transformFibers g = .ok ⟨chanMul (x.type.fiberRep g) x.tensor, x.type, x.coords⟩ := by
  obtain ⟨hr, hc⟩ := fiberRep_shape hx.reps hT hg
  unfold transformFibers FType.transformFibers
  rw [matChannels_ok (hc.trans hx.chans.symm)]
  exact GTensor.mk'_ok_iff.2 ⟨by rw [← FType.size_eq]; exact hr, rfl⟩

theorem WF.transform (hT : T.Valid El op one) {x y : GTensor B P S (Rep G Id) C} (hx : x.WF T El) {g : G} (hg : El g)
    (h : x.transformFibers g = .ok y) : y.WF T El := by
  rw [transformFibers_ok hT hx hg] at h
  cases h
  exact ⟨(fiberRep_shape hx.reps hT hg).1, hx.reps⟩

/-- Any linear combination `f u v = a u + b v` computed by `zipWith` commutes with the action. -/
theorem zipWith_action (hT : T.Valid El op one) (f : ℝ → ℝ → ℝ) (hf : ∃ a b : ℝ, ∀ u v, f u v = a * u + b * v)
    (x y : GTensor B P S (Rep G Id) C) (hx : x.WF T El) (hy : y.WF T El) (hc : Compatible Rep.PyEq x y) (g : G) (hg : El g) :
    ∃ z z' x' y' w, zipWith f Rep.PyEq Rep.size x y = .ok z ∧ z.transformFibers g = .ok z' ∧
      x.transformFibers g = .ok x' ∧ y.transformFibers g = .ok y' ∧ zipWith f Rep.PyEq Rep.size x' y' = .ok w ∧
      w.type = z'.type ∧ w.coords = z'.coords ∧ w.tensor ≈ z'.tensor ∧
      z.type = x.type ∧ z.coords = x.coords ∧ z.tensor.chans = x.tensor.chans ∧
      (∀ b c p, c < x.tensor.chans → z.tensor.get b c p = f (x.tensor.get b c p) (y.tensor.get b c p)) := by
  obtain ⟨a, b', hf⟩ := hf
  have hch : x.tensor.chans = y.tensor.chans := by rw [hx.chans, hy.chans, hc.1.size]
  have ok : ∀ u v : GTensor B P S (Rep G Id) C, u.WF T El → Compatible Rep.PyEq u v → u.tensor.chans = v.tensor.chans →
      zipWith f Rep.PyEq Rep.size u v = .ok ⟨⟨u.tensor.chans, fun b c p => f (u.tensor.get b c p) (v.tensor.get b c p)⟩, u.type, u.coords⟩ := by
    intro u v hu huv huv'
    unfold zipWith
    rw [if_pos huv, zipT, if_pos huv']
    exact GTensor.mk'_ok_iff.2 ⟨by rw [← FType.size_eq]; exact hu.chans, rfl⟩
  have hz := ok x y hx hc hch
  have hx' := transformFibers_ok hT hx hg
  have hy' := transformFibers_ok hT hy hg
  have hzwf : WF T El (⟨⟨x.tensor.chans, fun b c p => f (x.tensor.get b c p) (y.tensor.get b c p)⟩, x.type, x.coords⟩ : GTensor B P S (Rep G Id) C) :=
    ⟨hx.chans, hx.reps⟩
  have hz' := transformFibers_ok hT hzwf hg
  have hfib := hc.1.fiberRep hx.reps hy.reps hT hg
  obtain ⟨hr, hcl⟩ := fiberRep_shape hx.reps hT hg
  have hw := ok _ _ (hx.transform hT hg hx') (show Compatible Rep.PyEq
    (⟨chanMul (x.type.fiberRep g) x.tensor, x.type, x.coords⟩ : GTensor B P S (Rep G Id) C)
    ⟨chanMul (y.type.fiberRep g) y.tensor, y.type, y.coords⟩ from hc) hfib.1
  refine ⟨_, _, _, _, _, hz, hz', hx', hy', hw, rfl, rfl, ⟨rfl, fun b c p hcc => ?_⟩, rfl, rfl, rfl, fun _ _ _ _ => rfl⟩
  simp only [chanMul] at hcc ⊢
  rw [hf, Finset.mul_sum, Finset.mul_sum, ← hfib.2.1, ← Finset.sum_add_distrib]
  refine Finset.sum_congr rfl fun i hi => ?_
  rw [Finset.mem_range] at hi
  rw [hf, hfib.2.2 c i hcc hi]
  ring

/-- **C27** Addition of compatible tensors adds the entries, keeps the type, and commutes with the action. -/
theorem C27_add (hT : T.Valid El op one) (x y : GTensor B P S (Rep G Id) C) (hx : x.WF T El) (hy : y.WF T El)
    (hc : Compatible Rep.PyEq x y) (g : G) (hg : El g) :
    ∃ z z' x' y' w, add Rep.PyEq Rep.size x y = .ok z ∧ z.transformFibers g = .ok z' ∧
      x.transformFibers g = .ok x' ∧ y.transformFibers g = .ok y' ∧ add Rep.PyEq Rep.size x' y' = .ok w ∧
      w.type = z'.type ∧ w.coords = z'.coords ∧ w.tensor ≈ z'.tensor ∧
      z.type = x.type ∧ z.coords = x.coords ∧ z.tensor.chans = x.tensor.chans ∧
      (∀ b c p, c < x.tensor.chans → z.tensor.get b c p = x.tensor.get b c p + y.tensor.get b c p) :=
  zipWith_action hT _ ⟨1, 1, fun u v => by ring⟩ x y hx hy hc g hg

/-- **C27** Subtraction. -/
theorem C27_sub (hT : T.Valid El op one) (x y : GTensor B P S (Rep G Id) C) (hx : x.WF T El) (hy : y.WF T El)
    (hc : Compatible Rep.PyEq x y) (g : G) (hg : El g) :
    ∃ z z' x' y' w, sub Rep.PyEq Rep.size x y = .ok z ∧ z.transformFibers g = .ok z' ∧
      x.transformFibers g = .ok x' ∧ y.transformFibers g = .ok y' ∧ sub Rep.PyEq Rep.size x' y' = .ok w ∧
      w.type = z'.type ∧ w.coords = z'.coords ∧ w.tensor ≈ z'.tensor ∧
      z.type = x.type ∧ z.coords = x.coords ∧ z.tensor.chans = x.tensor.chans ∧
      (∀ b c p, c < x.tensor.chans → z.tensor.get b c p = x.tensor.get b c p - y.tensor.get b c p) :=
  zipWith_action hT _ ⟨1, -1, fun u v => by ring⟩ x y hx hy hc g hg

/-- **C27** Tensors of different types, base spaces or coordinates are rejected, by the pure and by the in-place operations. -/
theorem C27_rejects (eqR : R → R → Prop) (x y : GTensor B P S R C)
    (h : x.type.gspace ≠ y.type.gspace ∨ ¬ List.Forall₂ eqR x.type.reprs y.type.reprs ∨ x.coords ≠ y.coords) :
    add eqR sz x y = .error .assertion ∧ sub eqR sz x y = .error .assertion ∧
    ∀ (m : ℕ → FTensor B P) (o o' : Obj S R C), o.val m = x → o'.val m = y →
      izipWith (· + ·) eqR m o o' = .error .assertion ∧ izipWith (· - ·) eqR m o o' = .error .assertion := by
  have hc : ¬ Compatible eqR x y := by rintro ⟨⟨h1, h2⟩, h3⟩; tauto
  refine ⟨by rw [add, zipWith, if_neg hc], by rw [sub, zipWith, if_neg hc], fun m o o' h1 h2 => ?_⟩
  rw [← h1, ← h2] at hc
  exact ⟨by rw [izipWith, if_neg hc], by rw [izipWith, if_neg hc]⟩

/-- **C27** Multiplication by a float or a one-element tensor scales the entries and commutes with the action; any other operand
(also an `int`) raises `TypeError`. -/
theorem C27_mul (hT : T.Valid El op one) (x : GTensor B P S (Rep G Id) C) (hx : x.WF T El) (g : G) (hg : El g) (r : ℝ) (s : Scalar)
    (hs : s = .float r ∨ s = .tensor r) :
    (∃ z z' x' w, mulS Rep.size x s = .ok z ∧ z.transformFibers g = .ok z' ∧ x.transformFibers g = .ok x' ∧ mulS Rep.size x' s = .ok w ∧
      w.type = z'.type ∧ w.coords = z'.coords ∧ w.tensor ≈ z'.tensor ∧ z.type = x.type ∧ z.coords = x.coords ∧
      z.tensor.chans = x.tensor.chans ∧ ∀ b c p, c < x.tensor.chans → z.tensor.get b c p = r * x.tensor.get b c p) ∧
    mulS Rep.size x .other = .error .type := by
  refine ⟨?_, rfl⟩
  have ok : ∀ u : GTensor B P S (Rep G Id) C, u.WF T El →
      mulS Rep.size u s = .ok ⟨⟨u.tensor.chans, fun b c p => u.tensor.get b c p * r⟩, u.type, u.coords⟩ := by
    intro u hu
    rcases hs with rfl | rfl <;> exact GTensor.mk'_ok_iff.2 ⟨by rw [← FType.size_eq]; exact hu.chans, rfl⟩
  have hx' := transformFibers_ok hT hx hg
  have hz' := transformFibers_ok hT (x := (⟨⟨x.tensor.chans, fun b c p => x.tensor.get b c p * r⟩, x.type, x.coords⟩ : GTensor B P S (Rep G Id) C))
    ⟨hx.chans, hx.reps⟩ hg
  refine ⟨_, _, _, _, ok x hx, hz', hx', ok _ (hx.transform hT hg hx'), rfl, rfl, ⟨rfl, fun b c p _ => ?_⟩, rfl, rfl, rfl, fun _ _ _ _ => mul_comm _ _⟩
  simp only [chanMul, Finset.sum_mul]
  exact Finset.sum_congr rfl fun i _ => by ring

/-- **C27** The in-place operations agree with the pure ones, also when both operands are the same object or share their storage; the
memory changes at the address of the left operand only. -/
theorem C27_inplace (eqR : R → R → Prop) (m : ℕ → FTensor B P) (x y : Obj S R C) (hx : (m x.ref).chans = x.type.size sz) (f : ℝ → ℝ → ℝ) :
    (∀ z, zipWith f eqR sz (x.val m) (y.val m) = .ok z → ∃ m', izipWith f eqR m x y = .ok m' ∧ x.val m' = z ∧ ∀ a, a ≠ x.ref → m' a = m a) ∧
    (∀ e, zipWith f eqR sz (x.val m) (y.val m) = .error e → izipWith f eqR m x y = .error e) ∧
    ∀ s : Scalar, (∀ z, mulS sz (x.val m) s = .ok z → ∃ m', imulS m x s = .ok m' ∧ x.val m' = z ∧ ∀ a, a ≠ x.ref → m' a = m a) ∧
      ∀ e, mulS sz (x.val m) s = .error e → imulS m x s = .error e := by
  have upd : ∀ d : FTensor B P, x.val (Function.update m x.ref d) = ⟨d, x.type, x.coords⟩ := by
    intro d; simp [Obj.val]
  have upd' : ∀ (d : FTensor B P) a, a ≠ x.ref → Function.update m x.ref d a = m a := fun d a ha => Function.update_of_ne ha _ _
  have mk : ∀ g : B → ℕ → P → ℝ, GTensor.mk' sz (⟨(m x.ref).chans, g⟩ : FTensor B P) x.type x.coords = .ok ⟨⟨(m x.ref).chans, g⟩, x.type, x.coords⟩ :=
    fun g => GTensor.mk'_ok_iff.2 ⟨by rw [← FType.size_eq]; exact hx, rfl⟩
  have key : (∃ g, zipWith f eqR sz (x.val m) (y.val m) = .ok ⟨⟨(m x.ref).chans, g⟩, x.type, x.coords⟩ ∧
      izipWith f eqR m x y = .ok (Function.update m x.ref ⟨(m x.ref).chans, g⟩)) ∨
      ∃ e, zipWith f eqR sz (x.val m) (y.val m) = .error e ∧ izipWith f eqR m x y = .error e := by
    by_cases hc : Compatible eqR (x.val m) (y.val m)
    · by_cases hs : (m x.ref).chans = (m y.ref).chans
      · refine .inl ⟨fun b c p => f ((m x.ref).get b c p) ((m y.ref).get b c p), ?_, ?_⟩
        · rw [zipWith, if_pos hc, zipT, if_pos (show (x.val m).tensor.chans = (y.val m).tensor.chans from hs)]
          exact mk _
        · rw [izipWith, if_pos hc, zipT, if_pos hs]
          rfl
      · refine .inr ⟨.runtime, ?_, ?_⟩
        · rw [zipWith, if_pos hc, zipT, if_neg (show ¬ (x.val m).tensor.chans = (y.val m).tensor.chans from hs)]
          rfl
        · rw [izipWith, if_pos hc, zipT, if_neg hs]
          rfl
    · exact .inr ⟨.assertion, by rw [zipWith, if_neg hc], by rw [izipWith, if_neg hc]⟩
  refine ⟨?_, ?_, ?_⟩
  · intro z hz
    rcases key with ⟨g, h1, h2⟩ | ⟨e, h1, h2⟩
    · rw [h1] at hz
      cases hz
      exact ⟨_, h2, upd _, upd' _⟩
    · rw [h1] at hz
      cases hz
  · intro e hz
    rcases key with ⟨g, h1, h2⟩ | ⟨e', h1, h2⟩
    · rw [h1] at hz
      cases hz
    · rw [h1] at hz
      cases hz
      exact h2
  · rintro (r | r | _)
    · refine ⟨fun z hz => ?_, fun e hz => ?_⟩
      · simp only [mulS, Obj.val] at hz; rw [mk] at hz; cases hz; exact ⟨_, rfl, upd _, upd' _⟩
      · simp only [mulS, Obj.val] at hz; rw [mk] at hz; cases hz
    · refine ⟨fun z hz => ?_, fun e hz => ?_⟩
      · simp only [mulS, Obj.val] at hz; rw [mk] at hz; cases hz; exact ⟨_, rfl, upd _, upd' _⟩
      · simp only [mulS, Obj.val] at hz; rw [mk] at hz; cases hz
    · refine ⟨fun z hz => ?_, fun e hz => ?_⟩
      · simp [mulS] at hz
      · simp only [mulS, Except.error.injEq] at hz; subst hz; rfl

example : ∃ x y : GTensor Unit Unit Unit (Rep ℤ ℕ) Unit, x.WF (Cyclic.table 4) (fun e => Cyclic.isElement 4 e = true) ∧
    y.WF (Cyclic.table 4) (fun e => Cyclic.isElement 4 e = true) ∧ Compatible Rep.PyEq x y ∧ x.tensor.chans = 6 ∧ ¬ x.tensor ≈ y.tensor := by
  obtain ⟨r, -, hwf, -, -, hcob, -⟩ := C14_constructor (Cyclic.table_valid 4 (by norm_num)) [] "r" [0, 1] (eye 3) (eye 3) ∅ (by simp)
    (by simp) (IsInv.eye 3) (by simp [Cyclic.table]) (by simp [Cyclic.table, Cyclic.irrepSize]) false
  have hs : r.size = 3 := by rw [Rep.size, hcob]; rfl
  have hsz : (⟨(), [r, r]⟩ : FType Unit (Rep ℤ ℕ)).size Rep.size = 6 := by rw [FType.size_eq]; simp [hs]
  refine ⟨⟨⟨6, fun _ c _ => c⟩, ⟨(), [r, r]⟩, ()⟩, ⟨⟨6, fun _ c _ => c + 1⟩, ⟨(), [r, r]⟩, ()⟩, ⟨hsz.symm, by simpa using hwf⟩,
    ⟨hsz.symm, by simpa using hwf⟩, ⟨⟨rfl, ?_⟩, rfl⟩, rfl, fun h => ?_⟩
  · exact .cons ⟨rfl, Eqv.refl _, rfl, rfl⟩ (.cons ⟨rfl, Eqv.refl _, rfl, rfl⟩ .nil)
  · have := h.2 () 0 () (by norm_num)
    simp at this

end GTensor

end Escnn
