import Verif.Model.TrainEval
import Verif.Model.Linear
import Mathlib.Tactic

/-!
# C45: the filters used in evaluation mode
-/

namespace Escnn

namespace Layer

variable {W F : Type} (expand : W → F)

theorem run_append (tr : Layer W F → Bool → Layer W F) (s : Layer W F) (h h' : List (LayerOp W F)) : run tr s (h ++ h') = run tr (run tr s h) h' := List.foldl_append

/-- The history changes parameters in evaluation mode only by loading a state dictionary which contains the filter belonging to its weights. -/
def Disciplined (tr : Layer W F → Bool → Layer W F) : Layer W F → List (LayerOp W F) → Prop
  | _, [] => True
  | s, o :: h => (match o with
      | .update _ => s.training = true
      | .load d => s.training = true ∨ d.buffer = some (expand d.weights)
      | _ => True) ∧ Disciplined tr (s.step tr o) h

/-- The buffer belongs to the weights in evaluation mode. -/
def Fresh (s : Layer W F) : Prop := s.training = false → s.buffer = some (expand s.weights)

theorem used_of_fresh {s : Layer W F} (h : Fresh expand s) : s.used expand = .ok (expand s.weights) := by
  unfold used
  by_cases ht : s.training = true
  · rw [if_neg (by simp [ht])]
  · rw [if_pos ht, h (by simpa using ht)]

theorem load_fresh {s : Layer W F} (h : Fresh expand s) {d : StateDict W F} (hd : s.training = true ∨ d.buffer = some (expand d.weights)) : Fresh expand (s.load d) := by
  intro ht
  have ht' : s.training = false := ht
  have hb := h ht'
  rcases hd with hd | hd
  · rw [hd] at ht'; cases ht'
  · simp only [load, hb, hd]

theorem run_fresh (tr : Layer W F → Bool → Layer W F) (htr : ∀ s mode, Fresh expand s → Fresh expand (tr s mode)) : ∀ (h : List (LayerOp W F)) (s : Layer W F), Fresh expand s →
    Disciplined expand tr s h → Fresh expand (run tr s h)
  | [], _, hs, _ => hs
  | o :: h, s, hs, hd => by
    refine run_fresh tr htr h (s.step tr o) ?_ hd.2
    have hd1 := hd.1
    cases o with
    | train mode => exact htr s mode hs
    | update w =>
      intro ht
      simp only at hd1
      rw [show (s.step tr (.update w)).training = s.training from rfl, hd1] at ht
      cases ht
    | forward => exact hs
    | load d => exact load_fresh expand hs hd1

theorem trainLinear_fresh (s : Layer W F) (mode : Bool) (_ : Fresh expand s) : Fresh expand (trainLinear expand s mode) := by
  intro ht
  cases mode
  · rfl
  · cases ht

theorem trainConv_fresh (s : Layer W F) (mode : Bool) (hs : Fresh expand s) : Fresh expand (trainConv expand s mode) := by
  intro ht
  unfold trainConv at ht ⊢
  split_ifs at ht ⊢ with hm h1
  · simp only at ht
    rw [ht] at hm
    cases hm
  · rfl
  · exact hs (by simpa using h1)

/-- **C45** (partial: histories which change parameters in evaluation mode are excluded, except the loading of a dictionary with the right filter) After every such history, a
convolution or linear layer computes with the parameters expanded from its current weights. -/
theorem C45_current_partial (w : W) (zero : F) (h : List (LayerOp W F)) :
    (Disciplined expand (trainLinear expand) (init w zero) h → (run (trainLinear expand) (init w zero) h).used expand = .ok (expand (run (trainLinear expand) (init w zero) h).weights)) ∧
    (Disciplined expand (trainConv expand) (init w zero) h → (run (trainConv expand) (init w zero) h).used expand = .ok (expand (run (trainConv expand) (init w zero) h).weights)) := by
  have h0 : Fresh expand (init w zero) := fun ht => by cases ht
  exact ⟨fun hd => used_of_fresh expand (run_fresh expand _ (trainLinear_fresh expand) h _ h0 hd), fun hd => used_of_fresh expand (run_fresh expand _ (trainConv_fresh expand) h _ h0 hd)⟩

/-- An operation other than `train` and `load`. -/
def Quiet : LayerOp W F → Prop
  | .update _ => True
  | .forward => True
  | _ => False

theorem run_quiet (tr : Layer W F → Bool → Layer W F) : ∀ (h : List (LayerOp W F)) (s : Layer W F), (∀ o ∈ h, Quiet o) → (run tr s h).training = s.training ∧ (run tr s h).buffer = s.buffer
  | [], _, _ => ⟨rfl, rfl⟩
  | o :: h, s, hq => by
    have ih := run_quiet tr h (s.step tr o) fun o' ho' => hq o' (List.mem_cons_of_mem _ ho')
    have ho := hq o List.mem_cons_self
    cases o with
    | train m => exact ho.elim
    | update w => exact ih
    | forward => exact ih
    | load d => exact ho.elim

/-- **C45** What a linear layer computes with in evaluation mode, in any history: the weights of the last call of `train(False)` (or `eval()`), whatever the state before it. -/
theorem C45_linear_eval (s : Layer W F) (h : List (LayerOp W F)) (hq : ∀ o ∈ h, Quiet o) :
    (run (trainLinear expand) s (.train false :: h)).used expand = .ok (expand s.weights) := by
  obtain ⟨h1, h2⟩ := run_quiet (trainLinear expand) h (s.step (trainLinear expand) (.train false)) hq
  have e : run (trainLinear expand) s (.train false :: h) = run (trainLinear expand) (s.step (trainLinear expand) (.train false)) h := rfl
  rw [e, used, if_pos (by rw [h1]; simp [step, trainLinear]), h2]
  rfl

/-- An operation which keeps a convolution in evaluation mode and loads nothing. -/
def Stays : LayerOp W F → Prop
  | .update _ => True
  | .forward => True
  | .train mode => mode = false
  | .load _ => False

theorem run_stays : ∀ (h : List (LayerOp W F)) (s : Layer W F), s.training = false → (∀ o ∈ h, Stays o) →
    (run (trainConv expand) s h).training = false ∧ (run (trainConv expand) s h).buffer = s.buffer
  | [], s, hs, _ => ⟨hs, rfl⟩
  | o :: h, s, hs, hq => by
    have ho := hq o List.mem_cons_self
    have hst : (s.step (trainConv expand) o).training = false ∧ (s.step (trainConv expand) o).buffer = s.buffer := by
      cases o with
      | train m =>
        obtain rfl : m = false := ho
        simp [step, trainConv, hs]
      | update w => exact ⟨hs, rfl⟩
      | forward => exact ⟨hs, rfl⟩
      | load d => exact ho.elim
    have ih := run_stays h (s.step (trainConv expand) o) hst.1 fun o' ho' => hq o' (List.mem_cons_of_mem _ ho')
    exact ⟨ih.1, ih.2.trans hst.2⟩

/-- **C45** What a convolution computes with in evaluation mode, in any history: the weights it had when it was last switched from training to evaluation mode; later calls of `eval()` do not
matter. -/
theorem C45_conv_eval (s : Layer W F) (hs : s.training = true) (h : List (LayerOp W F)) (hq : ∀ o ∈ h, Stays o) :
    (run (trainConv expand) s (.train false :: h)).used expand = .ok (expand s.weights) := by
  have h0 : s.step (trainConv expand) (.train false) = { s with buffer := some (expand s.weights), training := false } := by simp [step, trainConv, hs]
  obtain ⟨h1, h2⟩ := run_stays expand h (s.step (trainConv expand) (.train false)) (by rw [h0]) hq
  have e : run (trainConv expand) s (.train false :: h) = run (trainConv expand) (s.step (trainConv expand) (.train false)) h := rfl
  rw [e, used, if_pos (by rw [h1]; simp), h2, h0]

/-- **C45** In training mode the current weights are used, after every history. -/
theorem C45_training (tr : Layer W F → Bool → Layer W F) (s : Layer W F) (h : List (LayerOp W F)) (ht : (run tr s h).training = true) :
    (run tr s h).used expand = .ok (expand (run tr s h).weights) := by
  rw [used, if_neg (by simp [ht])]

/-- **C45** Switching to training mode deletes the buffers: whatever the layer was before, its state dictionary then has no filter, and a strict load of it into a layer which holds a filter raises an
exception instead of leaving or copying a filter which belongs to other weights. -/
theorem C45_training_dict (tr : Layer W F → Bool → Layer W F) (htr : tr = trainLinear expand ∨ tr = trainConv expand) (s : Layer W F) (h : List (LayerOp W F)) (hq : ∀ o ∈ h, Quiet o) :
    (run tr s (.train true :: h)).stateDict.buffer = none ∧ ∀ s' : Layer W F, s'.training = false → s'.used expand ≠ .error .attribute → s'.loadOk (run tr s (.train true :: h)).stateDict = false := by
  obtain ⟨-, h2⟩ := run_quiet tr h (s.step tr (.train true)) hq
  have hb : (run tr s (.train true :: h)).buffer = none := by
    rw [show run tr s (.train true :: h) = run tr (s.step tr (.train true)) h from rfl, h2]
    rcases htr with rfl | rfl <;> rfl
  refine ⟨hb, fun s' hs' hu => ?_⟩
  cases hbuf : s'.buffer with
  | none => exact absurd (by rw [used, if_pos (by simp [hs']), hbuf]) hu
  | some f => simp [loadOk, stateDict, hb, hbuf]

example := C45_training_dict (fun w : ℕ => w + 1) (trainConv fun w => w + 1) (.inr rfl) ⟨0, false, some 1⟩ [.update 3, .forward] (by simp [Quiet])

/-- **C45 is violated** by a weight update in evaluation mode: the layers go on with the old weights. -/
theorem C45_violated_update (w w' : W) (zero : F) (hw : expand w ≠ expand w') :
    (run (trainLinear expand) (init w zero) [.train false, .update w']).used expand ≠ .ok (expand (run (trainLinear expand) (init w zero) [.train false, .update w']).weights) ∧
    (run (trainConv expand) (init w zero) [.train false, .update w']).used expand ≠ .ok (expand (run (trainConv expand) (init w zero) [.train false, .update w']).weights) := by
  constructor
  · rw [C45_linear_eval expand (init w zero) [.update w'] (by simp [Quiet])]
    exact fun h => hw (Except.ok.inj h)
  · rw [C45_conv_eval expand (init w zero) rfl [.update w'] (by simp [Stays])]
    exact fun h => hw (Except.ok.inj h)

/-- **C45 is violated** by convolutions even if `eval()` is called after the update, though the documentation of `train` promises the filter of the current values; linear layers are not affected. -/
theorem C45_violated_eval_again (w w' : W) (zero : F) (hw : expand w ≠ expand w') :
    (run (trainConv expand) (init w zero) [.train false, .update w', .train false]).used expand ≠
      .ok (expand (run (trainConv expand) (init w zero) [.train false, .update w', .train false]).weights) ∧
    (run (trainLinear expand) (init w zero) [.train false, .update w', .train false]).used expand =
      .ok (expand (run (trainLinear expand) (init w zero) [.train false, .update w', .train false]).weights) := by
  constructor
  · rw [C45_conv_eval expand (init w zero) rfl [.update w', .train false] (by simp [Stays])]
    exact fun h => hw (Except.ok.inj h)
  · rfl

/-- **C45 is violated** by loading the state dictionary of a layer which was never switched to evaluation mode: it contains the zeros of the constructor under the name of the filter, no name
is missing, and a layer in evaluation mode computes with these zeros. -/
theorem C45_violated_load (w w' : W) (zero : F) (hz : zero ≠ expand w') (tr : Layer W F → Bool → Layer W F) (htr : tr = trainLinear expand ∨ tr = trainConv expand) :
    (run tr (init w zero) [.train false]).loadOk (init w' zero).stateDict = true ∧
    (run tr (init w zero) [.train false, .load (init w' zero).stateDict]).weights = w' ∧
    (run tr (init w zero) [.train false, .load (init w' zero).stateDict]).used expand = .ok zero ∧
    (run tr (init w zero) [.train false, .load (init w' zero).stateDict]).used expand ≠ .ok (expand w') := by
  rcases htr with rfl | rfl <;> exact ⟨rfl, rfl, rfl, fun h => hz (Except.ok.inj h)⟩

/-- A history with two epochs of training, evaluation, and the loading of a dictionary. -/
example : Disciplined (fun w : ℕ => w + 1) (trainConv fun w => w + 1) (init 0 0) [.update 1, .train false, .forward, .train true, .update 2, .train false, .train false, .load ⟨5, some 6⟩, .forward] := by
  simp [Disciplined, step, trainConv, init, load]

end Layer

/-- The layers of the model of `Linear` behave like this machine (if the expansion returns): `train` and the parameters used by `forward`. -/
theorem C45_linear_model {S R A : Type} (l : Linear S R A) (expand : (ℕ → ℝ) × (ℕ → ℝ) → NpMat ℝ × Option (ℕ → ℝ))
    (he : ∀ w b, Linear.expandParameters { l with weights := w, bias := b } = .ok (expand (w, b))) (w b : ℕ → ℝ) (tr : Bool) (buf : Option (NpMat ℝ × Option (ℕ → ℝ))) :
    let toL := fun s : Layer ((ℕ → ℝ) × (ℕ → ℝ)) (NpMat ℝ × Option (ℕ → ℝ)) =>
      ({ l with weights := s.weights.1, bias := s.weights.2, training := s.training, matrix := s.buffer.map Prod.fst, expandedBias := s.buffer.map Prod.snd } : Linear S R A)
    (∀ mode, (toL ⟨(w, b), tr, buf⟩).train mode = .ok (toL (Layer.trainLinear expand ⟨(w, b), tr, buf⟩ mode))) ∧ (toL ⟨(w, b), tr, buf⟩).current = Layer.used expand ⟨(w, b), tr, buf⟩ := by
  intro toL
  have he' : ∀ s, (toL s).expandParameters = .ok (expand s.weights) := fun s => he s.weights.1 s.weights.2
  refine ⟨fun mode => ?_, ?_⟩
  · cases mode with
    | true => rfl
    | false =>
      rw [Linear.train, if_neg (by simp)]
      simp only [bind, Except.bind]
      rw [he']
      rfl
  · cases tr with
    | true =>
      rw [Linear.current, if_neg (by simp [toL]), he']
      rfl
    | false =>
      rw [Linear.current, if_pos (by simp [toL])]
      cases buf <;> rfl

end Escnn
