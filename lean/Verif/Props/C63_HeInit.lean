import Verif.Model.HeInit
import Verif.Props.C33_WeightInfo
import Mathlib.Probability.Moments.Variance

/-!
# C63: the variances of `generalized_he_init`
-/

namespace Escnn.He

variable {J : Type} [DecidableEq J]

/-- How many different input irreps reach the output position `o`. -/
def inputsCount (L : List (WInfo J)) (o : ℕ) : ℕ := ((L.filter fun a => a.outPos = o).map WInfo.inIrrep).toFinset.card

/-- How many weights connect the input irrep `i` to the output position `o`. -/
def basisCount (L : List (WInfo J)) (i : J) (o : ℕ) : ℕ := (L.filter fun a => a.inIrrep = i ∧ a.outPos = o).length

theorem counts_spec (L : List (WInfo J)) : (∀ o, ((counts L).inputs o).Nodup ∧ ∀ i, i ∈ (counts L).inputs o ↔ ∃ a ∈ L, a.outPos = o ∧ a.inIrrep = i) ∧ ∀ i o, (counts L).basis (i, o) = basisCount L i o := by
  induction L using List.reverseRecOn with
  | nil => simp [counts, basisCount]
  | append_singleton L a ih =>
    obtain ⟨ih1, ih2⟩ := ih
    have e : counts (L ++ [a]) = (counts L).step a := by simp [counts]
    rw [e]
    refine ⟨fun o => ?_, fun i o => ?_⟩
    · simp only [Counts.step, Function.update_apply]
      by_cases h : o = a.outPos
      · subst h
        simp only [if_true]
        obtain ⟨n, m⟩ := ih1 a.outPos
        unfold setAdd
        split_ifs with hc
        · refine ⟨n, fun i => ?_⟩
          rw [m]
          constructor
          · rintro ⟨b, hb, h1, h2⟩; exact ⟨b, by simp [hb], h1, h2⟩
          · rintro ⟨b, hb, h1, h2⟩
            rcases List.mem_append.1 hb with hb | hb
            · exact ⟨b, hb, h1, h2⟩
            · rw [List.mem_singleton.1 hb] at h2
              rw [← h2]
              exact (m _).1 hc
        · refine ⟨by simp [List.nodup_append, n]; exact fun b hb h => hc (h ▸ hb), fun i => ?_⟩
          rw [List.mem_append, m, List.mem_singleton]
          constructor
          · rintro (⟨b, hb, h1, h2⟩ | rfl)
            · exact ⟨b, by simp [hb], h1, h2⟩
            · exact ⟨a, by simp, rfl, rfl⟩
          · rintro ⟨b, hb, h1, h2⟩
            rcases List.mem_append.1 hb with hb | hb
            · exact Or.inl ⟨b, hb, h1, h2⟩
            · rw [List.mem_singleton.1 hb] at h2
              exact Or.inr h2.symm
      · simp only [h, if_false]
        refine ⟨(ih1 o).1, fun i => ?_⟩
        rw [(ih1 o).2]
        constructor
        · rintro ⟨b, hb, h1, h2⟩; exact ⟨b, by simp [hb], h1, h2⟩
        · rintro ⟨b, hb, h1, h2⟩
          rcases List.mem_append.1 hb with hb | hb
          · exact ⟨b, hb, h1, h2⟩
          · rw [List.mem_singleton.1 hb] at h1
            exact absurd h1.symm h
    · simp only [Counts.step, Function.update_apply, basisCount, List.filter_append, List.length_append]
      by_cases h : (i, o) = (a.inIrrep, a.outPos)
      · obtain ⟨rfl, rfl⟩ := Prod.mk.inj h
        simp [ih2, basisCount]
      · rw [if_neg h, ih2, List.filter_cons_of_neg (by simp only [decide_eq_true_eq]; rintro ⟨rfl, rfl⟩; exact h rfl)]
        simp [basisCount]

theorem inputs_length (L : List (WInfo J)) (o : ℕ) : ((counts L).inputs o).length = inputsCount L o := by
  obtain ⟨n, m⟩ := (counts_spec L).1 o
  rw [inputsCount, ← List.toFinset_card_of_nodup n]
  congr 1
  ext i
  simp only [List.mem_toFinset, m, List.mem_map, List.mem_filter, decide_eq_true_eq, and_assoc]

theorem assignLoop_spec (c : Counts J) (L : List (WInfo J)) (w : ℕ) (vars : List ℝ) (h : w + L.length ≤ vars.length) :
    ∃ v, assignLoop c w vars L = .ok v ∧ v.length = vars.length ∧ ∀ k, v[k]? = if h : w ≤ k ∧ k < w + L.length then some (1 / Real.sqrt (((c.inputs (L[k - w]'(by omega)).outPos).length : ℝ) *
      c.basis ((L[k - w]'(by omega)).inIrrep, (L[k - w]'(by omega)).outPos))) else vars[k]? := by
  induction L generalizing w vars with
  | nil => exact ⟨vars, rfl, rfl, fun k => by rw [dif_neg (by simp <;> omega)]⟩
  | cons a L ih =>
    simp only [List.length_cons] at h
    obtain ⟨v, h1, h2, h3⟩ := ih (w + 1) (vars.set w (1 / Real.sqrt (((c.inputs a.outPos).length : ℝ) * c.basis (a.inIrrep, a.outPos)))) (by simp; omega)
    refine ⟨v, by rw [assignLoop, if_pos (by omega), h1], by simpa using h2, fun k => ?_⟩
    rw [h3 k]
    by_cases c1 : w + 1 ≤ k ∧ k < w + 1 + L.length
    · rw [dif_pos c1, dif_pos (by simp only [List.length_cons]; omega)]
      have e : k - w = (k - (w + 1)) + 1 := by omega
      simp only [e, List.getElem_cons_succ]
    · rw [dif_neg c1]
      by_cases c2 : k = w
      · subst c2
        rw [dif_pos (by simp only [List.length_cons]; omega)]
        simp only [Nat.sub_self, List.getElem_cons_zero]
        rw [List.getElem?_set_self (by omega)]
      · rw [dif_neg (by simp only [List.length_cons]; omega), List.getElem?_set_ne (fun h => c2 h.symm)]

/-- **C63** For every basis layout: the factor of the weight `w` is `1 / √(inputs_count * basis_count)`, where `inputs_count` is the number of input irreps which reach its output position and `basis_count` the number of weights
which connect its input irrep with this position; it is positive, it is at most `1`, and equal for all the weights of such a group — in particular for those of one harmonic. -/
theorem C63_variances_partial (dim : ℕ) (L : List (WInfo J)) (h : L.length = dim) : ∃ v, variances dim L = .ok v ∧ v.length = dim ∧
    (∀ (w : ℕ) a, L[w]? = some a → 0 < inputsCount L a.outPos ∧ 0 < basisCount L a.inIrrep a.outPos ∧
      ∃ x, v[w]? = some x ∧ 0 < x ∧ x ≤ 1 ∧ x ^ 2 = 1 / ((inputsCount L a.outPos : ℝ) * basisCount L a.inIrrep a.outPos)) ∧
    ∀ (w w' : ℕ) a a', L[w]? = some a → L[w']? = some a' → a.inIrrep = a'.inIrrep → a.outPos = a'.outPos → v[w]? = v[w']? := by
  obtain ⟨v, h1, h2, h3⟩ := assignLoop_spec (counts L) L 0 (List.replicate dim 1) (by simp [h])
  have get : ∀ (w : ℕ) a, L[w]? = some a → v[w]? = some (1 / Real.sqrt ((inputsCount L a.outPos : ℝ) * basisCount L a.inIrrep a.outPos)) := by
    intro w a ha
    obtain ⟨hw, rfl⟩ := List.getElem?_eq_some_iff.1 ha
    rw [h3 w, dif_pos (by omega)]
    simp only [Nat.sub_zero]
    rw [inputs_length, (counts_spec L).2]
  refine ⟨v, h1, by simpa using h2, fun w a ha => ?_, fun w w' a a' ha ha' e1 e2 => by rw [get w a ha, get w' a' ha', e1, e2]⟩
  have hm := List.mem_of_getElem? ha
  have p1 : 0 < inputsCount L a.outPos := Finset.card_pos.2 ⟨a.inIrrep, by simp only [List.mem_toFinset, List.mem_map, List.mem_filter, decide_eq_true_eq]; exact ⟨a, ⟨hm, rfl⟩, rfl⟩⟩
  have p2 : 0 < basisCount L a.inIrrep a.outPos := List.length_pos_of_mem (a := a) (by simp [hm])
  have hp : (1 : ℝ) ≤ (inputsCount L a.outPos : ℝ) * basisCount L a.inIrrep a.outPos := by exact_mod_cast Nat.mul_pos p1 p2
  have hs : 1 ≤ Real.sqrt ((inputsCount L a.outPos : ℝ) * basisCount L a.inIrrep a.outPos) := Real.one_le_sqrt.2 hp
  refine ⟨p1, p2, _, get w a ha, by positivity, by rw [div_le_one (by linarith)]; exact hs, ?_⟩
  rw [div_pow, one_pow, Real.sq_sqrt (by linarith)]

/-- **C63** The variance of the weights: with noise of variance `1`, the weight `w` gets the variance `1 / (inputs_count * basis_count)`; without the cache, or if managers which compare equal have the same layout and the cache was filled by this
function. -/
theorem C63_weight_variance {Ω : Type} [MeasurableSpace Ω] (μ : MeasureTheory.Measure Ω) [MeasureTheory.IsProbabilityMeasure μ] (Z : ℕ → Ω → ℝ) (hZ : ∀ w, ProbabilityTheory.variance (Z w) μ = 1)
    (eq : Manager J → Manager J → Bool) (m : Manager J) (hm : m.info.length = m.dim) (cache : Bool) (stored : List (Manager J × List ℝ))
    (hs : ∀ e ∈ stored, eq e.1 m = true → variances m.dim m.info = .ok e.2) :
    ∃ st, ∃ t : Ω → List ℝ, (∀ ω, init eq m.dim m cache stored (fun w => Z w ω) = .ok (st, t ω) ∧ (t ω).length = m.dim) ∧
      ∀ (w : ℕ) a, m.info[w]? = some a → 0 < ProbabilityTheory.variance (fun ω => ((t ω)[w]?).getD 0) μ ∧
        ProbabilityTheory.variance (fun ω => ((t ω)[w]?).getD 0) μ = 1 / ((inputsCount m.info a.outPos : ℝ) * basisCount m.info a.inIrrep a.outPos) := by
  obtain ⟨v, h1, h2, h3, -⟩ := C63_variances_partial m.dim m.info hm
  have main : ∃ st, ∀ noise, init eq m.dim m cache stored noise = .ok (st, v.zipIdx.map fun p => p.1 * noise p.2) := by
    cases hc : cache
    · exact ⟨stored, fun noise => by simp [init, h1, bind, Except.bind]⟩
    · cases hf : stored.find? fun e => eq e.1 m with
      | none => exact ⟨stored ++ [(m, v)], fun noise => by simp only [init, hf, h1]; simp [bind, Except.bind]⟩
      | some e =>
        have he : e.2 = v := by
          have := hs e (List.mem_of_find?_eq_some hf) (by simpa using List.find?_some hf)
          rw [h1] at this
          exact (Except.ok.inj this).symm
        exact ⟨stored, fun noise => by simp only [init, hf, he]; simp⟩
  obtain ⟨st, hst⟩ := main
  refine ⟨st, fun ω => v.zipIdx.map fun p => p.1 * Z p.2 ω, fun ω => ⟨hst _, by simp [h2]⟩, fun w a ha => ?_⟩
  obtain ⟨p1, p2, x, hx, x0, -, xs⟩ := h3 w a ha
  have e : (fun ω => ((v.zipIdx.map fun p => p.1 * Z p.2 ω)[w]?).getD 0) = fun ω => x * Z w ω := by
    funext ω
    simp [List.getElem?_zipIdx, hx]
  rw [e, ProbabilityTheory.variance_const_mul, hZ, mul_one, xs]
  refine ⟨?_, rfl⟩
  have : (1 : ℝ) ≤ (inputsCount m.info a.outPos : ℝ) * basisCount m.info a.inIrrep a.outPos := by exact_mod_cast Nat.mul_pos p1 p2
  positivity

/-- **C63** for `BlocksBasisExpansion`: every weight of every layout (names apart, see C33) gets its variance. -/
theorem C63_blocks {R A : Type} [DecidableEq R] {nm : R → String} {sz : R → ℕ} {bg : R → R → Except Err (KBasis A)} {uin uout inR outR : List R} (h : Blocks.Input nm sz bg uin uout inR outR)
    (filt : Option (Attr A → Bool)) (S : ℕ) (ni : R → ℕ) (irr : A → J × J) :
    ∃ m L, Blocks.init nm sz (Blocks.blockFor bg filt S) uin uout inR outR S = .ok m ∧ Blocks.basisInfo nm ni m = .ok L ∧ ∃ v, variances m.dim (L.map (WInfo.ofBInfo irr)) = .ok v ∧ v.length = m.dim ∧
      ∀ (w : ℕ) b, L[w]? = some b → ∃ x, v[w]? = some x ∧ 0 < x ∧
        x ^ 2 = 1 / ((((L.filter fun c => c.outIrrepsPosition = b.outIrrepsPosition).map fun c => (irr c.attr.data).1).toFinset.card : ℝ) *
          (L.filter fun c => (irr c.attr.data).1 = (irr b.attr.data).1 ∧ c.outIrrepsPosition = b.outIrrepsPosition).length) := by
  obtain ⟨m, L, h1, h2, h3, -⟩ := Blocks.C33_weight_info_partial h filt S ni
  obtain ⟨v, v1, v2, v3, -⟩ := C63_variances_partial m.dim (L.map (WInfo.ofBInfo irr)) (by simpa using h3)
  refine ⟨m, L, h1, h2, v, v1, v2, fun w b hb => ?_⟩
  obtain ⟨-, -, x, x1, x2, -, x3⟩ := v3 w _ (by rw [List.getElem?_map, hb]; rfl)
  refine ⟨x, x1, x2, x3.trans ?_⟩
  have e1 : inputsCount (L.map (WInfo.ofBInfo irr)) (WInfo.ofBInfo irr b).outPos = ((L.filter fun c => c.outIrrepsPosition = b.outIrrepsPosition).map fun c => (irr c.attr.data).1).toFinset.card := by
    rw [inputsCount, List.filter_map, List.map_map]; rfl
  have e2 : basisCount (L.map (WInfo.ofBInfo irr)) (WInfo.ofBInfo irr b).inIrrep (WInfo.ofBInfo irr b).outPos = (L.filter fun c => (irr c.attr.data).1 = (irr b.attr.data).1 ∧ c.outIrrepsPosition = b.outIrrepsPosition).length := by
    rw [basisCount, List.filter_map, List.length_map]; rfl
  rw [e1, e2]

/-- The weights of a convolution over `C_3` from a field with the irreps `0, 1` to a field with the irrep `1`, with harmonics of frequency at most `1`: two with input irrep `0` (harmonic `1`), four with input irrep `1` (harmonics `0` and `1`). -/
def exInfo : List (WInfo ℕ) := [⟨0, 0, 0, 1⟩, ⟨0, 0, 0, 1⟩, ⟨1, 0, 1, 1⟩, ⟨1, 0, 1, 1⟩, ⟨1, 0, 1, 1⟩, ⟨1, 0, 1, 1⟩]

example : exInfo.length = 6 ∧ inputsCount exInfo 0 = 2 ∧ basisCount exInfo 0 0 = 2 ∧ basisCount exInfo 1 0 = 4 := by decide

/-- The groups which share a variance are not those of a pair of *fields* and a harmonic: in this example weights of the same two fields and of the same harmonic have the variances `1/4` and `1/8`. -/
theorem C63_fields_violation : ∃ v x y, variances 6 exInfo = .ok v ∧ v[0]? = some x ∧ v[5]? = some y ∧ x ^ 2 = 1 / 4 ∧ y ^ 2 = 1 / 8 := by
  obtain ⟨v, h1, -, h3, -⟩ := C63_variances_partial 6 exInfo rfl
  obtain ⟨-, -, x, hx, -, -, sx⟩ := h3 0 ⟨0, 0, 0, 1⟩ rfl
  obtain ⟨-, -, y, hy, -, -, sy⟩ := h3 5 ⟨1, 0, 1, 1⟩ rfl
  refine ⟨v, x, y, h1, hx, hy, ?_, ?_⟩
  · rw [sx, show inputsCount exInfo 0 = 2 by decide, show basisCount exInfo 0 0 = 2 by decide]; norm_num
  · rw [sy, show inputsCount exInfo 0 = 2 by decide, show basisCount exInfo 1 0 = 4 by decide]; norm_num

end Escnn.He
