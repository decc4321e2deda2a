import Verif.Model.Ico
import Verif.Spec.FinGroup
import Verif.Lemmas.Rotation3
import Verif.Lemmas.SO3
import Mathlib.Tactic.FinCases
import Mathlib.Tactic.Linarith
import Mathlib.NumberTheory.Real.Irrational

/-!
# The icosahedral group: the elements and their matrices
-/

namespace Escnn

open Real Quaternion NpMat
open scoped Matrix

namespace Ico

open Gold

theorem phi_sq : phi ^ 2 = phi + 1 := by
  have : √5 ^ 2 = (5 : ℝ) := Real.sq_sqrt (by norm_num)
  rw [phi]; nlinarith

theorem phi_irr : Irrational phi := by
  have h : Irrational (√(5 : ℕ)) := Nat.Prime.irrational_sqrt (by norm_num)
  have h2 : phi = (1 + √(5 : ℕ)) / 2 := by rw [phi]; norm_num
  rw [h2]
  have := (h.natCast_add 1).div_natCast (m := 2) (by norm_num)
  simpa using this

namespace Gold

theorem val_inj {x y : Gold} (h : x.val = y.val) : x = y := by
  have e : ((x.a - y.a : ℤ) : ℝ) + ((x.b - y.b : ℤ) : ℝ) * phi = 0 := by
    simp only [val] at h; push_cast; linarith
  by_cases hb : x.b - y.b = 0
  · rw [hb] at e
    have ha : x.a - y.a = 0 := by
      have : ((x.a - y.a : ℤ) : ℝ) = 0 := by simpa using e
      exact_mod_cast this
    exact Gold.ext (by omega) (by omega)
  · exfalso
    refine (phi_irr.intCast_mul hb).ne_int (-(x.a - y.a)) ?_
    push_cast at e ⊢; linarith

@[simp] theorem val_zero : (0 : Gold).val = 0 := by
  show (((0 : ℤ) : ℝ) + ((0 : ℤ) : ℝ) * phi) / 2 = 0
  simp
@[simp] theorem val_one : (1 : Gold).val = 1 := by
  show (((2 : ℤ) : ℝ) + ((0 : ℤ) : ℝ) * phi) / 2 = 1
  simp
@[simp] theorem val_neg (x : Gold) : (-x).val = -x.val := by
  show (((-x.a : ℤ) : ℝ) + ((-x.b : ℤ) : ℝ) * phi) / 2 = _
  simp only [val]; push_cast; ring
@[simp] theorem val_add (x y : Gold) : (x + y).val = x.val + y.val := by
  show (((x.a + y.a : ℤ) : ℝ) + ((x.b + y.b : ℤ) : ℝ) * phi) / 2 = _
  simp only [val]; push_cast; ring
@[simp] theorem val_sub (x y : Gold) : (x - y).val = x.val - y.val := by
  show (((x.a - y.a : ℤ) : ℝ) + ((x.b - y.b : ℤ) : ℝ) * phi) / 2 = _
  simp only [val]; push_cast; ring
@[simp] theorem val_mul2 (x y : Gold) : (mul2 x y).val = 2 * (x.val * y.val) := by
  simp only [val, mul2]; push_cast
  linear_combination -(x.b * y.b : ℝ) / 2 * phi_sq

theorem half_of {x c : Gold} (h : x.val = 2 * c.val) : half x = c := by
  have e : x = ⟨2 * c.a, 2 * c.b⟩ := val_inj (by rw [h]; simp only [val]; push_cast; ring)
  rw [e, half]
  exact Gold.ext (by simp) (by simp)

theorem val_half {x : Gold} (ha : x.a % 2 = 0) (hb : x.b % 2 = 0) : (half x).val = x.val / 2 := by
  obtain ⟨a, ha⟩ := Int.dvd_of_emod_eq_zero ha
  obtain ⟨b, hb⟩ := Int.dvd_of_emod_eq_zero hb
  have : x = ⟨2 * a, 2 * b⟩ := Gold.ext ha hb
  rw [half_of (c := ⟨a, b⟩)] <;> rw [this] <;> simp only [val] <;> push_cast <;> ring

end Gold

theorem mat_inj {a b : Elem} (h : mat a = mat b) : a = b := by
  have e := fun i j => congrFun (congrFun h i) j
  have e00 := e 0 0; have e01 := e 0 1; have e02 := e 0 2
  have e10 := e 1 0; have e11 := e 1 1; have e12 := e 1 2
  have e20 := e 2 0; have e21 := e 2 1; have e22 := e 2 2
  simp [mat] at e00 e01 e02 e10 e11 e12 e20 e21 e22
  ext1 <;> apply val_inj <;> assumption

theorem mat_inverse (a : Elem) : mat (inverse a) = (mat a)ᵀ := by
  ext i j
  fin_cases i <;> fin_cases j <;> simp [mat, inverse]

theorem mat_identity : mat identity = 1 := by
  ext i j
  fin_cases i <;> fin_cases j <;> simp [mat, identity]

/-- The product of matrices determines the product of elements. -/
theorem combine_of {a b c : Elem} (h : mat a * mat b = mat c) : combine a b = c := by
  have e := fun i j => congrFun (congrFun h i) j
  have e00 := e 0 0; have e01 := e 0 1; have e02 := e 0 2
  have e10 := e 1 0; have e11 := e 1 1; have e12 := e 1 2
  have e20 := e 2 0; have e21 := e 2 1; have e22 := e 2 2
  simp [mat, Matrix.mul_apply, Fin.sum_univ_three] at e00 e01 e02 e10 e11 e12 e20 e21 e22
  ext1 <;> simp only [combine, dot] <;> apply half_of <;> simp only [val_add, val_mul2] <;> linarith

/-- The entries of a product are exact. -/
def Even (x : Gold) : Prop := x.a % 2 = 0 ∧ x.b % 2 = 0

instance (x : Gold) : Decidable (Even x) := by unfold Even; infer_instance

/-- The halves in the product of two elements are exact. -/
def Exact (a b : Elem) : Prop :=
  Even (mul2 a.m₀₀ b.m₀₀ + mul2 a.m₀₁ b.m₁₀ + mul2 a.m₀₂ b.m₂₀) ∧ Even (mul2 a.m₀₀ b.m₀₁ + mul2 a.m₀₁ b.m₁₁ + mul2 a.m₀₂ b.m₂₁) ∧ Even (mul2 a.m₀₀ b.m₀₂ + mul2 a.m₀₁ b.m₁₂ + mul2 a.m₀₂ b.m₂₂) ∧
  Even (mul2 a.m₁₀ b.m₀₀ + mul2 a.m₁₁ b.m₁₀ + mul2 a.m₁₂ b.m₂₀) ∧ Even (mul2 a.m₁₀ b.m₀₁ + mul2 a.m₁₁ b.m₁₁ + mul2 a.m₁₂ b.m₂₁) ∧ Even (mul2 a.m₁₀ b.m₀₂ + mul2 a.m₁₁ b.m₁₂ + mul2 a.m₁₂ b.m₂₂) ∧
  Even (mul2 a.m₂₀ b.m₀₀ + mul2 a.m₂₁ b.m₁₀ + mul2 a.m₂₂ b.m₂₀) ∧ Even (mul2 a.m₂₀ b.m₀₁ + mul2 a.m₂₁ b.m₁₁ + mul2 a.m₂₂ b.m₂₁) ∧ Even (mul2 a.m₂₀ b.m₀₂ + mul2 a.m₂₁ b.m₁₂ + mul2 a.m₂₂ b.m₂₂)

instance (a b : Elem) : Decidable (Exact a b) := by unfold Exact; infer_instance

theorem mat_of_exact {a b : Elem} (h : Exact a b) : mat (combine a b) = mat a * mat b := by
  obtain ⟨h0, h1, h2, h3, h4, h5, h6, h7, h8⟩ := h
  ext i j
  fin_cases i <;> fin_cases j <;> simp [mat, combine, dot, Matrix.mul_apply, Fin.sum_univ_three]
  · rw [val_half h0.1 h0.2]; simp; ring
  · rw [val_half h1.1 h1.2]; simp; ring
  · rw [val_half h2.1 h2.2]; simp; ring
  · rw [val_half h3.1 h3.2]; simp; ring
  · rw [val_half h4.1 h4.2]; simp; ring
  · rw [val_half h5.1 h5.2]; simp; ring
  · rw [val_half h6.1 h6.2]; simp; ring
  · rw [val_half h7.1 h7.2]; simp; ring
  · rw [val_half h8.1 h8.2]; simp; ring

theorem gens_exact : ∀ g ∈ generators, ∀ x ∈ elements, Exact g x := by decide +kernel

theorem gens_mem : ∀ g ∈ generators, ∀ x ∈ elements, combine g x ∈ elements := by decide +kernel

/-- The words of the elements in the generators. -/
def words : List (List ℕ) :=
  [
   [1], [1, 0, 0, 1, 0, 0, 0, 1, 0, 0], [0, 0, 1, 0, 0, 0, 1, 0, 0], [], [0, 1, 0, 0, 0, 1], [0, 0, 0, 1, 0, 1],
   [1, 0, 0, 0, 1, 0], [1, 0, 1, 0, 0, 0], [1, 0, 0, 0, 1, 0, 1], [0, 1, 0, 0, 0], [1, 0, 1, 0, 0, 0, 1], [0, 0, 0, 1, 0],
   [0, 0, 0, 1, 0, 0], [1, 0, 0, 1, 0, 0, 0, 1], [1, 0, 0, 1, 0, 0], [1, 0, 1, 0, 0, 0, 1, 0], [0, 0, 1, 0, 0, 0], [1, 0, 0, 0, 1, 0, 0, 1],
   [0, 0, 1, 0, 0, 1], [1, 0, 0, 0, 1, 0, 0, 0], [0, 0, 0, 0], [0], [0, 1, 0], [1, 0, 1],
   [1, 0, 0], [0, 0, 0, 1], [1, 0, 1, 0, 0, 0, 1, 0, 0], [1, 0, 0, 1, 0, 0, 0, 1, 0], [0, 0, 1], [1, 0, 0, 0],
   [0, 1, 0, 0, 0, 1, 0, 0, 0], [0, 1, 0, 0, 0, 1, 0, 0, 1], [0, 0, 0, 1, 0, 0, 0], [0, 0, 1, 0, 0], [0, 1, 0, 0, 0, 1, 0], [1, 0, 0, 1, 0, 0, 1],
   [1, 0, 1, 0, 0], [1, 0, 0, 1, 0], [1, 0], [1, 0, 1, 0], [0, 0, 1, 0, 1], [0, 1, 0, 0, 1],
   [0, 1], [0, 1, 0, 1], [0, 0, 0], [0, 0], [1, 0, 0, 0, 1], [1, 0, 0, 1],
   [1, 0, 1, 0, 0, 0, 1, 0, 0, 0], [0, 0, 1, 0, 0, 0, 1, 0], [0, 1, 0, 0, 0, 1, 0, 0], [0, 0, 1, 0, 0, 0, 1, 0, 0, 0], [1, 0, 0, 1, 0, 1], [0, 0, 1, 0],
   [0, 1, 0, 0], [1, 0, 1, 0, 0, 1], [1, 0, 0, 1, 0, 0, 0], [0, 0, 1, 0, 0, 0, 1], [1, 0, 0, 0, 1, 0, 0], [0, 0, 0, 1, 0, 0, 1]]

theorem words_ok : words.map (fun w => (w.map fun i => generators.getD i identity).foldr combine identity) = elements := by decide +kernel

theorem words_gens : ∀ w ∈ words, ∀ i ∈ w, generators.getD i identity ∈ generators := by decide +kernel

theorem identity_mem : identity ∈ elements := by decide +kernel

theorem generate {S : Elem → Prop} (h1 : S identity) (h : ∀ x ∈ elements, S x → ∀ g ∈ generators, S (combine g x)) : ∀ x ∈ elements, S x := by
  intro x hx
  rw [← words_ok] at hx
  obtain ⟨w, hw, rfl⟩ := List.mem_map.1 hx
  have hw' := words_gens w hw
  clear hw hx
  suffices (w.map fun i => generators.getD i identity).foldr combine identity ∈ elements ∧ S ((w.map fun i => generators.getD i identity).foldr combine identity) from this.2
  induction w with
  | nil => exact ⟨identity_mem, h1⟩
  | cons i w ih =>
    obtain ⟨hm, hs⟩ := ih fun i hi => hw' i (List.mem_cons_of_mem _ hi)
    have hg := hw' i (List.mem_cons_self ..)
    exact ⟨gens_mem _ hg _ hm, h _ hm hs _ hg⟩

theorem gens_el : ∀ g ∈ generators, g ∈ elements := by decide +kernel

theorem prod_mem : ∀ a ∈ elements, ∀ b ∈ elements, ∃ c ∈ elements, mat a * mat b = mat c := by
  refine generate (fun b hb => ⟨b, hb, by rw [mat_identity, Matrix.one_mul]⟩) fun x hx ih g hg b hb => ?_
  obtain ⟨c, hc, e⟩ := ih b hb
  refine ⟨combine g c, gens_mem g hg c hc, ?_⟩
  rw [mat_of_exact (gens_exact g hg x hx), mat_of_exact (gens_exact g hg c hc), Matrix.mul_assoc, e]

theorem mat_combine {a b : Elem} (ha : a ∈ elements) (hb : b ∈ elements) : mat (combine a b) = mat a * mat b := by
  obtain ⟨c, -, e⟩ := prod_mem a ha b hb
  rw [combine_of e, e]

theorem combine_mem (a : Elem) (ha : a ∈ elements) (b : Elem) (hb : b ∈ elements) : combine a b ∈ elements := by
  obtain ⟨c, hc, e⟩ := prod_mem a ha b hb
  rw [combine_of e]; exact hc

theorem inverse_mem : ∀ a ∈ elements, inverse a ∈ elements := by decide +kernel

theorem orth_mem : ∀ a ∈ elements, combine (inverse a) a = identity ∧ combine a (inverse a) = identity := by decide +kernel

theorem finGroup : FinGroup elements combine inverse identity where
  nodup := by decide +kernel
  one_mem := identity_mem
  mul_mem := combine_mem
  inv_mem := inverse_mem
  assoc a ha b hb c hc := mat_inj (by
    rw [mat_combine (combine_mem a ha b hb) hc, mat_combine ha hb, mat_combine ha (combine_mem b hb c hc), mat_combine hb hc, Matrix.mul_assoc])
  one_mul a _ := combine_of (by rw [mat_identity, Matrix.one_mul])
  mul_one a _ := combine_of (by rw [mat_identity, Matrix.mul_one])
  inv_mul a ha := (orth_mem a ha).1
  mul_inv a ha := (orth_mem a ha).2

/-- The norm of the stored quaternions, and the entries of the matrices. -/
theorem quats_gold : ∀ q ∈ quats, mul2 q.1 q.1 + mul2 q.2.1 q.2.1 + mul2 q.2.2.1 q.2.2.1 + mul2 q.2.2.2 q.2.2.2 = ⟨4, 0⟩ ∧
    Even (mul2 q.2.2.2 q.2.2.2 + mul2 q.1 q.1 - mul2 q.2.1 q.2.1 - mul2 q.2.2.1 q.2.2.1) ∧ Even (mul2 q.2.2.2 q.2.2.2 - mul2 q.1 q.1 + mul2 q.2.1 q.2.1 - mul2 q.2.2.1 q.2.2.1) ∧
    Even (mul2 q.2.2.2 q.2.2.2 - mul2 q.1 q.1 - mul2 q.2.1 q.2.1 + mul2 q.2.2.1 q.2.2.1) := by decide +kernel

theorem goldQ_unit {q : Gold × Gold × Gold × Gold} (hq : q ∈ quats) : normSq (goldQ q) = 1 := by
  have h := congrArg val (quats_gold q hq).1
  simp only [val_add, val_mul2] at h
  rw [goldQ, SO3.normSq_quat]
  have e : (⟨4, 0⟩ : Gold).val = 2 := by simp [val]; norm_num
  rw [e] at h
  linarith

theorem rotOf_goldQ {q : Gold × Gold × Gold × Gold} (hq : q ∈ quats) : rotOf (goldQ q) = mat (ofQuat q) := by
  obtain ⟨-, h0, h1, h2⟩ := quats_gold q hq
  obtain ⟨x, y, z, w⟩ := q
  ext i j
  fin_cases i <;> fin_cases j
  · simp only [mat, ofQuat]; simp [rotOf, goldQ, quat]; rw [val_half h0.1 h0.2]; simp; ring
  · simp [mat, ofQuat, rotOf, goldQ, quat]; ring
  · simp [mat, ofQuat, rotOf, goldQ, quat]; ring
  · simp [mat, ofQuat, rotOf, goldQ, quat]; ring
  · simp only [mat, ofQuat]; simp [rotOf, goldQ, quat]; rw [val_half h1.1 h1.2]; simp; ring
  · simp [mat, ofQuat, rotOf, goldQ, quat]; ring
  · simp [mat, ofQuat, rotOf, goldQ, quat]; ring
  · simp [mat, ofQuat, rotOf, goldQ, quat]; ring
  · simp only [mat, ofQuat]; simp [rotOf, goldQ, quat]; rw [val_half h2.1 h2.2]; simp; ring

theorem toQ_eq {e : Elem} (he : e ∈ elements) : ∃ q ∈ quats, ofQuat q = e ∧ toQ e = goldQ q := by
  obtain ⟨q, hq, rfl⟩ := List.mem_map.1 he
  rcases hf : quats.find? (fun p => ofQuat p = ofQuat q) with _ | p
  · exact absurd (List.find?_eq_none.1 hf q hq) (by simp)
  · refine ⟨p, List.mem_of_find?_eq_some hf, by simpa using List.find?_some hf, ?_⟩
    rw [toQ, hf]
    rfl

theorem toQ_unit {e : Elem} (he : e ∈ elements) : normSq (toQ e) = 1 := by
  obtain ⟨q, hq, -, h⟩ := toQ_eq he
  rw [h, goldQ_unit hq]

theorem rotOf_toQ {e : Elem} (he : e ∈ elements) : rotOf (toQ e) = mat e := by
  obtain ⟨q, hq, rfl, h⟩ := toQ_eq he
  rw [h, rotOf_goldQ hq]

theorem ofRot_eq {q : UQuat} {e : Elem} (he : e ∈ elements) (h : rotOf q = mat e) : ofRot q = e := by
  classical
  rcases hf : elements.find? (fun x => mat x = rotOf q) with _ | p
  · exact absurd (List.find?_eq_none.1 hf e he) (by simp [h])
  · have := List.find?_some hf
    have e1 : mat p = mat e := by rw [← h]; simpa using this
    rw [ofRot, hf, ← mat_inj e1]
    rfl

end Ico

end Escnn
