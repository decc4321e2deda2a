import Verif.Model.Equality
import Verif.Props.C04_DirectProduct
import Verif.Lemmas.Cycle
import Mathlib.Analysis.SpecialFunctions.Trigonometric.Inverse
import Mathlib.Analysis.SpecialFunctions.Trigonometric.Bounds

/-!
# C64: equality of group elements is an equivalence, and equal elements have equal hashes
-/

namespace Escnn

open Real

/-- On the elements `El`: comparing and hashing elements does not raise, equality is an equivalence relation, and equal elements have equal hashes. -/
structure EqHashLaws {E : Type} (G : PyEqGroup E) (El : E → Prop) : Prop where
  total : ∀ a b, El a → El b → ∃ r, G.equal G.param a b = .ok r
  refl : ∀ a, El a → G.equal G.param a a = .ok true
  symm : ∀ a b, El a → El b → G.equal G.param a b = .ok true → G.equal G.param b a = .ok true
  trans : ∀ a b c, El a → El b → El c → G.equal G.param a b = .ok true → G.equal G.param b c = .ok true → G.equal G.param a c = .ok true
  hash : ∀ a, El a → ∃ h, G.hash G.param a = .ok h
  hash_eq : ∀ a b, El a → El b → G.equal G.param a b = .ok true → G.hash G.param a = G.hash G.param b

theorem leafEq_equal {E : Type} {p : Param} {eq : E → E → Bool} {h : E → ℤ} (a b : E) : (PyEqGroup.leaf p eq h).equal p a b = .ok (eq a b) := by
  simp [PyEqGroup.leaf, pure, Except.pure, bind, Except.bind]

theorem leafEq_hash {E : Type} {p : Param} {eq : E → E → Bool} {h : E → ℤ} (a : E) : (PyEqGroup.leaf p eq h).hash p a = .ok (h a) := by
  simp [PyEqGroup.leaf, pure, Except.pure, bind, Except.bind]

theorem leafEq_laws {E : Type} {p : Param} {eq : E → E → Bool} {h : E → ℤ} {El : E → Prop} (hr : ∀ a, El a → eq a a = true) (hs : ∀ a b, El a → El b → eq a b = true → eq b a = true)
    (ht : ∀ a b c, El a → El b → El c → eq a b = true → eq b c = true → eq a c = true) (hh : ∀ a b, El a → El b → eq a b = true → h a = h b) : EqHashLaws (PyEqGroup.leaf p eq h) El := by
  have e : ∀ a b, (PyEqGroup.leaf p eq h).equal (PyEqGroup.leaf p eq h).param a b = .ok (eq a b) := leafEq_equal
  have e' : ∀ a, (PyEqGroup.leaf p eq h).hash (PyEqGroup.leaf p eq h).param a = .ok (h a) := leafEq_hash
  refine ⟨fun a b _ _ => ⟨_, e a b⟩, fun a ha => by rw [e, hr a ha], fun a b ha hb hab => ?_, fun a b c ha hb hc hab hbc => ?_, fun a _ => ⟨_, e' a⟩, fun a b ha hb hab => ?_⟩
  · rw [e, Except.ok.injEq] at hab ⊢
    exact hs a b ha hb hab
  · rw [e, Except.ok.injEq] at hab hbc ⊢
    exact ht a b c ha hb hc hab hbc
  · rw [e, Except.ok.injEq] at hab
    rw [e', e', hh a b ha hb hab]

/-- **C64** Cyclic groups, for all `N`; equality is equality of the values. -/
theorem C64_cyclic (H : PyHash) (N : ℕ) : EqHashLaws (Cyclic.pyEq H) (fun e => Cyclic.isElement N e = true) ∧ ∀ a b, (Cyclic.pyEq H).equal (Cyclic.pyEq H).param a b = .ok (decide (a = b)) := by
  refine ⟨leafEq_laws (fun a _ => by simp [Cyclic.equal]) (fun a b _ _ h => ?_) (fun a b c _ _ _ h h' => ?_) (fun a b _ _ h => ?_), fun a b => ?_⟩
  · simp [Cyclic.equal] at h ⊢; exact h.symm
  · simp [Cyclic.equal] at h h' ⊢; exact h.trans h'
  · simp [Cyclic.equal] at h; rw [h]
  · exact (leafEq_equal a b).trans (by simp [Cyclic.equal, Bool.beq_eq_decide_eq])

/-- **C64** Dihedral groups, for all `N`. -/
theorem C64_dihedral (H : PyHash) (N : ℕ) :
    EqHashLaws (Dihedral.pyEq H N) (fun e => Dihedral.isElement N e = true) ∧ ∀ a b, (Dihedral.pyEq H N).equal (Dihedral.pyEq H N).param a b = .ok (decide (a = b)) := by
  have key : ∀ a b : Dihedral.Elem, Dihedral.equal a b = decide (a = b) := by
    intro a b
    rw [Bool.eq_iff_iff]
    simp [Dihedral.equal, Prod.ext_iff]
  refine ⟨leafEq_laws (fun a _ => by simp [key]) (fun a b _ _ h => ?_) (fun a b c _ _ _ h h' => ?_) (fun a b _ _ h => ?_), fun a b => ?_⟩
  · simp only [key, decide_eq_true_eq] at h ⊢; exact h.symm
  · simp only [key, decide_eq_true_eq] at h h' ⊢; exact h.trans h'
  · simp only [key, decide_eq_true_eq] at h; rw [h]
  · exact (leafEq_equal a b).trans (by rw [key])

/-! ## Octahedral and icosahedral groups -/

theorem npAllclose_separated {n : ℕ} {A : Set ℝ} (hA : ∀ a ∈ A, ∀ b ∈ A, |a| ≤ 1 ∧ (a ≠ b → 1 / 100 ≤ |a - b|)) {a b : Fin n → ℝ} (ha : ∀ i, a i ∈ A) (hb : ∀ i, b i ∈ A) :
    npAllclose a b (1 / 10 ^ 5) (1 / 10 ^ 7) ↔ a = b := by
  constructor
  · intro h
    funext i
    by_contra hne
    have h1 := h i
    have h2 := (hA _ (ha i) _ (hb i)).2 hne
    have h3 := (hA _ (hb i) _ (hb i)).1
    norm_num at h1
    linarith
  · rintro rfl i
    have := abs_nonneg (a i)
    simp only [sub_self, abs_zero]
    positivity

theorem quatMat_neg (q : Fin 4 → ℝ) : quatMat (fun i => -q i) = quatMat q := by
  simp [quatMat]

/-- Quaternions with entries in a set of real numbers which are well apart. -/
theorem quat_laws (H : PyHash) {A : Set ℝ} (hA : ∀ a ∈ A, ∀ b ∈ A, |a| ≤ 1 ∧ (a ≠ b → 1 / 100 ≤ |a - b|)) (hn : ∀ a ∈ A, -a ∈ A) :
    EqHashLaws (Quat.pyEq H) (fun q => ∀ i, q i ∈ A) ∧
      ∀ a b : Fin 4 → ℝ, (∀ i, a i ∈ A) → (∀ i, b i ∈ A) → ((Quat.pyEq H).equal (Quat.pyEq H).param a b = .ok true ↔ (∀ i, a i = b i) ∨ ∀ i, a i = -b i) := by
  classical
  have key : ∀ a b : Fin 4 → ℝ, (∀ i, a i ∈ A) → (∀ i, b i ∈ A) → (quatEqual a b ↔ a = b ∨ (fun i => -a i) = b) := by
    intro a b ha hb
    unfold quatEqual
    rw [npAllclose_separated hA ha hb, npAllclose_separated hA (fun i => hn _ (ha i)) hb]
  refine ⟨leafEq_laws (fun a ha => ?_) (fun a b ha hb h => ?_) (fun a b c ha hb hc h h' => ?_) (fun a b ha hb h => ?_), fun a b ha hb => ?_⟩
  · rw [decide_eq_true_eq, key a a ha ha]; exact .inl rfl
  · rw [decide_eq_true_eq, key _ _ ha hb] at h
    rw [decide_eq_true_eq, key _ _ hb ha]
    rcases h with rfl | rfl
    · exact .inl rfl
    · exact .inr (by simp)
  · rw [decide_eq_true_eq, key _ _ ha hb] at h
    rw [decide_eq_true_eq, key _ _ hb hc] at h'
    rw [decide_eq_true_eq, key _ _ ha hc]
    rcases h with rfl | rfl <;> rcases h' with rfl | rfl
    · exact .inl rfl
    · exact .inr rfl
    · exact .inr rfl
    · exact .inl (by simp)
  · rw [decide_eq_true_eq, key _ _ ha hb] at h
    rcases h with rfl | rfl
    · rfl
    · rw [quatMat_neg]
  · refine (Eq.congr_left (leafEq_equal a b)).trans ?_
    rw [Except.ok.injEq, decide_eq_true_eq, key _ _ ha hb]
    refine or_congr funext_iff (funext_iff.trans (forall_congr' fun i => neg_eq_iff_eq_neg))

/-- **C64** The octahedral group: the entries of the unit quaternions of its rotations are 0, ±1/2, ±√2/2 and ±1.  Two elements are equal exactly if the quaternions agree up to a common sign. -/
theorem C64_octahedral (H : PyHash) : let A : Set ℝ := {0, 1 / 2, √2 / 2, 1, -(1 / 2), -(√2 / 2), -1}
    EqHashLaws (Quat.pyEq H) (fun q => ∀ i, q i ∈ A) ∧
      ∀ a b : Fin 4 → ℝ, (∀ i, a i ∈ A) → (∀ i, b i ∈ A) → ((Quat.pyEq H).equal (Quat.pyEq H).param a b = .ok true ↔ (∀ i, a i = b i) ∨ ∀ i, a i = -b i) := by
  intro A
  have h0 : (0 : ℝ) ≤ √2 := Real.sqrt_nonneg 2
  have h1 : √2 ^ 2 = 2 := Real.sq_sqrt (by norm_num)
  have h2 : 1.4 ≤ √2 := by nlinarith
  have h3 : √2 ≤ 1.5 := by nlinarith
  refine quat_laws H ?_ ?_
  · intro a ha b hb
    simp only [A, Set.mem_insert_iff, Set.mem_singleton_iff] at ha hb
    refine ⟨?_, fun hne => ?_⟩
    · rw [abs_le]
      rcases ha with rfl | rfl | rfl | rfl | rfl | rfl | rfl <;> constructor <;> linarith
    · rw [le_abs]
      rcases ha with rfl | rfl | rfl | rfl | rfl | rfl | rfl <;> rcases hb with rfl | rfl | rfl | rfl | rfl | rfl | rfl <;> first | exact absurd rfl hne | (left; linarith) | (right; linarith)
  · intro a ha
    simp only [A, Set.mem_insert_iff, Set.mem_singleton_iff] at ha ⊢
    rcases ha with rfl | rfl | rfl | rfl | rfl | rfl | rfl <;> simp

/-- **C64** The icosahedral group: the entries of the unit quaternions of its rotations are 0, ±1/2, ±1, ±φ/2 and ±1/(2φ), for the golden ratio φ. -/
theorem C64_icosahedral (H : PyHash) : let A : Set ℝ := {0, 1 / 2, 1, (1 + √5) / 4, (√5 - 1) / 4, -(1 / 2), -1, -((1 + √5) / 4), -((√5 - 1) / 4)}
    EqHashLaws (Quat.pyEq H) (fun q => ∀ i, q i ∈ A) ∧
      ∀ a b : Fin 4 → ℝ, (∀ i, a i ∈ A) → (∀ i, b i ∈ A) → ((Quat.pyEq H).equal (Quat.pyEq H).param a b = .ok true ↔ (∀ i, a i = b i) ∨ ∀ i, a i = -b i) := by
  intro A
  have h0 : (0 : ℝ) ≤ √5 := Real.sqrt_nonneg 5
  have h1 : √5 ^ 2 = 5 := Real.sq_sqrt (by norm_num)
  have h2 : 2.2 ≤ √5 := by nlinarith
  have h3 : √5 ≤ 2.3 := by nlinarith
  refine quat_laws H ?_ ?_
  · intro a ha b hb
    simp only [A, Set.mem_insert_iff, Set.mem_singleton_iff] at ha hb
    refine ⟨?_, fun hne => ?_⟩
    · rw [abs_le]
      rcases ha with rfl | rfl | rfl | rfl | rfl | rfl | rfl | rfl | rfl <;> constructor <;> linarith
    · rw [le_abs]
      rcases ha with rfl | rfl | rfl | rfl | rfl | rfl | rfl | rfl | rfl <;> rcases hb with rfl | rfl | rfl | rfl | rfl | rfl | rfl | rfl | rfl <;>
        first | exact absurd rfl hne | (left; linarith) | (right; linarith)
  · intro a ha
    simp only [A, Set.mem_insert_iff, Set.mem_singleton_iff] at ha ⊢
    rcases ha with rfl | rfl | rfl | rfl | rfl | rfl | rfl | rfl | rfl <;> simp

/-- Elements of the octahedral group: the rotation by 90 degrees about the z axis. -/
example : ∃ q : Fin 4 → ℝ, (∀ i, q i ∈ ({0, 1 / 2, √2 / 2, 1, -(1 / 2), -(√2 / 2), -1} : Set ℝ)) ∧ quatMat q = [0, -1, 0, 1, 0, 0, 0, 0, 1] := by
  have h1 : √2 ^ 2 = 2 := Real.sq_sqrt (by norm_num)
  have h2 : √2 / 2 * (√2 / 2) = 1 / 2 := by nlinarith
  refine ⟨![0, 0, √2 / 2, √2 / 2], fun i => ?_, ?_⟩
  · fin_cases i <;> simp
  · simp [quatMat, sq, h2]
    norm_num

/-! ## Direct products -/

/-- **C64** If equality and hashing are right in two groups, they are right in the direct product, as far as the parametrisation name of the product can be split (see `splitParam_pairParam`; for products whose second
factor is a product it cannot, C04). -/
theorem C64_product {E₁ E₂ : Type} {G₁ : PyEqGroup E₁} {G₂ : PyEqGroup E₂} {El₁ : E₁ → Prop} {El₂ : E₂ → Prop} (hs : splitParam (pairParam G₁.param G₂.param) = .ok (G₁.param, G₂.param))
    (h₁ : EqHashLaws G₁ El₁) (h₂ : EqHashLaws G₂ El₂) : EqHashLaws (directProductEq G₁ G₂) (fun e => El₁ e.1 ∧ El₂ e.2) := by
  have e : ∀ a b, El₁ a.1 ∧ El₂ a.2 → El₁ b.1 ∧ El₂ b.2 → ((directProductEq G₁ G₂).equal (directProductEq G₁ G₂).param a b = .ok true ↔
      G₁.equal G₁.param a.1 b.1 = .ok true ∧ G₂.equal G₂.param a.2 b.2 = .ok true) ∧ ∃ r, (directProductEq G₁ G₂).equal (directProductEq G₁ G₂).param a b = .ok r := by
    intro a b ha hb
    obtain ⟨r₁, e₁⟩ := h₁.total a.1 b.1 ha.1 hb.1
    obtain ⟨r₂, e₂⟩ := h₂.total a.2 b.2 ha.2 hb.2
    have : (directProductEq G₁ G₂).equal (directProductEq G₁ G₂).param a b = .ok (r₁ && r₂) := by
      simp only [directProductEq, hs, bind, Except.bind, e₁, e₂]
      cases r₁ <;> rfl
    rw [this, e₁, e₂]
    exact ⟨by simp, _, rfl⟩
  have eh : ∀ a, El₁ a.1 ∧ El₂ a.2 → ∃ x y, G₁.hash G₁.param a.1 = .ok x ∧ G₂.hash G₂.param a.2 = .ok y ∧ (directProductEq G₁ G₂).hash (directProductEq G₁ G₂).param a = .ok (x + y) := by
    intro a ha
    obtain ⟨x, hx⟩ := h₁.hash a.1 ha.1
    obtain ⟨y, hy⟩ := h₂.hash a.2 ha.2
    refine ⟨x, y, hx, hy, ?_⟩
    simp only [directProductEq, hs, bind, Except.bind, hx, hy]
    rfl
  refine ⟨fun a b ha hb => (e a b ha hb).2, fun a ha => (e a a ha ha).1.2 ⟨h₁.refl _ ha.1, h₂.refl _ ha.2⟩, fun a b ha hb h => ?_, fun a b c ha hb hc h h' => ?_, fun a ha => ?_, fun a b ha hb h => ?_⟩
  · obtain ⟨x, y⟩ := (e a b ha hb).1.1 h
    exact (e b a hb ha).1.2 ⟨h₁.symm _ _ ha.1 hb.1 x, h₂.symm _ _ ha.2 hb.2 y⟩
  · obtain ⟨x, y⟩ := (e a b ha hb).1.1 h
    obtain ⟨x', y'⟩ := (e b c hb hc).1.1 h'
    exact (e a c ha hc).1.2 ⟨h₁.trans _ _ _ ha.1 hb.1 hc.1 x x', h₂.trans _ _ _ ha.2 hb.2 hc.2 y y'⟩
  · obtain ⟨x, y, -, -, h⟩ := eh a ha
    exact ⟨_, h⟩
  · obtain ⟨x, y⟩ := (e a b ha hb).1.1 h
    obtain ⟨u, v, e1, e2, e3⟩ := eh a ha
    obtain ⟨u', v', e1', e2', e3'⟩ := eh b hb
    have hu : u = u' := Except.ok.inj (e1.symm.trans ((h₁.hash_eq _ _ ha.1 hb.1 x).trans e1'))
    have hv : v = v' := Except.ok.inj (e2.symm.trans ((h₂.hash_eq _ _ ha.2 hb.2 y).trans e2'))
    rw [e3, e3', hu, hv]

/-- `(C_N × D_M) × C_K`. -/
example (H : PyHash) (N M K : ℕ) : EqHashLaws (directProductEq (directProductEq (Cyclic.pyEq H) (Dihedral.pyEq H M)) (Cyclic.pyEq H))
    (fun e => (Cyclic.isElement N e.1.1 = true ∧ Dihedral.isElement M e.1.2 = true) ∧ Cyclic.isElement K e.2 = true) :=
  C64_product (splitParam_pairParam (pairParam ['i', 'n', 't'] ['i', 'n', 't']) ['i', 'n', 't'] (by decide) (by decide) (by decide))
    (C64_product (splitParam_pairParam ['i', 'n', 't'] ['i', 'n', 't'] (by decide) (by decide) (by decide)) (C64_cyclic H N).1 (C64_dihedral H M).1) (C64_cyclic H K).1

/-- **C64** Elements of a family of groups (`GroupElement.__eq__` and `__hash__`): elements of different groups are different. -/
theorem C64_elements {Gp : Type} [DecidableEq Gp] {E : Gp → Type} (grp : ∀ g, PyEqGroup (E g)) (El : ∀ g, E g → Prop) (h : ∀ g, EqHashLaws (grp g) (El g)) :
    let S := {a : Σ g, E g // El a.1 a.2}
    (∀ a b : S, ∃ r, elementEq grp a.1 b.1 = .ok r) ∧ Equivalence (fun a b : S => elementEq grp a.1 b.1 = .ok true) ∧ (∀ a : S, ∃ k, elementHash grp a.1 = .ok k) ∧
      (∀ a b : S, elementEq grp a.1 b.1 = .ok true → elementHash grp a.1 = elementHash grp b.1) ∧ ∀ a b : S, a.1.1 ≠ b.1.1 → elementEq grp a.1 b.1 = .ok false := by
  have e : ∀ g (a b : E g), elementEq grp ⟨g, a⟩ ⟨g, b⟩ = (grp g).equal (grp g).param a b := fun g a b => dif_pos rfl
  have ne : ∀ a b : Σ g, E g, a.1 ≠ b.1 → elementEq grp a b = .ok false := fun a b h => dif_neg (Ne.symm h)
  have same : ∀ a b : Σ g, E g, elementEq grp a b = .ok true → a.1 = b.1 := by
    intro a b hab
    by_contra hne
    rw [ne a b hne] at hab
    simp at hab
  refine ⟨?_, ⟨?_, ?_, ?_⟩, ?_, ?_, fun a b => ne a.1 b.1⟩
  · rintro ⟨⟨g, a⟩, ha⟩ ⟨⟨g', b⟩, hb⟩
    by_cases hg : g = g'
    · subst hg
      obtain ⟨r, hr⟩ := (h g).total a b ha hb
      exact ⟨r, (e g a b).trans hr⟩
    · exact ⟨_, ne _ _ hg⟩
  · rintro ⟨⟨g, a⟩, ha⟩
    exact (e g a a).trans ((h g).refl a ha)
  · rintro ⟨⟨g, a⟩, ha⟩ ⟨⟨g', b⟩, hb⟩ hab
    obtain rfl : g = g' := same _ _ hab
    exact (e g b a).trans ((h g).symm a b ha hb ((e g a b).symm.trans hab))
  · rintro ⟨⟨g, a⟩, ha⟩ ⟨⟨g', b⟩, hb⟩ ⟨⟨g'', c⟩, hc⟩ hab hbc
    obtain rfl : g = g' := same _ _ hab
    obtain rfl : g = g'' := same _ _ hbc
    exact (e g a c).trans ((h g).trans a b c ha hb hc ((e g a b).symm.trans hab) ((e g b c).symm.trans hbc))
  · rintro ⟨⟨g, a⟩, ha⟩
    exact (h g).hash a ha
  · rintro ⟨⟨g, a⟩, ha⟩ ⟨⟨g', b⟩, hb⟩ hab
    obtain rfl : g = g' := same _ _ hab
    exact (h g).hash_eq a b ha hb ((e g a b).symm.trans hab)

/-- The elements of all cyclic groups. -/
example (H : PyHash) : Equivalence (fun a b : {a : Σ _ : ℕ, ℤ // Cyclic.isElement a.1 a.2 = true} => elementEq (fun _ => Cyclic.pyEq H) a.1 b.1 = .ok true) :=
  (C64_elements (fun _ : ℕ => Cyclic.pyEq H) (fun N e => Cyclic.isElement N e = true) fun N => (C64_cyclic H N).1).2.1

/-! ## SO(2) -/

theorem mod2pi_self {x : ℝ} (h0 : 0 ≤ x) (h1 : x < 2 * π) : mod2pi x = x := (toIcoMod_eq_self _).2 ⟨h0, by linarith⟩

theorem so2_equal_iff (H : PyHash) (a b : ℝ) : (SO2.pyEq H).equal (SO2.pyEq H).param a b = .ok true ↔ SO2.Equal a b := by
  classical
  refine (Eq.congr_left (leafEq_equal a b)).trans ?_
  rw [Except.ok.injEq, decide_eq_true_eq]

/-- Angles which differ by a little: the larger one second. -/
theorem so2_equal_up {a b : ℝ} (ha : 0 ≤ a) (hb : b < 2 * π) (h : a < b) (h' : b - a ≤ 1 / 10 ^ 9) : SO2.Equal a b := by
  have hp := Real.pi_gt_three
  rw [SO2.Equal, mod2pi_self ha (by linarith), mod2pi_self (by linarith) hb]
  have hd : fmod (a - b) (2 * π) = 2 * π - (b - a) := by
    rw [fmod, dif_pos Real.two_pi_pos, toIcoMod_eq_iff]
    refine ⟨⟨by norm_num at h'; linarith, by linarith⟩, -1, by simp; ring⟩
  refine .inr ⟨?_, by rw [hd]; linarith⟩
  rw [hd, isclose]
  refine le_max_of_le_left ?_
  rw [show 2 * π - (b - a) - 2 * π = -(b - a) by ring, abs_neg, abs_of_pos (by linarith)]
  have : (1 : ℝ) ≤ max |2 * π - (b - a)| |2 * π| := le_max_of_le_right (by rw [abs_of_pos Real.two_pi_pos]; linarith)
  nlinarith [this]

/-- **C64** (violated for SO(2), which is not a finite group) Equality of elements of SO(2) is not symmetric: the tolerance on one side of 0 is relative to 2π. -/
theorem C64_so2_symm_violated (H : PyHash) : ∃ a b, SO2.IsElement a ∧ SO2.IsElement b ∧ (SO2.pyEq H).equal (SO2.pyEq H).param a b = .ok true ∧ ¬ (SO2.pyEq H).equal (SO2.pyEq H).param b a = .ok true := by
  have hp := Real.pi_gt_three
  refine ⟨0, 1 / 10 ^ 9, ⟨le_rfl, Real.two_pi_pos⟩, ⟨by norm_num, by norm_num; linarith⟩, (so2_equal_iff H _ _).2 (so2_equal_up le_rfl (by norm_num; linarith) (by norm_num) (by norm_num)), ?_⟩
  rw [so2_equal_iff]
  have hb : (1 : ℝ) / 10 ^ 9 < 2 * π := by norm_num; linarith
  rw [SO2.Equal, mod2pi_self (by norm_num) hb, mod2pi_self le_rfl Real.two_pi_pos, cycleIsclose, sub_zero]
  have hd : fmod (1 / 10 ^ 9) (2 * π) = 1 / 10 ^ 9 := by
    rw [fmod, dif_pos Real.two_pi_pos, toIcoMod_eq_self]
    exact ⟨by norm_num, by linarith⟩
  rintro (⟨h, -⟩ | ⟨h, -⟩)
  · rw [hd, isclose] at h
    norm_num at h
  · rw [hd, isclose, abs_of_neg (by linarith), abs_of_pos (by norm_num), abs_of_pos Real.two_pi_pos, max_eq_right hb.le] at h
    norm_num at h
    rcases h with h | h <;> linarith

/-- **C64** (violated for SO(2)) Equal elements of SO(2) may be rounded to different values before hashing: the hashes differ for any hash function which distinguishes them. -/
theorem C64_so2_hash_violated (H : PyHash) (hH : Function.Injective H.floats) :
    ∃ a b, SO2.IsElement a ∧ SO2.IsElement b ∧ (SO2.pyEq H).equal (SO2.pyEq H).param a b = .ok true ∧ (SO2.pyEq H).hash (SO2.pyEq H).param a ≠ (SO2.pyEq H).hash (SO2.pyEq H).param b := by
  have hp := Real.pi_gt_three
  have hb1 : ∀ y : ℝ, 0 ≤ y → y ≤ 1 → 0 ≤ arcsin y ∧ arcsin y ≤ π / 2 := fun y h0 _ => ⟨arcsin_nonneg.2 h0, arcsin_le_pi_div_two y⟩
  obtain ⟨u, hu⟩ : ∃ u : ℝ, u = 5 / 10 ^ 6 - 1 / 10 ^ 10 := ⟨_, rfl⟩
  obtain ⟨v, hv⟩ : ∃ v : ℝ, v = 5 / 10 ^ 6 + 1 / 10 ^ 10 := ⟨_, rfl⟩
  have hu0 : 0 ≤ u := by rw [hu]; norm_num
  have hu1 : u ≤ 1 := by rw [hu]; norm_num
  have hv0 : 0 ≤ v := by rw [hv]; norm_num
  have hv1 : v ≤ 1 := by rw [hv]; norm_num
  obtain ⟨a0, a1⟩ := hb1 u hu0 hu1
  obtain ⟨b0, b1⟩ := hb1 v hv0 hv1
  have hlt : arcsin u < arcsin v := Real.arcsin_lt_arcsin (by linarith) (by rw [hu, hv]; norm_num) hv1
  have hsu : sin (arcsin u) = u := Real.sin_arcsin (by linarith) hu1
  have hsv : sin (arcsin v) = v := Real.sin_arcsin (by linarith) hv1
  -- the angles differ by less than `1 / 10 ^ 9`
  have hdiff : arcsin v - arcsin u ≤ 1 / 10 ^ 9 := by
    by_contra hne
    push Not at hne
    have hs : arcsin (u) + 1 / 10 ^ 9 < arcsin v := by linarith
    have h1 : sin (arcsin u + 1 / 10 ^ 9) < v := by
      rw [← hsv]
      exact Real.sin_lt_sin_of_lt_of_le_pi_div_two (by norm_num; linarith) b1 hs
    rw [Real.sin_add, hsu, Real.cos_arcsin] at h1
    have h2 : (9 : ℝ) / 10 ≤ √(1 - u ^ 2) := by
      apply Real.le_sqrt_of_sq_le
      rw [hu]; norm_num
    have h3 : 1 / 10 ^ 9 - (1 / 10 ^ 9) ^ 3 / 6 < sin ((1 : ℝ) / 10 ^ 9) := Real.sin_gt_sub_cube (by norm_num)
    have h4 : 1 - ((1 : ℝ) / 10 ^ 9) ^ 2 / 2 ≤ cos (1 / 10 ^ 9) := Real.one_sub_sq_div_two_le_cos
    have h5 : u * (1 - ((1 : ℝ) / 10 ^ 9) ^ 2 / 2) ≤ u * cos (1 / 10 ^ 9) := mul_le_mul_of_nonneg_left h4 hu0
    have h6 : (9 : ℝ) / 10 * (1 / 10 ^ 9 - (1 / 10 ^ 9) ^ 3 / 6) ≤ √(1 - u ^ 2) * sin ((1 : ℝ) / 10 ^ 9) :=
      mul_le_mul h2 h3.le (by norm_num) (Real.sqrt_nonneg _)
    have h7 : u * (1 - ((1 : ℝ) / 10 ^ 9) ^ 2 / 2) + 9 / 10 * (1 / 10 ^ 9 - (1 / 10 ^ 9) ^ 3 / 6) < v := by linarith
    rw [hu, hv] at h7
    norm_num at h7
  have hva : arcsin v < 2 * π := by linarith
  have hua : arcsin u < 2 * π := by linarith
  refine ⟨arcsin u, arcsin v, ⟨a0, hua⟩, ⟨b0, hva⟩, (so2_equal_iff H _ _).2 (so2_equal_up a0 hva hlt hdiff), fun h => ?_⟩
  have e : ∀ x, (SO2.pyEq H).hash (SO2.pyEq H).param x = .ok (H.floats [npAround (cos (mod2pi x)) 5, npAround (sin (mod2pi x)) 5]) := fun x => leafEq_hash x
  rw [e, e, Except.ok.injEq] at h
  have h2 := hH h
  simp only [List.cons.injEq, and_true] at h2
  have h3 := h2.2
  rw [mod2pi_self a0 hua, mod2pi_self b0 hva, hsu, hsv] at h3
  have r1 : round (u * 10 ^ 5) = 0 := by
    rw [round_eq_zero_iff]
    rw [hu]
    norm_num
  have r2 : round (v * 10 ^ 5) = 1 := by
    rw [round_eq, Int.floor_eq_iff, hv]
    norm_num
  simp only [npAround, r1, r2] at h3
  norm_num at h3

end Escnn
