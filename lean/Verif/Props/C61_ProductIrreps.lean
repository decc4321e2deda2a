import Verif.Lemmas.TypeTensor

/-!
# C61: the irreps of direct products are homomorphisms and decompose the tensor products of the irreps of the factors
-/

namespace Escnn

open NpMat

variable {G₁ I₁ G₂ I₂ : Type}

/-- The irreps of a group with their types, as the class `IrreducibleRepresentation` requires: orthogonal representations which commute with their endomorphism basis. -/
structure TypedIrreps {G I : Type} (El : G → Prop) (op : G → G → G) (one : G) (T : IrrepTable G I) (typ : I → IrrType) : Prop where
  one_mem : El one
  op_mem : ∀ g h, El g → El h → El (op g h)
  valid : T.Valid El op one
  endo : EndoValid T typ El

variable {El₁ : G₁ → Prop} {op₁ : G₁ → G₁ → G₁} {one₁ : G₁} {T₁ : IrrepTable G₁ I₁} {typ₁ : I₁ → IrrType}
variable {El₂ : G₂ → Prop} {op₂ : G₂ → G₂ → G₂} {one₂ : G₂} {T₂ : IrrepTable G₂ I₂} {typ₂ : I₂ → IrrType}

/-- The complex form of an irrep which is not of real type. -/
theorem TypedIrreps.complex {G I : Type} {El : G → Prop} {op : G → G → G} {one : G} {T : IrrepTable G I} {typ : I → IrrType} (h : TypedIrreps El op one T typ) {a : I} (ha : T.ok a = true) (hR : typ a ≠ .R) :
    T.size a = 2 * (T.size a / 2) ∧ UnitRep El op one (T.size a / 2) (fun g => complexify (T.mat a g)) ∧ ∀ g, El g → realify (complexify (T.mat a g)) ≈ T.mat a g := by
  have hv := h.valid a ha
  obtain ⟨hs, hc⟩ := h.endo a ha
  have key := fun g hg => commutes_J hR hs (hv.rows g hg) (hv.cols g hg) fun B hB => hc B hB g hg
  have e := (key one h.one_mem).1
  have hv' : OrthoRep El op one (2 * (T.size a / 2)) (T.mat a) := e ▸ hv
  exact ⟨e, UnitRep.complexify hv' h.one_mem (fun g hg => (key g hg).2) h.op_mem⟩

theorem OrthoRep.of_congr {E : Type} {El : E → Prop} {op : E → E → E} {one : E} {d : ℕ} {ρ σ : E → NpMat ℝ} (h : OrthoRep El op one d σ) (hone : El one) (hop : ∀ g k, El g → El k → El (op g k))
    (e : ∀ g, El g → ρ g ≈ σ g) : OrthoRep El op one d ρ where
  rows g hg := (e g hg).1.trans (h.rows g hg)
  cols g hg := (e g hg).2.1.trans (h.cols g hg)
  map_one := (e one hone).trans h.map_one
  map_mul g k hg hk := (e _ (hop g k hg hk)).trans ((h.map_mul g k hg hk).trans (mul_congr (e g hg).symm (e k hk).symm (by rw [h.cols g hg, h.rows k hk])))
  ortho g hg := by
    obtain ⟨a, b, c⟩ := h.ortho g hg
    have eg := e g hg
    refine ⟨by rw [eg.1, eg.2.1, a], ?_, ?_⟩
    · rw [eg.1]; exact (mul_congr eg (transpose_congr eg) (by simp)).trans b
    · rw [eg.1]; exact (mul_congr (transpose_congr eg) eg (by simp)).trans c

/-- The matrices of the irreps of the product. -/
theorem dpTable_mat (h₁ : TypedIrreps El₁ op₁ one₁ T₁ typ₁) (h₂ : TypedIrreps El₂ op₂ one₂ T₂ typ₂) (junk : ℕ → ℕ → ℝ) {a : I₁} {b : I₂} (ha : T₁.ok a = true) (hb : T₂.ok b = true) (i : ℤ) :
    (typ₂ b = .R → (∀ g, (dpTable junk T₁ typ₁ T₂ typ₂).mat (a, b, i) g = kron (T₁.mat a g.1) (T₂.mat b g.2)) ∧ (dpTable junk T₁ typ₁ T₂ typ₂).size (a, b, i) = T₁.size a * T₂.size b) ∧
    (typ₁ a = .R → typ₂ b ≠ .R → (∀ g, prodEl El₁ El₂ g → (dpTable junk T₁ typ₁ T₂ typ₂).mat (a, b, i) g ≈ realify (kron (ofReal (T₁.mat a g.1)) (complexify (T₂.mat b g.2)))) ∧
      (dpTable junk T₁ typ₁ T₂ typ₂).size (a, b, i) = 2 * (T₁.size a * (T₂.size b / 2))) ∧
    (typ₁ a ≠ .R → typ₂ b ≠ .R → (∀ g, prodEl El₁ El₂ g → (dpTable junk T₁ typ₁ T₂ typ₂).mat (a, b, i) g ≈ realify (kron (complexify (T₁.mat a g.1)) (twist i (complexify (T₂.mat b g.2))))) ∧
      (dpTable junk T₁ typ₁ T₂ typ₂).size (a, b, i) = 2 * (T₁.size a / 2 * (T₂.size b / 2))) := by
  have v₁ := h₁.valid a ha
  have v₂ := h₂.valid b hb
  refine ⟨fun t₂ => ⟨fun g => ?_, ?_⟩, fun t₁ t₂ => ?_, fun t₁ t₂ => ?_⟩
  · simp [dpTable, t₂]
  · simp [dpTable, t₂]
  · obtain ⟨e, -, -⟩ := h₂.complex hb t₂
    refine ⟨fun g hg => ?_, ?_⟩
    · simp only [dpTable, t₁, t₂, true_or, ne_eq, not_false_eq_true, and_self, if_true]
      have := tensorLeft_eqv junk (n := T₂.size b / 2) (v₁.rows _ hg.1) (v₁.cols _ hg.1) ((v₂.rows _ hg.2).trans e) ((v₂.cols _ hg.2).trans e)
      rwa [← e] at this
    · simp only [dpTable, t₁, true_or, if_true]
      conv_lhs => rw [e]
      ring
  · obtain ⟨e₁, -, -⟩ := h₁.complex ha t₁
    obtain ⟨e₂, -, -⟩ := h₂.complex hb t₂
    refine ⟨fun g hg => ?_, ?_⟩
    · simp only [dpTable, t₁, t₂, or_self, if_false]
      have := tensorComplex_eqv junk (m := T₁.size a / 2) (n := T₂.size b / 2) i ((v₁.rows _ hg.1).trans e₁) ((v₁.cols _ hg.1).trans e₁) ((v₂.rows _ hg.2).trans e₂) ((v₂.cols _ hg.2).trans e₂)
      rwa [← e₁, ← e₂] at this
    · simp only [dpTable, t₁, t₂, or_self, if_false]
      conv_lhs => rw [e₁, e₂]
      rw [show 2 * (T₁.size a / 2) * (2 * (T₂.size b / 2)) = 2 * (2 * (T₁.size a / 2 * (T₂.size b / 2))) by ring]
      omega

theorem prod_mem (h₁ : TypedIrreps El₁ op₁ one₁ T₁ typ₁) (h₂ : TypedIrreps El₂ op₂ one₂ T₂ typ₂) :
    prodEl El₁ El₂ (one₁, one₂) ∧ ∀ g k, prodEl El₁ El₂ g → prodEl El₁ El₂ k → prodEl El₁ El₂ (prodOp op₁ op₂ g k) :=
  ⟨⟨h₁.one_mem, h₂.one_mem⟩, fun _ _ hg hk => ⟨h₁.op_mem _ _ hg.1 hk.1, h₂.op_mem _ _ hg.2 hk.2⟩⟩

theorem kron_ortho {m n : ℕ} {ρ : G₁ → NpMat ℝ} {σ : G₂ → NpMat ℝ} (h₁ : OrthoRep El₁ op₁ one₁ m ρ) (h₂ : OrthoRep El₂ op₂ one₂ n σ) :
    OrthoRep (prodEl El₁ El₂) (prodOp op₁ op₂) (one₁, one₂) (m * n) fun g => kron (ρ g.1) (σ g.2) where
  rows g hg := by simp [h₁.rows _ hg.1, h₂.rows _ hg.2]
  cols g hg := by simp [h₁.cols _ hg.1, h₂.cols _ hg.2]
  map_one := (kron_congr h₁.map_one h₂.map_one).trans (kron_eye_eye m n)
  map_mul g k hg hk := (kron_congr (h₁.map_mul _ _ hg.1 hk.1) (h₂.map_mul _ _ hg.2 hk.2)).trans
    (kron_mul _ _ _ _ (by rw [h₁.cols _ hg.1, h₁.rows _ hk.1]) (by rw [h₂.cols _ hg.2, h₂.rows _ hk.2])).symm
  ortho g hg := by
    obtain ⟨a, b, c⟩ := h₁.ortho _ hg.1
    obtain ⟨d, e, f⟩ := h₂.ortho _ hg.2
    refine ⟨by simp [a, d], ?_, ?_⟩
    · exact (mul_congr (Eqv.refl _) (kron_transpose _ _) (by simp)).trans ((kron_mul _ _ _ _ (by simp) (by simp)).trans ((kron_congr b e).trans (kron_eye_eye _ _)))
    · exact (mul_congr (kron_transpose _ _) (Eqv.refl _) (by simp)).trans ((kron_mul _ _ _ _ (by simp) (by simp)).trans ((kron_congr c f).trans (kron_eye_eye _ _)))

/-- **C61** The irreps of a direct product are orthogonal representations (homomorphisms) of the product, of the declared size, whatever the types of the irreps of the factors. -/
theorem C61_homomorphism (h₁ : TypedIrreps El₁ op₁ one₁ T₁ typ₁) (h₂ : TypedIrreps El₂ op₂ one₂ T₂ typ₂) (junk : ℕ → ℕ → ℝ) :
    (dpTable junk T₁ typ₁ T₂ typ₂).Valid (prodEl El₁ El₂) (prodOp op₁ op₂) (one₁, one₂) := by
  rintro ⟨a, b, i⟩ hok
  simp only [dpTable, Bool.and_eq_true] at hok
  obtain ⟨⟨ha, hb⟩, -⟩ := hok
  obtain ⟨p1, p2, p3⟩ := dpTable_mat h₁ h₂ junk ha hb i
  obtain ⟨m1, m2⟩ := prod_mem h₁ h₂
  by_cases t₂ : typ₂ b = .R
  · obtain ⟨e, e'⟩ := p1 t₂
    rw [e', show (dpTable junk T₁ typ₁ T₂ typ₂).mat (a, b, i) = _ from funext e]
    exact kron_ortho (h₁.valid a ha) (h₂.valid b hb)
  · obtain ⟨-, u₂, -⟩ := h₂.complex hb t₂
    by_cases t₁ : typ₁ a = .R
    · obtain ⟨e, e'⟩ := p2 t₁ t₂
      rw [e']
      exact OrthoRep.of_congr ((UnitRep.of_real (h₁.valid a ha)).kron u₂).realify m1 m2 e
    · obtain ⟨-, u₁, -⟩ := h₁.complex ha t₁
      obtain ⟨e, e'⟩ := p3 t₁ t₂
      rw [e']
      exact OrthoRep.of_congr (u₁.kron (u₂.twist i)).realify m1 m2 e

/-- **C61** The characters given to the irreps of a direct product are the traces of their matrices. -/
theorem C61_character (h₁ : TypedIrreps El₁ op₁ one₁ T₁ typ₁) (h₂ : TypedIrreps El₂ op₂ one₂ T₂ typ₂) (junk : ℕ → ℕ → ℝ) (id : I₁ × I₂ × ℤ) (hok : (dpTable junk T₁ typ₁ T₂ typ₂).ok id = true)
    (g : G₁ × G₂) (hg : prodEl El₁ El₂ g) : dpCharacter T₁ typ₁ T₂ typ₂ id g = trace ((dpTable junk T₁ typ₁ T₂ typ₂).mat id g) := by
  obtain ⟨a, b, i⟩ := id
  simp only [dpTable, Bool.and_eq_true] at hok
  obtain ⟨⟨ha, hb⟩, -⟩ := hok
  obtain ⟨p1, p2, p3⟩ := dpTable_mat h₁ h₂ junk ha hb i
  have v₁ := h₁.valid a ha
  have v₂ := h₂.valid b hb
  have tr : ∀ {A B : NpMat ℝ}, A ≈ B → A.rows = A.cols → trace A = trace B := fun {A B} h hA => by
    unfold trace
    rw [← h.1]
    exact Finset.sum_congr rfl fun k hk => h.2.2 k k (Finset.mem_range.1 hk) (hA ▸ Finset.mem_range.1 hk)
  by_cases t₂ : typ₂ b = .R
  · rw [(p1 t₂).1, trace_kron _ _ (by rw [v₁.rows _ hg.1, v₁.cols _ hg.1]) (by rw [v₂.rows _ hg.2, v₂.cols _ hg.2])]
    simp [dpCharacter, t₂]
  · obtain ⟨e₂, u₂, r₂⟩ := h₂.complex hb t₂
    by_cases t₁ : typ₁ a = .R
    · have e := (p2 t₁ t₂).1 g hg
      rw [← tr e.symm (by simp [v₁.rows _ hg.1, v₁.cols _ hg.1, v₂.rows _ hg.2, v₂.cols _ hg.2]),
        trace_realify _ (by simp [v₁.rows _ hg.1, v₁.cols _ hg.1, v₂.rows _ hg.2, v₂.cols _ hg.2]),
        trace_kron _ _ (by simp [v₁.rows _ hg.1, v₁.cols _ hg.1]) (by simp [v₂.rows _ hg.2, v₂.cols _ hg.2])]
      have t2 := (tr (r₂ _ hg.2) (by simp [v₂.rows _ hg.2, v₂.cols _ hg.2])).symm.trans (trace_realify _ (by simp [v₂.rows _ hg.2, v₂.cols _ hg.2]))
      have t1 : trace (ofReal (T₁.mat a g.1)) = ((trace (T₁.mat a g.1) : ℝ) : ℂ) := by simp [trace, ofReal]
      simp only [dpCharacter, t₁, true_or, if_true, t2, t1]
      simp
      ring
    · obtain ⟨e₁, u₁, r₁⟩ := h₁.complex ha t₁
      have e := (p3 t₁ t₂).1 g hg
      have q1 := u₁.rows _ hg.1
      have q2 := u₁.cols _ hg.1
      have q3 := (u₂.twist i).rows _ hg.2
      have q4 := (u₂.twist i).cols _ hg.2
      rw [← tr e.symm (by simp only [realify_rows, realify_cols, kron_rows, kron_cols, q1, q2, q3, q4]),
        trace_realify _ (by simp only [kron_rows, kron_cols, q1, q2, q3, q4]), trace_kron _ _ (by rw [q1, q2]) (by rw [q3, q4])]
      simp only [dpCharacter, t₁, t₂, or_self, if_false, complexCharacter]
      rw [Complex.mul_re]
      congr 1
      have f1 : ∀ (M : NpMat ℝ) (s : ℕ), M.rows = s → trace (M.slice 0 (s / 2) 0 (s / 2)) = (trace (complexify M)).re ∧ trace (M.slice (s / 2) (s / 2) 0 (s / 2)) = (trace (complexify M)).im := by
        rintro M s rfl
        simp [trace, slice, complexify, Complex.re_sum, Complex.im_sum, add_comm]
      obtain ⟨a1, a2⟩ := f1 _ _ (v₁.rows _ hg.1)
      obtain ⟨b1, b2⟩ := f1 _ _ (v₂.rows _ hg.2)
      rw [a1, a2, b1]
      by_cases hi : i = 1
      · have c1 : (trace (twist i (complexify (T₂.mat b g.2)))) = star (trace (complexify (T₂.mat b g.2))) := by simp [twist, hi, trace, conj]
        have c2 : trace ((T₂.mat b g.2).slice (T₂.size b / 2) (T₂.size b / 2) 0 (T₂.size b / 2)).neg = -trace ((T₂.mat b g.2).slice (T₂.size b / 2) (T₂.size b / 2) 0 (T₂.size b / 2)) := by
          simp [trace, NpMat.neg]
        rw [c1, if_pos hi, c2, b2]
        simp
      · rw [if_neg hi, b2, twist, if_neg hi]

/-! ## The tensor product -/

/-- The R/C/H rule: which irreps of the product, how often, make up the tensor product of the irreps `a` and `b` (not both of quaternionic type).  A factor of real type leaves the other irrep as it is; two irreps of complex
type give two inequivalent irreps; an irrep of complex type and one of quaternionic type give twice the same irrep. -/
def tensorCopies (t₁ t₂ : IrrType) (a : I₁) (b : I₂) : List (I₁ × I₂ × ℤ) :=
  if t₁ = .R ∨ t₂ = .R then [(a, b, 0)] else if t₁ = .C ∧ t₂ = .C then [(a, b, 0), (a, b, 1)] else [(a, b, 0), (a, b, 0)]

/-- The quaternionic structure: a unitary matrix which intertwines the conjugate. -/
def quatS (q : ℕ) : NpMat ℂ := kron (ofRows 2 [[0, -Complex.I], [Complex.I, 0]]) (eye q)

theorem quatS_unitary (q : ℕ) : mul (quatS q) (adj (quatS q)) ≈ eye (2 * q) := by
  refine (mul_congr (Eqv.refl _) (adj_kron _ _) (by rfl)).trans ((kron_mul _ _ _ _ (by rfl) (by rfl)).trans (Eqv.trans (kron_congr ?_ ?_) (kron_eye_eye 2 q)))
  · refine ⟨rfl, rfl, fun i j hi hj => ?_⟩
    change i < 2 at hi
    change j < 2 at hj
    interval_cases i <;> interval_cases j <;> simp [mul, ofRows, adj, conj, transpose, eye, Finset.sum_range_succ]
  · exact (mul_congr (Eqv.refl _) (transpose_congr (conj_eye q)) (by rfl)).trans ((mul_congr (Eqv.refl _) (transpose_eye q) rfl).trans (by have := mul_eye (eye q : NpMat ℂ); simpa using this))

theorem quatS_intertwines {Z : NpMat ℂ} {q : ℕ} (hr : Z.rows = 2 * q) (hc : Z.cols = 2 * q)
    (h : mul (realify Z) (kron (ofRows 4 [[0, 0, 0, -1], [0, 0, 1, 0], [0, -1, 0, 0], [1, 0, 0, 0]]) (eye q)) ≈ mul (kron (ofRows 4 [[0, 0, 0, -1], [0, 0, 1, 0], [0, -1, 0, 0], [1, 0, 0, 0]]) (eye q)) (realify Z)) :
    mul (quatS q) (conj Z) ≈ mul Z (quatS q) := by
  have k := (parts_intertwine (n := 2 * q) (by show 4 * q = _; ring) (by show 4 * q = _; ring) hr hc hr hc h.symm).2
  have e : antiPart (kron (ofRows 4 [[0, 0, 0, -1], [0, 0, 1, 0], [0, -1, 0, 0], [1, 0, 0, 0]]) (eye q)) (2 * q) ≈ ⟨2 * q, 2 * q, fun i j => 2 * (quatS q).get i j⟩ := by
    refine ⟨rfl, rfl, fun i j hi hj => ?_⟩
    change i < 2 * q at hi
    change j < 2 * q at hj
    have hq : 0 < q := by omega
    obtain ⟨a, r, ha, hr, rfl⟩ : ∃ a r, a < 2 ∧ r < q ∧ i = a * q + r := ⟨i / q, i % q, (index_split hi).1, (index_split hi).2.1, (index_split hi).2.2⟩
    obtain ⟨b, s, hb, hs, rfl⟩ : ∃ b s, b < 2 ∧ s < q ∧ j = b * q + s := ⟨j / q, j % q, (index_split hj).1, (index_split hj).2.1, (index_split hj).2.2⟩
    have e1 : 2 * q + (a * q + r) = (2 + a) * q + r := by ring
    have e2 : 2 * q + (b * q + s) = (2 + b) * q + s := by ring
    simp only [antiPart, quatS, kron, eye_rows, eye_cols, e1, e2, mul_add_div' hr, mul_add_div' hs, mul_add_mod'' hr, mul_add_mod'' hs]
    interval_cases a <;> interval_cases b <;> by_cases hrs : r = s <;> simp [ofRows, eye, hrs] <;> refine Complex.ext ?_ ?_ <;> norm_num
  have k' := (mul_congr e.symm (Eqv.refl (conj Z)) (by simp [hr])).trans (k.trans (mul_congr (Eqv.refl Z) e (by simp [hc, antiPart])))
  refine ⟨by simp [quatS, hr, ofRows], by simp [quatS, hc, ofRows], fun i j hi hj => ?_⟩
  have := k'.2.2 i j (by simpa [quatS, ofRows] using hi) hj
  simp only [mul, mul_assoc] at this
  have l : (quatS q).cols = 2 * q := rfl
  rw [← Finset.mul_sum] at this
  simp only [mul_left_comm _ (2 : ℂ)] at this
  rw [← Finset.mul_sum] at this
  simp only [mul, l]
  exact mul_left_cancel₀ two_ne_zero this

/-- The real matrix `R` of complex form and its projection. -/
theorem half_mul {R : NpMat ℝ} {Z : NpMat ℂ} {n : ℕ} (hr : Z.rows = n) (hc : Z.cols = n) (h : realify Z ≈ R) : mul (halfU n) (ofReal R) ≈ mul Z (halfU n) :=
  (mul_congr (Eqv.refl _) (ofReal_congr h.symm) (by rw [ofReal_rows, ← h.1, realify_rows, hr]; rfl)).trans (halfU_mul hr hc)

theorem half_mul_conj {R : NpMat ℝ} {Z : NpMat ℂ} {n : ℕ} (hr : Z.rows = n) (hc : Z.cols = n) (h : realify Z ≈ R) : mul (conj (halfU n)) (ofReal R) ≈ mul (conj Z) (conj (halfU n)) := by
  refine Eqv.trans ?_ ((conj_congr (half_mul hr hc h)).trans (conj_mul _ _))
  exact (mul_congr (Eqv.refl _) (conj_ofReal R).symm (by rw [ofReal_rows, ← h.1, realify_rows, hr]; rfl)).trans (conj_mul _ _).symm

theorem ofReal_kron (A B : NpMat ℝ) : ofReal (kron A B) ≈ kron (ofReal A) (ofReal B) := ⟨rfl, rfl, fun i j _ _ => by simp [ofReal, kron]⟩

theorem kron_half {A A' : NpMat ℂ} {U V : NpMat ℂ} {R₁ R₂ : NpMat ℝ} (c1 : U.cols = R₁.rows) (c2 : V.cols = R₂.rows) (c3 : A.cols = U.rows) (c4 : A'.cols = V.rows) (h₁ : mul U (ofReal R₁) ≈ mul A U)
    (h₂ : mul V (ofReal R₂) ≈ mul A' V) : mul (kron U V) (ofReal (kron R₁ R₂)) ≈ mul (kron A A') (kron U V) :=
  (mul_congr (Eqv.refl _) (ofReal_kron _ _) (by simp [c1, c2])).trans ((kron_mul _ _ _ _ c1 c2).trans ((kron_congr h₁ h₂).trans (kron_mul _ _ _ _ c3 c4).symm))

theorem eye_swap {A : NpMat ℂ} {n : ℕ} (hr : A.rows = n) (hc : A.cols = n) : mul (eye n) A ≈ mul A (eye n) := by
  have a := eye_mul A
  have b := mul_eye A
  rw [hr] at a
  rw [hc] at b
  exact a.trans b.symm

/-- Two projections of each factor give the two parts of the tensor product. -/
theorem split_tensor {m n : ℕ} {U₁ V₁ U₂ V₂ : NpMat ℂ} (a₁ : Half m U₁) (b₁ : Half m V₁) (a₂ : Half n U₂) (b₂ : Half n V₂)
    (o : mul U₁ (adj V₁) ≈ scalar m 0 ∧ mul U₂ (transpose V₂) ≈ scalar n 0 ∨ mul U₁ (transpose V₁) ≈ scalar m 0 ∧ mul U₂ (adj V₂) ≈ scalar n 0) :
    ∃ S : NpMat ℝ, S.rows = 2 * m * (2 * n) ∧ IsOrtho S ∧ ∀ (R₁ R₂ : NpMat ℝ) (A B A' B' : NpMat ℂ), R₁.rows = 2 * m → R₁.cols = 2 * m → R₂.rows = 2 * n → R₂.cols = 2 * n → A.rows = m → A.cols = m → B.rows = n → B.cols = n →
      A'.rows = m → A'.cols = m → B'.rows = n → B'.cols = n → mul U₁ (ofReal R₁) ≈ mul A U₁ → mul U₂ (ofReal R₂) ≈ mul B U₂ → mul V₁ (ofReal R₁) ≈ mul A' V₁ → mul V₂ (ofReal R₂) ≈ mul B' V₂ →
      kron R₁ R₂ ≈ mul (mul S (diag2 (realify (kron A B)) (realify (kron A' B')))) (transpose S) := by
  have eN : 2 * m * (2 * n) = 2 * (2 * (m * n)) := by ring
  have kadj : ∀ {U V U' V' : NpMat ℂ} {a b : ℂ}, U.cols = U'.cols → V.cols = V'.cols → mul U (adj U') ≈ scalar m a → mul V (adj V') ≈ scalar n b → mul (kron U V) (adj (kron U' V')) ≈ scalar (m * n) (a * b) := by
    intro U V U' V' a b h1 h2 hU hV
    exact (mul_congr (Eqv.refl _) (adj_kron _ _) (by simp [h1, h2])).trans ((kron_mul _ _ _ _ (by simp [h1]) (by simp [h2])).trans ((kron_congr hU hV).trans (kron_scalar _ _ _ _)))
  have ktr : ∀ {U V U' V' : NpMat ℂ} {a b : ℂ}, U.cols = U'.cols → V.cols = V'.cols → mul U (transpose U') ≈ scalar m a → mul V (transpose V') ≈ scalar n b →
      mul (kron U V) (transpose (kron U' V')) ≈ scalar (m * n) (a * b) := by
    intro U V U' V' a b h1 h2 hU hV
    exact (mul_congr (Eqv.refl _) (kron_transpose _ _) (by simp [h1, h2])).trans ((kron_mul _ _ _ _ (by simp [h1]) (by simp [h2])).trans ((kron_congr hU hV).trans (kron_scalar _ _ _ _)))
  have z4 : ∀ {X : NpMat ℂ} {a b : ℂ}, X ≈ scalar (m * n) (a * b) → (a = 0 ∨ b = 0) → X ≈ scalar (m * n) 0 := by
    rintro X a b h (rfl | rfl) <;> simpa using h
  have f4 : ∀ {X : NpMat ℂ}, X ≈ scalar (m * n) (2 * 2) → X ≈ scalar (m * n) 4 := by
    intro X h; norm_num at h; exact h
  have any : ∀ (U U' : NpMat ℂ) (k : ℕ), U.rows = k → U'.rows = k → ∃ X : NpMat ℂ, mul U (adj U') ≈ X ∧ X.rows = k ∧ X.cols = k := fun U U' k h1 h2 => ⟨_, Eqv.refl _, by simp [h1], by simp [h2]⟩
  have zl : ∀ (U U' : NpMat ℂ) (W : NpMat ℂ), U'.rows = m → U'.cols = m → W ≈ scalar n 0 → NpMat.kron U' W ≈ scalar (m * n) 0 := by
    intro U U' W h1 h2 hW
    refine ⟨by simp [h1, hW.1], by simp [h2, hW.2.1], fun i j hi hj => ?_⟩
    simp only [kron_rows, kron_cols, h1, h2, hW.1, hW.2.1, scalar_rows, scalar_cols] at hi hj
    simp only [kron, scalar, ite_self]
    have := hW.2.2 (i % W.rows) (j % W.cols) (by rw [hW.1]; exact (index_split hi).2.1) (by rw [hW.2.1]; exact (index_split hj).2.1)
    rw [this]
    simp [scalar]
  have zr : ∀ (U W : NpMat ℂ), W.rows = n → W.cols = n → U ≈ scalar m 0 → NpMat.kron U W ≈ scalar (m * n) 0 := by
    intro U W h1 h2 hU
    refine ⟨by simp [h1, hU.1], by simp [h2, hU.2.1], fun i j hi hj => ?_⟩
    simp only [kron_rows, kron_cols, h1, h2, hU.1, hU.2.1, scalar_rows, scalar_cols] at hi hj
    simp only [kron, scalar, ite_self]
    have := hU.2.2 (i / W.rows) (j / W.cols) (by rw [hU.1, h1]; exact (index_split hi).1) (by rw [hU.2.1, h2]; exact (index_split hj).1)
    rw [this]
    simp [scalar]
  have oo : mul (kron U₁ U₂) (adj (kron V₁ V₂)) ≈ scalar (m * n) 0 ∧ mul (kron U₁ U₂) (transpose (kron V₁ V₂)) ≈ scalar (m * n) 0 := by
    have s1 := (mul_congr (Eqv.refl (kron U₁ U₂)) (adj_kron V₁ V₂) (by simp [a₁.cols, b₁.cols, a₂.cols, b₂.cols])).trans (kron_mul U₁ U₂ (adj V₁) (adj V₂) (by simp [a₁.cols, b₁.cols]) (by simp [a₂.cols, b₂.cols]))
    have s2 := (mul_congr (Eqv.refl (kron U₁ U₂)) (kron_transpose V₁ V₂) (by simp [a₁.cols, b₁.cols, a₂.cols, b₂.cols])).trans
      (kron_mul U₁ U₂ (transpose V₁) (transpose V₂) (by simp [a₁.cols, b₁.cols]) (by simp [a₂.cols, b₂.cols]))
    rcases o with ⟨o1, o2⟩ | ⟨o1, o2⟩
    · exact ⟨s1.trans (zr _ _ (by simp [a₂.rows]) (by simp [b₂.rows]) o1), s2.trans (zl U₁ _ _ (by simp [a₁.rows]) (by simp [b₁.rows]) o2)⟩
    · exact ⟨s1.trans (zl U₁ _ _ (by simp [a₁.rows]) (by simp [b₁.rows]) o2), s2.trans (zr _ _ (by simp [a₂.rows]) (by simp [b₂.rows]) o1)⟩
  obtain ⟨S, s1, s2, s3⟩ := split_two (V₀ := kron U₁ U₂) (V₁ := kron V₁ V₂) (N := m * n) (by simp [a₁.rows, a₂.rows]) (by simp [b₁.rows, b₂.rows]) (by rw [← eN]; simp [a₁.cols, a₂.cols]) (by rw [← eN]; simp [b₁.cols, b₂.cols])
    (f4 (kadj rfl rfl a₁.norm a₂.norm)) (f4 (kadj rfl rfl b₁.norm b₂.norm)) (z4 (ktr rfl rfl a₁.zero a₂.zero) (Or.inl rfl)) (z4 (ktr rfl rfl b₁.zero b₂.zero) (Or.inl rfl)) oo.1 oo.2
  refine ⟨S, s1.trans eN.symm, s2, fun R₁ R₂ A B A' B' hr1 hc1 hr2 hc2 ha ha' hb hb' hA hA' hB hB' i1 i2 i3 i4 => ?_⟩
  refine s3 (kron R₁ R₂) (kron A B) (kron A' B') (by rw [← eN]; simp [hr1, hr2]) (by rw [← eN]; simp [hc1, hc2]) (by simp [ha, hb]) (by simp [ha', hb']) (by simp [hA, hB]) (by simp [hA', hB']) ?_ ?_
  · exact kron_half (by rw [a₁.cols, hr1]) (by rw [a₂.cols, hr2]) (by rw [ha', a₁.rows]) (by rw [hb', a₂.rows]) i1 i2
  · exact kron_half (by rw [b₁.cols, hr1]) (by rw [b₂.cols, hr2]) (by rw [hA', b₁.rows]) (by rw [hB', b₂.rows]) i3 i4

theorem half_cross (n : ℕ) : mul (halfU n) (adj (conj (halfU n))) ≈ scalar n 0 :=
  (mul_congr (Eqv.refl _) (transpose_congr (conj_conj _)) (by simp)).trans (halfU_half n).zero

theorem half_cross_mul {n : ℕ} {S : NpMat ℂ} (hr : S.rows = n) (hc : S.cols = n) : mul (halfU n) (adj (mul S (conj (halfU n)))) ≈ scalar n 0 := by
  refine (mul_congr (Eqv.refl _) (adj_mul _ _ (by rw [hc]; rfl)) (by simp)).trans ((mul_assoc' _ _ _).symm.trans ((mul_congr (half_cross n) (Eqv.refl _) (by simp [hc]; rfl)).trans ?_))
  exact ⟨rfl, by simp [hr], fun i j _ _ => by simp [mul, scalar]⟩

/-- The two projections of an irrep of quaternionic type, both to the same complex form. -/
theorem quat_half {R : NpMat ℝ} {Z : NpMat ℂ} {q : ℕ} (hr : Z.rows = 2 * q) (hc : Z.cols = 2 * q) (h : realify Z ≈ R) (hS : mul (quatS q) (conj Z) ≈ mul Z (quatS q)) :
    mul (mul (quatS q) (conj (halfU (2 * q)))) (ofReal R) ≈ mul Z (mul (quatS q) (conj (halfU (2 * q)))) := by
  have hq : (quatS q).rows = 2 * q ∧ (quatS q).cols = 2 * q := ⟨rfl, rfl⟩
  refine (mul_assoc' _ _ _).trans ((mul_congr (Eqv.refl _) (half_mul_conj hr hc h) (by rw [hq.2]; rfl)).trans ((mul_assoc' _ _ _).symm.trans ((mul_congr hS (Eqv.refl _) (by simp [hc]; rfl)).trans (mul_assoc' _ _ _))))

/-- **C61** (all pairs of types except two quaternionic ones, where it is false: `C61_quaternionic_violation`) The tensor product of an irrep of each factor is, after an orthogonal change of basis, the direct sum of the irreps of the product prescribed by the R/C/H rule. -/
theorem C61_decomposition_partial (h₁ : TypedIrreps El₁ op₁ one₁ T₁ typ₁) (h₂ : TypedIrreps El₂ op₂ one₂ T₂ typ₂) (junk : ℕ → ℕ → ℝ) {a : I₁} {b : I₂} (ha : T₁.ok a = true) (hb : T₂.ok b = true)
    (hH : ¬ (typ₁ a = .H ∧ typ₂ b = .H)) : (∀ id ∈ tensorCopies (typ₁ a) (typ₂ b) a b, (dpTable junk T₁ typ₁ T₂ typ₂).ok id = true) ∧ ∃ S : NpMat ℝ, S.rows = T₁.size a * T₂.size b ∧ IsOrtho S ∧
      ∀ g, prodEl El₁ El₂ g → kron (T₁.mat a g.1) (T₂.mat b g.2) ≈
        mul (mul S (blockDiag ((tensorCopies (typ₁ a) (typ₂ b) a b).map fun id => (dpTable junk T₁ typ₁ T₂ typ₂).mat id g))) (transpose S) := by
  have v₁ := h₁.valid a ha
  have v₂ := h₂.valid b hb
  obtain ⟨p1, p2, p3⟩ := dpTable_mat h₁ h₂ junk ha hb 0
  refine ⟨?_, ?_⟩
  · intro id hid
    unfold tensorCopies at hid
    split_ifs at hid with c1 c2
    · simp only [List.mem_singleton] at hid
      subst hid
      simp only [dpTable, ha, hb, Bool.and_self, Bool.true_and]
      split_ifs <;> simp
    · simp only [List.mem_cons, List.not_mem_nil, or_false] at hid
      rcases hid with rfl | rfl <;> simp [dpTable, ha, hb, c2]
    · simp only [List.mem_cons, List.not_mem_nil, or_false, or_self] at hid
      subst hid
      simp only [dpTable, ha, hb, Bool.and_self, Bool.true_and]
      split_ifs <;> simp
  by_cases t₂ : typ₂ b = .R
  · -- the product itself
    refine ⟨eye (T₁.size a * T₂.size b), rfl, ⟨rfl, ?_, ?_⟩, fun g hg => ?_⟩
    · exact (mul_congr (Eqv.refl _) (transpose_eye _) rfl).trans (mul_eye _)
    · exact (mul_congr (transpose_eye _) (Eqv.refl _) rfl).trans (mul_eye _)
    · have e : blockDiag ((tensorCopies (typ₁ a) (typ₂ b) a b).map fun id => (dpTable junk T₁ typ₁ T₂ typ₂).mat id g) ≈ kron (T₁.mat a g.1) (T₂.mat b g.2) := by
        rw [tensorCopies, if_pos (Or.inr t₂), List.map_cons, List.map_nil, (p1 t₂).1]
        exact diag2_empty_right _
      have k := kron_ortho v₁ v₂
      have kr := k.rows g hg
      have kc := k.cols g hg
      refine ((mul_congr (eye_mul' _ (e.1.trans kr)) (transpose_eye _) (by simp [e.2.1, v₁.cols _ hg.1, v₂.cols _ hg.2])).trans ((mul_eye' _ (e.2.1.trans kc)).trans e)).symm
  · obtain ⟨e₂, u₂, r₂⟩ := h₂.complex hb t₂
    obtain ⟨n, hn⟩ : ∃ n, T₂.size b / 2 = n := ⟨_, rfl⟩
    rw [hn] at e₂ u₂
    by_cases t₁ : typ₁ a = .R
    · -- one block, up to a permutation
      have half := halfU_half n
      have eN : 2 * (T₁.size a * n) = T₁.size a * (2 * n) := by ring
      obtain ⟨S, s1, s2, s3⟩ := split_one (V := kron (eye (T₁.size a)) (halfU n)) (N := T₁.size a * n) (by simp [half.rows]) (by rw [eN]; simp [half.cols])
        (by
          refine (mul_congr (Eqv.refl _) (adj_kron _ _) (by simp)).trans ((kron_mul _ _ _ _ rfl rfl).trans (Eqv.trans (kron_congr (?_ : _ ≈ scalar (T₁.size a) (1 : ℂ)) half.norm) ?_))
          · exact (mul_congr (Eqv.refl (eye (T₁.size a) : NpMat ℂ)) ((transpose_congr (conj_eye (T₁.size a))).trans (transpose_eye (T₁.size a))) rfl).trans (mul_eye (eye (T₁.size a) : NpMat ℂ))
          · simpa using kron_scalar (T₁.size a) n (1 : ℂ) 2)
        (by
          refine (mul_congr (Eqv.refl _) (kron_transpose _ _) (by simp)).trans ((kron_mul _ _ _ _ rfl rfl).trans (Eqv.trans (kron_congr (?_ : _ ≈ scalar (T₁.size a) (1 : ℂ)) half.zero) ?_))
          · exact (mul_congr (Eqv.refl _) (transpose_eye _) rfl).trans (mul_eye _)
          · simpa using kron_scalar (T₁.size a) n (1 : ℂ) 0)
      refine ⟨S, by rw [s1, eN, e₂], s2, fun g hg => ?_⟩
      have e : blockDiag ((tensorCopies (typ₁ a) (typ₂ b) a b).map fun id => (dpTable junk T₁ typ₁ T₂ typ₂).mat id g) ≈ realify (kron (ofReal (T₁.mat a g.1)) (complexify (T₂.mat b g.2))) := by
        rw [tensorCopies, if_pos (Or.inl t₁), List.map_cons, List.map_nil]
        exact (diag2_empty_right _).trans ((p2 t₁ t₂).1 g hg)
      have main := s3 (kron (T₁.mat a g.1) (T₂.mat b g.2)) (kron (ofReal (T₁.mat a g.1)) (complexify (T₂.mat b g.2))) (by rw [eN]; simp [v₁.rows _ hg.1, v₂.rows _ hg.2, e₂])
        (by rw [eN]; simp [v₁.cols _ hg.1, v₂.cols _ hg.2, e₂]) (by simp only [kron_rows, ofReal_rows, v₁.rows _ hg.1, u₂.rows _ hg.2]) (by simp only [kron_cols, ofReal_cols, v₁.cols _ hg.1, u₂.cols _ hg.2])
        (kron_half (by simp [v₁.rows _ hg.1]) (by rw [half.cols, v₂.rows _ hg.2, e₂]) (by simp [v₁.cols _ hg.1]) (by rw [u₂.cols _ hg.2, half.rows])
          (eye_swap (by simp [v₁.rows _ hg.1]) (by simp [v₁.cols _ hg.1])) (half_mul (u₂.rows _ hg.2) (u₂.cols _ hg.2) (r₂ _ hg.2)))
      have er : (realify (kron (ofReal (T₁.mat a g.1)) (complexify (T₂.mat b g.2)))).rows = 2 * (T₁.size a * n) ∧ (realify (kron (ofReal (T₁.mat a g.1)) (complexify (T₂.mat b g.2)))).cols = 2 * (T₁.size a * n) := by
        simp only [realify_rows, realify_cols, kron_rows, kron_cols, ofReal_rows, ofReal_cols, v₁.rows _ hg.1, v₁.cols _ hg.1, u₂.rows _ hg.2, u₂.cols _ hg.2, and_self]
      exact main.trans (mul_congr (mul_congr (Eqv.refl _) e.symm (by rw [er.1, ← s2.1, s1])) (Eqv.refl _) (by rw [mul_cols, er.2, transpose_rows, ← s2.1, s1]))
    · obtain ⟨e₁, u₁, r₁⟩ := h₁.complex ha t₁
      obtain ⟨m, hm⟩ : ∃ m, T₁.size a / 2 = m := ⟨_, rfl⟩
      rw [hm] at e₁ u₁
      have p0 := (p3 t₁ t₂).1
      have p1' := ((dpTable_mat h₁ h₂ junk ha hb 1).2.2 t₁ t₂).1
      have fin : ∀ (S : NpMat ℝ) (g : G₁ × G₂) (X Y : NpMat ℝ) (A B A' B' : NpMat ℂ), S.rows = 2 * m * (2 * n) → IsOrtho S → A.rows = m → A.cols = m → A'.rows = m → A'.cols = m → B.rows = n → B.cols = n → B'.rows = n → B'.cols = n →
          X ≈ realify (kron A B) → Y ≈ realify (kron A' B') → mul (mul S (diag2 (realify (kron A B)) (realify (kron A' B')))) (transpose S) ≈ mul (mul S (blockDiag [X, Y])) (transpose S) := by
        intro S g X Y A B A' B' s1 s2 q1 q2 q3 q4 q5 q6 q7 q8 hX hY
        have e := diag2_congr hX.symm (hY.symm.trans (diag2_empty_right Y).symm)
        refine mul_congr (mul_congr (Eqv.refl _) e ?_) (Eqv.refl _) ?_
        · rw [← s2.1, s1, diag2_rows]
          simp only [realify_rows, kron_rows, q1, q3, q5, q7]
          ring
        · rw [mul_cols, diag2_cols, transpose_rows, ← s2.1, s1]
          simp only [realify_cols, kron_cols, q2, q4, q6, q8]
          ring
      by_cases tc : typ₁ a = .C ∧ typ₂ b = .C
      · obtain ⟨S, s1, s2, s3⟩ := split_tensor (halfU_half m) (halfU_half m) (halfU_half n) (halfU_half n).conj (Or.inr ⟨(halfU_half m).zero, half_cross n⟩)
        refine ⟨S, by rw [s1, e₁, e₂], s2, fun g hg => ?_⟩
        have b₁ := u₁.rows _ hg.1
        have b₂ := u₁.cols _ hg.1
        have b₃ := u₂.rows _ hg.2
        have b₄ := u₂.cols _ hg.2
        have := s3 (T₁.mat a g.1) (T₂.mat b g.2) _ _ _ _ ((v₁.rows _ hg.1).trans e₁) ((v₁.cols _ hg.1).trans e₁) ((v₂.rows _ hg.2).trans e₂) ((v₂.cols _ hg.2).trans e₂) b₁ b₂ b₃ b₄ b₁ b₂ (by simpa using b₃) (by simpa using b₄)
          (half_mul b₁ b₂ (r₁ _ hg.1)) (half_mul b₃ b₄ (r₂ _ hg.2)) (half_mul b₁ b₂ (r₁ _ hg.1)) (half_mul_conj b₃ b₄ (r₂ _ hg.2))
        rw [tensorCopies, if_neg (by tauto), if_pos tc]
        exact this.trans (fin S g _ _ _ _ _ _ s1 s2 b₁ b₂ b₁ b₂ b₃ b₄ (by simpa using b₃) (by simpa using b₄) (by simpa [twist] using p0 g hg) (by simpa [twist] using p1' g hg))
      · have hcopies : tensorCopies (typ₁ a) (typ₂ b) a b = [(a, b, 0), (a, b, 0)] := by rw [tensorCopies, if_neg (by tauto), if_neg tc]
        rw [hcopies]
        by_cases th : typ₂ b = .H
        · obtain ⟨hs, hc⟩ := h₂.endo b hb
          rw [th] at hs hc
          obtain ⟨q, hq⟩ : ∃ q, T₂.size b = 4 * q := ⟨T₂.size b / 4, by have := hs.2; omega⟩
          obtain rfl : n = 2 * q := by omega
          have hS : ∀ g, El₂ g → mul (quatS q) (conj (complexify (T₂.mat b g))) ≈ mul (complexify (T₂.mat b g)) (quatS q) := fun g hg => by
            refine quatS_intertwines (u₂.rows g hg) (u₂.cols g hg) ?_
            have k := hc (kron (ofRows 4 [[0, 0, 0, -1], [0, 0, 1, 0], [0, -1, 0, 0], [1, 0, 0, 0]]) (eye (T₂.size b / 4))) (by simp [endoBasis, endoCore]) g hg
            rw [show T₂.size b / 4 = q by omega] at k
            refine (mul_congr (r₂ g hg) (Eqv.refl _) ?_).trans (k.trans (mul_congr (Eqv.refl _) (r₂ g hg).symm ?_))
            · rw [(r₂ g hg).2.1, v₂.cols g hg, hq]; rfl
            · rw [v₂.rows g hg, hq]; rfl
          obtain ⟨S, s1, s2, s3⟩ := split_tensor (halfU_half m) (halfU_half m) (halfU_half (2 * q)) ((halfU_half (2 * q)).conj.mul rfl rfl (quatS_unitary q)) (Or.inr ⟨(halfU_half m).zero, half_cross_mul rfl rfl⟩)
          refine ⟨S, by rw [s1, e₁, e₂], s2, fun g hg => ?_⟩
          have b₁ := u₁.rows _ hg.1
          have b₂ := u₁.cols _ hg.1
          have b₃ := u₂.rows _ hg.2
          have b₄ := u₂.cols _ hg.2
          have := s3 (T₁.mat a g.1) (T₂.mat b g.2) _ _ _ _ ((v₁.rows _ hg.1).trans e₁) ((v₁.cols _ hg.1).trans e₁) ((v₂.rows _ hg.2).trans e₂) ((v₂.cols _ hg.2).trans e₂) b₁ b₂ b₃ b₄ b₁ b₂ b₃ b₄
            (half_mul b₁ b₂ (r₁ _ hg.1)) (half_mul b₃ b₄ (r₂ _ hg.2)) (half_mul b₁ b₂ (r₁ _ hg.1)) (quat_half b₃ b₄ (r₂ _ hg.2) (hS _ hg.2))
          exact this.trans (fin S g _ _ _ _ _ _ s1 s2 b₁ b₂ b₁ b₂ b₃ b₄ b₃ b₄ (by simpa [twist] using p0 g hg) (by simpa [twist] using p0 g hg))
        · have th' : typ₁ a = .H := by cases h : typ₁ a <;> cases h' : typ₂ b <;> simp_all
          obtain ⟨hs, hc⟩ := h₁.endo a ha
          rw [th'] at hs hc
          obtain ⟨q, hq⟩ : ∃ q, T₁.size a = 4 * q := ⟨T₁.size a / 4, by have := hs.2; omega⟩
          obtain rfl : m = 2 * q := by omega
          have hS : ∀ g, El₁ g → mul (quatS q) (conj (complexify (T₁.mat a g))) ≈ mul (complexify (T₁.mat a g)) (quatS q) := fun g hg => by
            refine quatS_intertwines (u₁.rows g hg) (u₁.cols g hg) ?_
            have k := hc (kron (ofRows 4 [[0, 0, 0, -1], [0, 0, 1, 0], [0, -1, 0, 0], [1, 0, 0, 0]]) (eye (T₁.size a / 4))) (by simp [endoBasis, endoCore]) g hg
            rw [show T₁.size a / 4 = q by omega] at k
            refine (mul_congr (r₁ g hg) (Eqv.refl _) ?_).trans (k.trans (mul_congr (Eqv.refl _) (r₁ g hg).symm ?_))
            · rw [(r₁ g hg).2.1, v₁.cols g hg, hq]; rfl
            · rw [v₁.rows g hg, hq]; rfl
          obtain ⟨S, s1, s2, s3⟩ := split_tensor (halfU_half (2 * q)) ((halfU_half (2 * q)).conj.mul rfl rfl (quatS_unitary q)) (halfU_half n) (halfU_half n) (Or.inl ⟨half_cross_mul rfl rfl, (halfU_half n).zero⟩)
          refine ⟨S, by rw [s1, e₁, e₂], s2, fun g hg => ?_⟩
          have b₁ := u₁.rows _ hg.1
          have b₂ := u₁.cols _ hg.1
          have b₃ := u₂.rows _ hg.2
          have b₄ := u₂.cols _ hg.2
          have := s3 (T₁.mat a g.1) (T₂.mat b g.2) _ _ _ _ ((v₁.rows _ hg.1).trans e₁) ((v₁.cols _ hg.1).trans e₁) ((v₂.rows _ hg.2).trans e₂) ((v₂.cols _ hg.2).trans e₂) b₁ b₂ b₃ b₄ b₁ b₂ b₃ b₄
            (half_mul b₁ b₂ (r₁ _ hg.1)) (half_mul b₃ b₄ (r₂ _ hg.2)) (quat_half b₁ b₂ (r₁ _ hg.1) (hS _ hg.1)) (half_mul b₃ b₄ (r₂ _ hg.2))
          exact this.trans (fin S g _ _ _ _ _ _ s1 s2 b₁ b₂ b₁ b₂ b₃ b₄ b₃ b₄ (by simpa [twist] using p0 g hg) (by simpa [twist] using p0 g hg))

end Escnn
