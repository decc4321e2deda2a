import Verif.Lemmas.Commutant
import Verif.Model.DPIrrep
import Verif.Props.C18_Endo

/-!
# Unitary representations, their realifications and tensor products
-/

namespace Escnn

open NpMat

theorem NpMat.kron_assoc {R : Type} [CommRing R] (A B C : NpMat R) : kron (kron A B) C ≈ kron A (kron B C) := by
  refine ⟨by simp [mul_assoc], by simp [mul_assoc], fun i j _ _ => ?_⟩
  simp only [kron]
  rw [Nat.div_div_eq_div_mul, Nat.div_div_eq_div_mul, mul_comm C.rows, mul_comm C.cols, Nat.mod_mul_left_mod, Nat.mod_mul_left_mod, Nat.mod_mul_left_div_self, Nat.mod_mul_left_div_self, mul_assoc]

/-- `Z` is a unitary `n × n` matrix representation. -/
structure UnitRep {E : Type} (El : E → Prop) (op : E → E → E) (one : E) (n : ℕ) (Z : E → NpMat ℂ) : Prop where
  rows : ∀ g, El g → (Z g).rows = n
  cols : ∀ g, El g → (Z g).cols = n
  rows_one : (Z one).rows = n ∧ (Z one).cols = n
  map_one : Z one ≈ eye n
  map_mul : ∀ g h, El g → El h → Z (op g h) ≈ mul (Z g) (Z h)
  left : ∀ g, El g → mul (Z g) (adj (Z g)) ≈ eye n
  right : ∀ g, El g → mul (adj (Z g)) (Z g) ≈ eye n

/-- The product of two groups. -/
def prodEl {G₁ G₂ : Type} (El₁ : G₁ → Prop) (El₂ : G₂ → Prop) (g : G₁ × G₂) : Prop := El₁ g.1 ∧ El₂ g.2
/-- The product of two groups. -/
def prodOp {G₁ G₂ : Type} (op₁ : G₁ → G₁ → G₁) (op₂ : G₂ → G₂ → G₂) (g h : G₁ × G₂) : G₁ × G₂ := (op₁ g.1 h.1, op₂ g.2 h.2)

namespace UnitRep

variable {E : Type} {El : E → Prop} {op : E → E → E} {one : E} {n : ℕ} {Z : E → NpMat ℂ}

theorem realify (h : UnitRep El op one n Z) : OrthoRep El op one (2 * n) fun g => NpMat.realify (Z g) where
  rows g hg := by simp [h.rows g hg]
  cols g hg := by simp [h.cols g hg]
  map_one := (realify_congr h.map_one).trans (realify_eye n)
  map_mul g k hg hk := (realify_congr (h.map_mul g k hg hk)).trans (realify_mul _ _ (by rw [h.cols g hg, h.rows k hk])).symm
  ortho g hg := by
    have hr := h.rows g hg
    have hc := h.cols g hg
    refine ⟨by simp [hr, hc], ?_, ?_⟩
    · refine (mul_congr (Eqv.refl _) (realify_transpose _) (by simp)).trans ((realify_mul _ _ (by simp)).trans ?_)
      rw [realify_rows, hr]
      exact (realify_congr (h.left g hg)).trans (realify_eye n)
    · refine (mul_congr (realify_transpose _) (Eqv.refl _) (by simp)).trans ((realify_mul _ _ (by simp)).trans ?_)
      rw [realify_rows, hr]
      exact (realify_congr (h.right g hg)).trans (realify_eye n)

theorem conj (h : UnitRep El op one n Z) : UnitRep El op one n fun g => NpMat.conj (Z g) where
  rows := h.rows
  cols := h.cols
  rows_one := h.rows_one
  map_one := (conj_congr h.map_one).trans (conj_eye n)
  map_mul g k hg hk := (conj_congr (h.map_mul g k hg hk)).trans (conj_mul _ _)
  left g hg := (conj_mul _ _).symm.trans ((conj_congr (h.left g hg)).trans (conj_eye n))
  right g hg := (conj_mul _ _).symm.trans ((conj_congr (h.right g hg)).trans (conj_eye n))

theorem of_congr {Z' : E → NpMat ℂ} (h : UnitRep El op one n Z) (hZ : ∀ g, Z' g ≈ Z g) : UnitRep El op one n Z' where
  rows g hg := (hZ g).1.trans (h.rows g hg)
  cols g hg := (hZ g).2.1.trans (h.cols g hg)
  rows_one := ⟨(hZ one).1.trans h.rows_one.1, (hZ one).2.1.trans h.rows_one.2⟩
  map_one := (hZ one).trans h.map_one
  map_mul g k hg hk := (hZ _).trans ((h.map_mul g k hg hk).trans (mul_congr (hZ g).symm (hZ k).symm (by rw [h.cols g hg, h.rows k hk])))
  left g hg := (mul_congr (hZ g) (adj_congr (hZ g)) (by simp)).trans (h.left g hg)
  right g hg := (mul_congr (adj_congr (hZ g)) (hZ g) (by simp)).trans (h.right g hg)

theorem of_real {ρ : E → NpMat ℝ} (h : OrthoRep El op one n ρ) : UnitRep El op one n fun g => ofReal (ρ g) where
  rows g hg := h.rows g hg
  cols g hg := h.cols g hg
  rows_one := ⟨h.map_one.1, h.map_one.2.1⟩
  map_one := (ofReal_congr h.map_one).trans (ofReal_eye n)
  map_mul g k hg hk := (ofReal_congr (h.map_mul g k hg hk)).trans (ofReal_mul _ _)
  left g hg := by
    have := (h.ortho g hg).2.1
    rw [h.rows g hg] at this
    exact (mul_congr (Eqv.refl _) ((transpose_congr (conj_ofReal _)).trans (ofReal_transpose _).symm) (by simp)).trans ((ofReal_mul _ _).symm.trans ((ofReal_congr this).trans (ofReal_eye n)))
  right g hg := by
    have := (h.ortho g hg).2.2
    rw [h.rows g hg] at this
    exact (mul_congr ((transpose_congr (conj_ofReal _)).trans (ofReal_transpose _).symm) (Eqv.refl _) (by simp)).trans ((ofReal_mul _ _).symm.trans ((ofReal_congr this).trans (ofReal_eye n)))

/-- The complex form of an orthogonal representation which commutes with the complex structure. -/
theorem complexify {ρ : E → NpMat ℝ} (h : OrthoRep El op one (2 * n) ρ) (hone : El one)
    (hJ : ∀ g, El g → mul (ρ g) (kron (ofRows 2 [[0, -1], [1, 0]]) (eye n)) ≈ mul (kron (ofRows 2 [[0, -1], [1, 0]]) (eye n)) (ρ g)) (hop : ∀ g k, El g → El k → El (op g k)) :
    UnitRep El op one n (fun g => NpMat.complexify (ρ g)) ∧ ∀ g, El g → NpMat.realify (NpMat.complexify (ρ g)) ≈ ρ g := by
  have e : ∀ g, El g → NpMat.realify (NpMat.complexify (ρ g)) ≈ ρ g := fun g hg => realify_complexify (h.rows g hg) (h.cols g hg) (hJ g hg)
  have hr : ∀ g, El g → (NpMat.complexify (ρ g)).rows = n := fun g hg => by simp [h.rows g hg]
  have hc : ∀ g, El g → (NpMat.complexify (ρ g)).cols = n := fun g hg => by simp [h.cols g hg]
  refine ⟨⟨hr, hc, ⟨hr one hone, hc one hone⟩, ?_, ?_, ?_, ?_⟩, e⟩
  · exact realify_inj ((e one hone).trans (h.map_one.trans (realify_eye n).symm))
  · intro g k hg hk
    refine realify_inj ((e _ (hop g k hg hk)).trans ((h.map_mul g k hg hk).trans ?_))
    exact (mul_congr (e g hg).symm (e k hk).symm (by rw [h.cols g hg, h.rows k hk])).trans (realify_mul _ _ (by rw [hc g hg, hr k hk]))
  · intro g hg
    have := (h.ortho g hg).2.1
    rw [h.rows g hg] at this
    refine realify_inj ((realify_mul _ _ (by simp)).symm.trans (((mul_congr (e g hg) ((realify_transpose _).symm.trans (transpose_congr (e g hg))) (by simp)).trans this).trans (realify_eye n).symm))
  · intro g hg
    have := (h.ortho g hg).2.2
    rw [h.rows g hg] at this
    refine realify_inj ((realify_mul _ _ (by simp)).symm.trans (((mul_congr ((realify_transpose _).symm.trans (transpose_congr (e g hg))) (e g hg) (by simp)).trans this).trans (realify_eye n).symm))

variable {G₁ G₂ : Type} {El₁ : G₁ → Prop} {op₁ : G₁ → G₁ → G₁} {one₁ : G₁} {El₂ : G₂ → Prop} {op₂ : G₂ → G₂ → G₂} {one₂ : G₂} {m : ℕ} {Z₁ : G₁ → NpMat ℂ} {Z₂ : G₂ → NpMat ℂ}

theorem kron (h₁ : UnitRep El₁ op₁ one₁ m Z₁) (h₂ : UnitRep El₂ op₂ one₂ n Z₂) :
    UnitRep (prodEl El₁ El₂) (prodOp op₁ op₂) (one₁, one₂) (m * n) fun g => NpMat.kron (Z₁ g.1) (Z₂ g.2) where
  rows g hg := by simp [h₁.rows _ hg.1, h₂.rows _ hg.2]
  cols g hg := by simp [h₁.cols _ hg.1, h₂.cols _ hg.2]
  rows_one := by simp [h₁.rows_one, h₂.rows_one]
  map_one := (kron_congr h₁.map_one h₂.map_one).trans (kron_eye_eye m n)
  map_mul g k hg hk := (kron_congr (h₁.map_mul _ _ hg.1 hk.1) (h₂.map_mul _ _ hg.2 hk.2)).trans
    (kron_mul _ _ _ _ (by rw [h₁.cols _ hg.1, h₁.rows _ hk.1]) (by rw [h₂.cols _ hg.2, h₂.rows _ hk.2])).symm
  left g hg := (mul_congr (Eqv.refl _) (adj_kron _ _) (by simp)).trans ((kron_mul _ _ _ _ (by simp) (by simp)).trans ((kron_congr (h₁.left _ hg.1) (h₂.left _ hg.2)).trans (kron_eye_eye m n)))
  right g hg := (mul_congr (adj_kron _ _) (Eqv.refl _) (by simp)).trans ((kron_mul _ _ _ _ (by simp) (by simp)).trans ((kron_congr (h₁.right _ hg.1) (h₂.right _ hg.2)).trans (kron_eye_eye m n)))

end UnitRep

/-! ### The arrays of the source as realifications -/

theorem fillHalves_eqv (junk : ℕ → ℕ → ℝ) {N : ℕ} {re im : NpMat ℝ} (h1 : re.rows = N) (h2 : re.cols = N) (h3 : im.rows = N) (h4 : im.cols = N) :
    fillHalves junk (2 * N) re im ≈ realify ⟨N, N, fun i j => ⟨re.get i j, im.get i j⟩⟩ := by
  refine ⟨rfl, rfl, fun i j hi hj => ?_⟩
  change i < 2 * N at hi
  change j < 2 * N at hj
  simp only [fillHalves, setBlock, NpMat.neg, realify, h1, h2, h3, h4, show 2 * N / 2 = N by omega]
  by_cases c : i < N <;> by_cases d : j < N
  · rw [if_neg (by omega), if_neg (by omega), if_neg (by omega), if_pos (by omega), if_pos c, if_pos d]; simp
  · rw [if_pos (by omega), if_pos c, if_neg d]; simp
  · rw [if_neg (by omega), if_pos (by omega), if_neg c, if_pos d]; simp
  · rw [if_neg (by omega), if_neg (by omega), if_pos (by omega), if_neg c, if_neg d]

theorem tensorLeft_eqv (junk : ℕ → ℕ → ℝ) {s₁ n : ℕ} {M₁ M₂ : NpMat ℝ} (h1 : M₁.rows = s₁) (h1' : M₁.cols = s₁) (h2 : M₂.rows = 2 * n) (h2' : M₂.cols = 2 * n) :
    tensorLeft junk s₁ (2 * n) M₁ M₂ ≈ realify (kron (ofReal M₁) (complexify M₂)) := by
  have e : s₁ * (2 * n) = 2 * (s₁ * n) := by ring
  have e' : 2 * n / 2 = n := by omega
  simp only [tensorLeft, e, e']
  refine (fillHalves_eqv junk ?_ ?_ ?_ ?_).trans (realify_congr ⟨?_, ?_, fun i j _ _ => ?_⟩)
  · simp [slice, h1]
  · simp [slice, h1']
  · simp [slice, h1]
  · simp [slice, h1']
  · simp [h1, h2]
  · simp [h1', h2']
  · simp only [kron, slice, ofReal, complexify, h2, h2', e', Nat.zero_add]
    refine Complex.ext ?_ ?_
    · simp
    · simp [add_comm]

/-- The complex conjugate if `i = 1`. -/
def twist (i : ℤ) (Z : NpMat ℂ) : NpMat ℂ := if i = 1 then conj Z else Z

theorem twist_rows (i : ℤ) (Z : NpMat ℂ) : (twist i Z).rows = Z.rows := by unfold twist; split_ifs <;> rfl
theorem twist_cols (i : ℤ) (Z : NpMat ℂ) : (twist i Z).cols = Z.cols := by unfold twist; split_ifs <;> rfl

theorem UnitRep.twist {E : Type} {El : E → Prop} {op : E → E → E} {one : E} {n : ℕ} {Z : E → NpMat ℂ} (h : UnitRep El op one n Z) (i : ℤ) : UnitRep El op one n fun g => Escnn.twist i (Z g) := by
  unfold Escnn.twist
  split_ifs
  · exact h.conj
  · exact h

theorem tensorComplex_eqv (junk : ℕ → ℕ → ℝ) {m n : ℕ} (i : ℤ) {M₁ M₂ : NpMat ℝ} (h1 : M₁.rows = 2 * m) (h1' : M₁.cols = 2 * m) (h2 : M₂.rows = 2 * n) (h2' : M₂.cols = 2 * n) :
    tensorComplex junk (2 * m) (2 * n) i M₁ M₂ ≈ realify (kron (complexify M₁) (twist i (complexify M₂))) := by
  have e : 2 * m * (2 * n) / 2 = 2 * (m * n) := by rw [show 2 * m * (2 * n) = 2 * (2 * (m * n)) by ring]; omega
  have em : 2 * m / 2 = m := by omega
  have en : 2 * n / 2 = n := by omega
  simp only [tensorComplex, e, em, en]
  refine (fillHalves_eqv junk ?_ ?_ ?_ ?_).trans (realify_congr ⟨?_, ?_, fun a b _ _ => ?_⟩)
  · simp [slice, NpMat.sub]
  · simp [slice, NpMat.sub]
  · by_cases c : i = 1 <;> simp [slice, NpMat.add, c, NpMat.neg]
  · by_cases c : i = 1 <;> simp [slice, NpMat.add, c, NpMat.neg]
  · simp [h1, h2, twist_rows]
  · simp [h1', h2', twist_cols]
  · by_cases c : i = 1
    · simp only [kron, slice, NpMat.add, NpMat.sub, NpMat.neg, c, if_true, twist, complexify, conj, h1, h2, h2', em, en, Nat.zero_add]
      refine Complex.ext ?_ ?_
      · simp [add_comm]
      · simp [add_comm]
    · simp only [kron, slice, NpMat.add, NpMat.sub, c, if_false, twist, complexify, h1, h2, h2', em, en, Nat.zero_add]
      refine Complex.ext ?_ ?_
      · simp [add_comm]
      · simp [add_comm]

/-- An irrep of complex or quaternionic type commutes with the complex structure. -/
theorem commutes_J {ρ : NpMat ℝ} {t : IrrType} {d : ℕ} (ht : t ≠ .R) (hs : t.sizeOk d) (hr : ρ.rows = d) (hc : ρ.cols = d) (h : ∀ B ∈ endoBasis t d, mul ρ B ≈ mul B ρ) :
    d = 2 * (d / 2) ∧ mul ρ (kron (ofRows 2 [[0, -1], [1, 0]]) (eye (d / 2))) ≈ mul (kron (ofRows 2 [[0, -1], [1, 0]]) (eye (d / 2))) ρ := by
  cases t with
  | R => exact absurd rfl ht
  | C =>
    have := hs.2
    exact ⟨by omega, h _ (by simp [endoBasis, endoCore])⟩
  | H =>
    have h4 := hs.2
    refine ⟨by omega, ?_⟩
    have e : kron (ofRows 2 [[0, -1], [1, 0]] : NpMat ℝ) (eye (d / 2)) ≈ kron (ofRows 4 [[0, 0, -1, 0], [0, 0, 0, -1], [1, 0, 0, 0], [0, 1, 0, 0]]) (eye (d / 4)) := by
      rw [show d / 2 = 2 * (d / 4) by omega]
      refine (kron_congr (Eqv.refl _) (kron_eye_eye 2 (d / 4)).symm).trans ((kron_assoc _ _ _).symm.trans (kron_congr ⟨rfl, rfl, fun i j hi hj => ?_⟩ (Eqv.refl _)))
      change i < 4 at hi
      change j < 4 at hj
      interval_cases i <;> interval_cases j <;> simp [kron, ofRows, eye]
    have k := h (kron (ofRows 4 [[0, 0, -1, 0], [0, 0, 0, -1], [1, 0, 0, 0], [0, 1, 0, 0]]) (eye (d / 4))) (by simp [endoBasis, endoCore])
    exact (mul_congr (Eqv.refl _) e (by rw [hc]; show d = 2 * (d / 2); omega)).trans (k.trans (mul_congr e.symm (Eqv.refl _) (by rw [hr]; show 4 * (d / 4) = d; omega)))

end Escnn
