import Verif.Props.C77_Combine3
import Verif.Lemmas.RotSurj
import Verif.Lemmas.ExRel

/-!
# C77: subgroups of the groups of the solids
-/

namespace Escnn

open Real Matrix Quaternion

variable {aq : UQuat → UQuat}

/-- `find_rotation_pole2point` returns a rotation which moves the pole in the direction of the point, for every point but the
origin. -/
theorem C77_pole {point : Fin 3 → ℝ} (h : point ≠ 0) :
    ∃ R, poleToPoint point = .ok R ∧ Rᵀ * R = 1 ∧ R.det = 1 ∧ R.mulVec ![0, 0, 1] = fun i => point i / norm3 point := by
  obtain ⟨R, h1, h2, h3, h4⟩ := poleToPoint_spec h
  refine ⟨R, h1, h2, h3, funext fun i => ?_⟩
  simp [Matrix.mulVec, dotProduct, Fin.sum_univ_three, h4]

/-- The contract of the inverse and of the constructor of the group of a solid. -/
structure RotGroup.Closed (R : RotGroup) (inv : R.H → R.H) : Prop where
  /-- the inverse is an element -/
  inv_el : ∀ h, R.El h → R.El (inv h)
  /-- the inverse is the inverse rotation -/
  inv_rot : ∀ h, R.El h → rotOf (R.toQ (inv h)) = (rotOf (R.toQ h))ᵀ
  /-- the constructor returns the element of the given quaternion -/
  ofQ_el : ∀ q h, normSq q = 1 → R.ofQ q = .ok h → R.El h ∧ rotOf (R.toQ h) = rotOf q

/-- The contract of `element(., 'MAT')`: a unit quaternion of the rotation. -/
def QuatOf (qOf : Mat3 → UQuat) : Prop := ∀ M : Mat3, Mᵀ * M = 1 → M.det = 1 → normSq (qOf M) = 1 ∧ rotOf (qOf M) = M

namespace SO3

/-- **C77** SO(3): the conjugates of the Icosahedral group in itself. -/
theorem C77_ico_self (haq : AsQuat aq) (qOf : Mat3 → UQuat) {ico octa : RotGroup} (hI : ico.Lawful) {inv : ico.H → ico.H}
    (hc : ico.Closed inv) {adj : UQuat} (hadj : normSq adj = 1) {e : ico.H} (he : ico.El e) :
    ∃ P₁ C₁ P C, subgroupOf aq ico octa (.str "ico") adj = .ok ⟨ico.H, ico.El, ico.mul, P₁, C₁⟩ ∧
      combined aq qOf ico octa (.str "ico") adj (.icoStr "ico" e) = .ok ⟨ico.H, ico.El, ico.mul, P, C⟩ ∧
      SameInclusion rotOf ico.El P fun h => P₁ (icoSelf ico inv e h) := by
  obtain ⟨P₁, C₁, e₁, hr, -⟩ := C75_plato haq ico octa hadj "ico" ico (.inl ⟨rfl, rfl⟩) hI
  have e0 : subgroup aq ico octa (.str "ico") adj =
    .ok ⟨ico.H, ico.El, ico.mul, rotgroupToSo3 aq ico adj, so3ToRotgroup aq ico adj⟩ := rfl
  obtain ⟨a, ha, hau, har⟩ : ∃ a, rotgroupToSo3 aq ico adj e = .ok a ∧ normSq a = 1 ∧
      rotOf a = (rotOf adj)ᵀ * rotOf (ico.toQ e) * rotOf adj := by
    have hP : rotgroupToSo3 aq ico adj = P₁ := by
      have := Except.ok.inj (e0.symm.trans e₁)
      simp only [SubData.mk.injEq, heq_eq_eq, true_and] at this
      exact this.1
    rw [hP]
    exact hr.parent_ok e he
  have hu := combine_unit haq hadj hau
  have hcr : rotOf (combine aq adj a) = rotOf (ico.toQ e) * rotOf adj := by
    rw [combine_spec haq, har, ← mul_assoc, ← mul_assoc, rotOf_orth hadj, one_mul]
  obtain ⟨P, C, e2, h2, -⟩ := C75_plato haq ico octa hu "ico" ico (.inl ⟨rfl, rfl⟩) hI
  refine ⟨P₁, C₁, P, C, e₁, ?_, SameInclusion.of
    (fun x => (rotOf adj)ᵀ * ((rotOf (ico.toQ e))ᵀ * rotOf (ico.toQ x) * rotOf (ico.toQ e)) * rotOf adj) ?_ ?_⟩
  · have e3 : combineSubgroups aq qOf ico octa (.str "ico") adj (.icoStr "ico" e) = .ok (.str "ico", combine aq adj a) := by
      change after (subgroup aq ico octa (.str "ico") adj) (fun _ => (rotgroupToSo3 aq ico adj e).bind fun a =>
        .ok (Id.str "ico", combine aq adj a)) = _
      rw [e0, ha]; rfl
    rw [combined, after_ok e3]
    exact e2
  · intro x hx
    obtain ⟨g, h3, -, h4⟩ := h2.parent_ok x hx
    exact ⟨g, h3, h4.trans (by rw [hcr, conj_conj])⟩
  · intro x hx
    have hi := hc.inv_el e he
    have hm := hI.mul_el _ _ hi hx
    have hii := hc.inv_el _ hi
    obtain ⟨g, h3, -, h4⟩ := hr.parent_ok (icoSelf ico inv e x) (hI.mul_el _ _ hm hii)
    refine ⟨g, h3, h4.trans ?_⟩
    rw [icoSelf, hI.mul_rot _ _ hm hii, hI.mul_rot _ _ hi hx, hc.inv_rot _ hi, hc.inv_rot e he, Matrix.transpose_transpose]

/-- The axis of the cyclic subgroup of order `n` in the Icosahedral group, ico.py L268, L273, L278-279. -/
noncomputable def icoAxis (n : ℕ) : Fin 3 → ℝ :=
  if n = 3 then fun _ => 1 / √3 else if n = 5 then fun i => ![(1 + √5) / 2, 0, 1] i / norm3 ![(1 + √5) / 2, 0, 1]
  else ![0, 0, 1]

theorem unit_axis {p : Fin 3 → ℝ} (hp : p 0 ^ 2 + p 1 ^ 2 + p 2 ^ 2 = 1) (t : ℝ) :
    normSq (quat (p 0 * sin t) (p 1 * sin t) (p 2 * sin t) (cos t)) = 1 := by
  rw [normSq_quat]
  linear_combination sin t ^ 2 * hp + sin_sq_add_cos_sq t

theorem icoAxis_unit (n : ℕ) : icoAxis n 0 ^ 2 + icoAxis n 1 ^ 2 + icoAxis n 2 ^ 2 = 1 := by
  unfold icoAxis
  by_cases h3 : n = 3
  · simp only [if_pos h3]
    rw [div_pow, sq_sqrt (by norm_num)]
    norm_num
  · by_cases h5 : n = 5
    · simp only [if_neg h3, if_pos h5]
      refine unit_div ?_
      simp
      positivity
    · simp [h3, h5]

theorem norm3_unit {p : Fin 3 → ℝ} (hp : p 0 ^ 2 + p 1 ^ 2 + p 2 ^ 2 = 1) : norm3 p = 1 := by
  rw [norm3, hp, sqrt_one]

/-- The rotation of which the axis of the subgroup is the image of the pole. -/
theorem icoAxis_pole (n : ℕ) : ∃ R, poleToPoint (icoAxis n) = .ok R ∧ Rᵀ * R = 1 ∧ R.det = 1 ∧ ∀ θ,
    R * rotZ θ * Rᵀ = rotOf (quat (icoAxis n 0 * sin (θ / 2)) (icoAxis n 1 * sin (θ / 2)) (icoAxis n 2 * sin (θ / 2))
      (cos (θ / 2))) := by
  have hne : icoAxis n ≠ 0 := fun h => by
    have := icoAxis_unit n
    rw [h] at this
    simp at this
  obtain ⟨R, h1, h2, h3, h4⟩ := poleToPoint_spec hne
  refine ⟨R, h1, h2, h3, fun θ => ?_⟩
  rw [rotation_axis h2 h3, h4, h4, h4, norm3_unit (icoAxis_unit n), div_one, div_one, div_one]

theorem cnToIco_spec {ico : RotGroup} (hI : ico.Lawful) {inv : ico.H → ico.H} (hc : ico.Closed inv) {e h : ico.H}
    (he : ico.El e) {n : ℕ} {θ : ℝ} (hh : cnToIco ico inv e (icoAxis n) θ = .ok h) :
    ico.El h ∧ rotOf (ico.toQ h) = (rotOf (ico.toQ e))ᵀ * rotOf (quat (icoAxis n 0 * sin (θ / 2)) (icoAxis n 1 * sin (θ / 2))
      (icoAxis n 2 * sin (θ / 2)) (cos (θ / 2))) * rotOf (ico.toQ e) := by
  obtain ⟨x, hx, hh⟩ := ExRel.bind_ok hh
  obtain rfl := Except.ok.inj hh
  obtain ⟨h1, h2⟩ := hc.ofQ_el _ _ (unit_axis (icoAxis_unit n) _) hx
  have hi := hc.inv_el e he
  exact ⟨hI.mul_el _ _ (hI.mul_el _ _ hi h1) he, by
    rw [hI.mul_rot _ _ (hI.mul_el _ _ hi h1) he, hI.mul_rot _ _ hi h1, hc.inv_rot e he, h2]⟩

/-- What the combined id denotes for the cyclic subgroups of order 2, 3 and 5. -/
theorem combined_ico (haq : AsQuat aq) {qOf : Mat3 → UQuat} (hq : QuatOf qOf) {ico : RotGroup} (octa : RotGroup)
    (hI : ico.Lawful) {adj : UQuat} (hadj : normSq adj = 1) {e : ico.H} (he : ico.El e) {n : ℕ}
    (hn : n = 1 ∨ n = 2 ∨ n = 3 ∨ n = 5) :
    ∃ P C, combined aq qOf ico octa (.str "ico") adj (.ico false n e) =
        .ok ⟨ℤ, fun k => Cyclic.isElement n k = true, Cyclic.combine n, P, C⟩ ∧
      (n = 1 ∨ n = 2 → ∀ k, Cyclic.isElement n k = true → ∃ g, P k = .ok g ∧ rotOf g = (rotOf adj)ᵀ *
        ((rotOf (ico.toQ e))ᵀ * rotZ (k * (2 * π / n)) * rotOf (ico.toQ e)) * rotOf adj) ∧
      (n = 3 ∨ n = 5 → ∃ R : Mat3, Rᵀ * R = 1 ∧ R.det = 1 ∧ (∀ θ, R * rotZ θ * Rᵀ =
          rotOf (quat (icoAxis n 0 * sin (θ / 2)) (icoAxis n 1 * sin (θ / 2)) (icoAxis n 2 * sin (θ / 2)) (cos (θ / 2)))) ∧
        ∀ k, Cyclic.isElement n k = true → ∃ g, P k = .ok g ∧ rotOf g = (rotOf adj)ᵀ * (rotOf (ico.toQ e))ᵀ *
          rotOf adj * (R * ((rotOf adj)ᵀ * rotZ (k * (2 * π / n)) * rotOf adj) * Rᵀ) * ((rotOf adj)ᵀ *
          rotOf (ico.toQ e) * rotOf adj)) := by
  have e0 : subgroup aq ico octa (.str "ico") adj =
    .ok ⟨ico.H, ico.El, ico.mul, rotgroupToSo3 aq ico adj, so3ToRotgroup aq ico adj⟩ := rfl
  obtain ⟨P₁, C₁, e₁, hr, -⟩ := C75_plato haq ico octa hadj "ico" ico (.inl ⟨rfl, rfl⟩) hI
  obtain ⟨a, ha, hau, har⟩ : ∃ a, rotgroupToSo3 aq ico adj e = .ok a ∧ normSq a = 1 ∧
      rotOf a = (rotOf adj)ᵀ * rotOf (ico.toQ e) * rotOf adj := by
    have hP : rotgroupToSo3 aq ico adj = P₁ := by
      have := Except.ok.inj (e0.symm.trans e₁)
      simp only [SubData.mk.injEq, heq_eq_eq, true_and] at this
      exact this.1
    rw [hP]
    exact hr.parent_ok e he
  have fin : ∀ b, normSq b = 1 → combineSubgroups aq qOf ico octa (.str "ico") adj (.ico false n e) =
      .ok (.pair false n, b) → ∃ P C, combined aq qOf ico octa (.str "ico") adj (.ico false n e) =
        .ok ⟨ℤ, fun k => Cyclic.isElement n k = true, Cyclic.combine n, P, C⟩ ∧
      ∀ k, Cyclic.isElement n k = true → ∃ g, P k = .ok g ∧ rotOf g = (rotOf b)ᵀ * rotZ (k * (2 * π / n)) * rotOf b := by
    intro b hb h
    obtain ⟨P, C, h1, h2, -⟩ := C75_cyclic haq ico octa hb n (by omega)
    refine ⟨P, C, by rw [combined, after_ok h]; exact h1, fun k hk => ?_⟩
    obtain ⟨g, h3, -, h4⟩ := h2.parent_ok k hk
    exact ⟨g, h3, h4⟩
  have step : combineSubgroups aq qOf ico octa (.str "ico") adj (.ico false n e) =
      (if (n : ℤ) = 3 then (poleToPoint fun _ => 1 / √3).bind fun rot => .ok (combine aq (inverse aq (qOf rot)) a)
        else if (n : ℤ) = 5 then
          (poleToPoint fun i => ![(1 + √5) / 2, 0, 1] i / norm3 ![(1 + √5) / 2, 0, 1]).bind fun rot =>
            .ok (combine aq (inverse aq (qOf rot)) a)
        else if (n : ℤ) = 1 ∨ (n : ℤ) = 2 then .ok a
        else .error .assertion : Except Err UQuat).bind fun a => .ok (Id.pair false n, combine aq adj a) := by
    unfold combineSubgroups
    simp only [show processId aq (.str "ico") adj = (.str "ico", adj) from rfl, e0, after, ha]
    rw [if_neg (by decide), if_pos trivial]
    split_ifs
    · cases (poleToPoint fun _ => 1 / √3) <;> rfl
    · cases (poleToPoint fun i => ![(1 + √5) / 2, 0, 1] i / norm3 ![(1 + √5) / 2, 0, 1]) <;> rfl
    · rfl
    · rfl
  by_cases h12 : n = 1 ∨ n = 2
  · have h3 : combineSubgroups aq qOf ico octa (.str "ico") adj (.ico false n e) = .ok (.pair false n, combine aq adj a) := by
      rw [step, if_neg (by omega), if_neg (by omega), if_pos (by omega)]; rfl
    obtain ⟨P, C, h4, h5⟩ := fin _ (combine_unit haq hadj hau) h3
    refine ⟨P, C, h4, fun _ k hk => ?_, fun h => by omega⟩
    obtain ⟨g, h6, h7⟩ := h5 k hk
    refine ⟨g, h6, h7.trans ?_⟩
    have hcr : rotOf (combine aq adj a) = rotOf (ico.toQ e) * rotOf adj := by
      rw [combine_spec haq, har, ← mul_assoc, ← mul_assoc, rotOf_orth hadj, one_mul]
    rw [hcr, conj_conj]
  · have h35 : n = 3 ∨ n = 5 := by omega
    obtain ⟨R, hR, hR1, hR2, hR3⟩ := icoAxis_pole n
    obtain ⟨hqu, hqr⟩ := hq R hR1 hR2
    have hb := combine_unit haq (inverse_unit haq hqu) hau
    have h3 : combineSubgroups aq qOf ico octa (.str "ico") adj (.ico false n e) =
        .ok (.pair false n, combine aq adj (combine aq (inverse aq (qOf R)) a)) := by
      rw [step]
      rcases h35 with h | h
      · subst h
        rw [if_pos (by norm_num), show (fun _ => 1 / √3 : Fin 3 → ℝ) = icoAxis 3 from rfl, hR]; rfl
      · subst h
        rw [if_neg (by norm_num), if_pos (by norm_num), show (fun i => ![(1 + √5) / 2, 0, 1] i / norm3 ![(1 + √5) / 2, 0, 1] :
          Fin 3 → ℝ) = icoAxis 5 from rfl, hR]; rfl
    obtain ⟨P, C, h4, h5⟩ := fin _ (combine_unit haq hadj hb) h3
    refine ⟨P, C, h4, fun h => by omega, fun _ => ⟨R, hR1, hR2, hR3, fun k hk => ?_⟩⟩
    obtain ⟨g, h6, h7⟩ := h5 k hk
    refine ⟨g, h6, h7.trans ?_⟩
    rw [combine_spec haq, combine_spec haq, inverse_spec haq, hqr, har]
    simp only [Matrix.transpose_mul, Matrix.transpose_transpose, mul_assoc]

/-- **C77** SO(3): the cyclic subgroups of order 1 and 2 of the Icosahedral group, and those of order 3 and 5 when the
adjoint element of the Icosahedral group is the identity. -/
theorem C77_ico_cyclic_partial (haq : AsQuat aq) {qOf : Mat3 → UQuat} (hq : QuatOf qOf) {ico : RotGroup} (octa : RotGroup)
    (hI : ico.Lawful) {inv : ico.H → ico.H} (hc : ico.Closed inv) {adj : UQuat} (hadj : normSq adj = 1) {e : ico.H}
    (he : ico.El e) {n : ℕ} (hn : n = 1 ∨ n = 2 ∨ rotOf adj = 1 ∧ (n = 3 ∨ n = 5)) :
    ∃ P₁ C₁ P C, subgroupOf aq ico octa (.str "ico") adj = .ok ⟨ico.H, ico.El, ico.mul, P₁, C₁⟩ ∧
      combined aq qOf ico octa (.str "ico") adj (.ico false n e) =
        .ok ⟨ℤ, fun k => Cyclic.isElement n k = true, Cyclic.combine n, P, C⟩ ∧
      ∀ k, Cyclic.isElement n k = true → ∀ h, cnToIco ico inv e (icoAxis n) (Cyclic.radians n k) = .ok h →
        ∃ g g', P k = .ok g ∧ P₁ h = .ok g' ∧ rotOf g = rotOf g' := by
  obtain ⟨P₁, C₁, e₁, hr, -⟩ := C75_plato haq ico octa hadj "ico" ico (.inl ⟨rfl, rfl⟩) hI
  obtain ⟨P, C, h1, h2, h3⟩ := combined_ico haq hq octa hI hadj he (n := n) (by omega)
  refine ⟨P₁, C₁, P, C, e₁, h1, fun k hk h hh => ?_⟩
  obtain ⟨h4, h5⟩ := cnToIco_spec hI hc he hh
  obtain ⟨g', h6, -, h7⟩ := hr.parent_ok h h4
  have hrad : Cyclic.radians n k = k * (2 * π / n) := by rw [Cyclic.radians]; ring
  rw [hrad] at h5
  by_cases h12 : n = 1 ∨ n = 2
  · obtain ⟨g, h8, h9⟩ := h2 h12 k hk
    refine ⟨g, g', h8, h6, ?_⟩
    rw [h9, h7, h5]
    congr 3
    rw [← rotOf_z]
    have hax : icoAxis n = ![0, 0, 1] := by
      rw [icoAxis, if_neg (by omega), if_neg (by omega)]
    rw [hax]
    simp [quat]
  · obtain ⟨hA, h35⟩ : rotOf adj = 1 ∧ (n = 3 ∨ n = 5) := by tauto
    obtain ⟨R, -, -, hR, h8⟩ := h3 h35
    obtain ⟨g, h9, h10⟩ := h8 k hk
    refine ⟨g, g', h9, h6, ?_⟩
    rw [h10, h7, h5, hA]
    simp only [Matrix.transpose_one, one_mul, mul_one]
    rw [hR]

/-- **C77 is violated** by the subgroups of order 3 of a rotated Icosahedral group: when `adj` is the half turn around X, the
combined id denotes rotations around another axis (`adjoint2` is `inclusion(...)` composed with a rotation which was not
conjugated, so3group.py L492).  The rotation by a third of a turn around `(1, 1, 1)` of the Icosahedral group is included as
the rotation around `(1, -1, -1)`, but the subgroup of the combined id consists of rotations around `(1, 1, 1)`. -/
theorem C77_ico_violated (haq : AsQuat aq) {qOf : Mat3 → UQuat} (hq : QuatOf qOf) {ico : RotGroup} (octa : RotGroup)
    (hI : ico.Lawful) {inv : ico.H → ico.H} (hc : ico.Closed inv) {e : ico.H}
    (he : ico.El e) (he1 : rotOf (ico.toQ e) = 1) {h : ico.H}
    (hh : cnToIco ico inv e (icoAxis 3) (Cyclic.radians 3 1) = .ok h) :
    ∃ P₁ C₁ P C, subgroupOf aq ico octa (.str "ico") (quat 1 0 0 0) = .ok ⟨ico.H, ico.El, ico.mul, P₁, C₁⟩ ∧
      combined aq qOf ico octa (.str "ico") (quat 1 0 0 0) (.ico false 3 e) =
        .ok ⟨ℤ, fun k => Cyclic.isElement 3 k = true, Cyclic.combine 3, P, C⟩ ∧
      ∃ g', P₁ h = .ok g' ∧ ∀ k g, Cyclic.isElement 3 k = true → P k = .ok g → rotOf g ≠ rotOf g' := by
  have hadj : normSq (quat 1 0 0 0) = 1 := by rw [normSq_quat]; norm_num
  have hX : rotOf (quat 1 0 0 0) = flipX := by
    ext i j; fin_cases i <;> fin_cases j <;> simp [rotOf, quat, flipX]
  obtain ⟨P₁, C₁, e₁, hr, -⟩ := C75_plato haq ico octa hadj "ico" ico (.inl ⟨rfl, rfl⟩) hI
  obtain ⟨P, C, h1, -, h3⟩ := combined_ico haq hq octa hI hadj he (n := 3) (by omega)
  refine ⟨P₁, C₁, P, C, e₁, h1, ?_⟩
  obtain ⟨h4, h5⟩ := cnToIco_spec hI hc he hh
  obtain ⟨g', h6, -, h7⟩ := hr.parent_ok h h4
  refine ⟨g', h6, fun k g hk hg => ?_⟩
  obtain ⟨R, hR0, -, hR, h8⟩ := h3 (.inl rfl)
  obtain ⟨g2, h9, h10⟩ := h8 k hk
  obtain rfl := Except.ok.inj (hg.symm.trans h9)
  have hXt : flipXᵀ = flipX := by ext i j; fin_cases i <;> fin_cases j <;> simp [flipX]
  have hfz : flipX * rotZ (k * (2 * π / (3 : ℕ))) * flipX = rotZ (-(k * (2 * π / (3 : ℕ)))) := by
    rw [flipX_rotZ, mul_assoc, flipX_flipX, mul_one]
  rw [hX, hXt] at h10 h7
  rw [he1] at h10
  simp only [Matrix.transpose_one, mul_one, flipX_flipX, one_mul, hfz] at h10
  rw [h5, he1] at h7
  simp only [Matrix.transpose_one, mul_one, one_mul] at h7
  have hq3 : rotOf (quat (icoAxis 3 0 * sin (Cyclic.radians 3 1 / 2)) (icoAxis 3 1 * sin (Cyclic.radians 3 1 / 2))
      (icoAxis 3 2 * sin (Cyclic.radians 3 1 / 2)) (cos (Cyclic.radians 3 1 / 2))) = !![0, 0, 1; 1, 0, 0; 0, 1, 0] := by
    have a1 : Cyclic.radians 3 1 / 2 = π / 3 := by rw [Cyclic.radians]; push_cast; ring
    have a2 : ∀ i, icoAxis 3 i * sin (π / 3) = 1 / 2 := by
      intro i
      rw [sin_pi_div_three]
      change 1 / √3 * (√3 / 2) = 1 / 2
      have : (√3 : ℝ) ≠ 0 := by positivity
      field_simp
    rw [a1, a2, a2, a2, cos_pi_div_three]
    ext i j; fin_cases i <;> fin_cases j <;> simp [rotOf, quat] <;> norm_num
  rw [hq3] at h7
  intro heq
  rw [h10, h7] at heq
  rw [hR] at heq
  have hu := unit_axis (icoAxis_unit 3) (-(k * (2 * π / (3 : ℕ))) / 2)
  rw [normSq_quat] at hu
  have r : ∀ j, rotOf (quat (icoAxis 3 0 * sin (-(k * (2 * π / (3 : ℕ))) / 2)) (icoAxis 3 1 * sin (-(k * (2 * π / (3 : ℕ))) / 2))
      (icoAxis 3 2 * sin (-(k * (2 * π / (3 : ℕ))) / 2)) (cos (-(k * (2 * π / (3 : ℕ))) / 2))) 0 j =
      (flipX * (!![0, 0, 1; 1, 0, 0; 0, 1, 0] : Mat3) * flipX : Mat3) 0 j := fun j => by rw [heq]
  have r0 := r 0
  have r1 := r 1
  have r2 := r 2
  have a1 : icoAxis 3 1 = icoAxis 3 0 := rfl
  have a2 : icoAxis 3 2 = icoAxis 3 0 := rfl
  rw [a1, a2] at r0 r1 r2 hu
  simp [rotOf, quat, flipX, Matrix.mul_apply, Fin.sum_univ_three] at r0 r1 r2
  nlinarith

/-- **C77** SO(3): subgroups of the Octahedral group are not implemented. -/
theorem C77_octa_violated (qOf : Mat3 → UQuat) (ico octa : RotGroup) (adj : UQuat) (id₂ : SubId ico) :
    combined aq qOf ico octa (.str "octa") adj id₂ = .error .notImplemented := by
  cases id₂ <;> rfl

end SO3

/-! ### The hypotheses can be met -/

/-- Every rotation has a quaternion. -/
example : ∃ qOf, QuatOf qOf := by
  classical
  refine ⟨fun M => if h : Mᵀ * M = 1 ∧ M.det = 1 then Classical.choose (rotOf_surj h.1 h.2) else 1, fun M h1 h2 => ?_⟩
  have e : (if h : Mᵀ * M = 1 ∧ M.det = 1 then Classical.choose (rotOf_surj h.1 h.2) else 1) =
      Classical.choose (rotOf_surj h1 h2) := dif_pos ⟨h1, h2⟩
  simp only [e]
  exact Classical.choose_spec (rotOf_surj h1 h2)

open Classical in
/-- The group of all rotations satisfies the contract of the groups of the solids, and contains the rotations by a third of a
turn. -/
example : ∃ (R : RotGroup) (inv : R.H → R.H) (e : R.H), R.Lawful ∧ R.Closed inv ∧ R.El e ∧ rotOf (R.toQ e) = 1 ∧
    ∃ h, SO3.cnToIco R inv e (SO3.icoAxis 3) (Cyclic.radians 3 1) = .ok h := by
  refine ⟨⟨UQuat, fun q => normSq q = 1, fun a b => a * b, fun q => q, fun q => if normSq q = 1 then .ok q else .error .value⟩,
    star, 1, ⟨fun _ h => h, fun a b ha hb => ?_, fun a b _ _ => rotOf_mul a b, fun q h hq _ he => ?_, fun q hq h => ?_⟩,
    ⟨fun h hh => ?_, fun h _ => rotOf_star h, fun q h hq he => ?_⟩, ?_, rotOf_one, ?_⟩
  · simp only [map_mul]; rw [ha, hb, one_mul]
  · exact ⟨q, if_pos hq, he⟩
  · exact absurd ⟨q, hq, rfl⟩ h
  · simpa using hh
  · simp only [hq, if_true] at he
    obtain rfl := Except.ok.inj he
    exact ⟨hq, rfl⟩
  · simp
  · unfold SO3.cnToIco
    simp only
    rw [if_pos (SO3.unit_axis (SO3.icoAxis_unit 3) _)]
    exact ⟨_, rfl⟩

end Escnn
