import Verif.Lemmas.Planar

/-!
# C75 — SO(3) and its subgroups
-/

namespace Escnn

open Real Matrix Quaternion

namespace SO3

variable {aq : UQuat → UQuat}

/-- **C75** the elements of SO(3) compose and invert as their rotation matrices, which are orthogonal with determinant 1,
and `==` holds exactly for equal rotations. -/
theorem C75_group (haq : AsQuat aq) :
    (∀ e, element e = .ok e ↔ normSq e = 1) ∧
    (∀ e, normSq e = 1 → rotOf e * (rotOf e)ᵀ = 1 ∧ (rotOf e).det = 1) ∧
    (∀ e e', normSq e = 1 → normSq e' = 1 → element (combine aq e e') = .ok (combine aq e e') ∧
      rotOf (combine aq e e') = rotOf e * rotOf e') ∧
    (∀ e, normSq e = 1 → element (inverse aq e) = .ok (inverse aq e) ∧ rotOf (inverse aq e) = (rotOf e)ᵀ) ∧
    element identity = .ok identity ∧ rotOf identity = 1 ∧
    (∀ e e', normSq e = 1 → normSq e' = 1 → (Equal e e' ↔ rotOf e = rotOf e')) := by
  refine ⟨fun e => ?_, fun e he => ⟨rotOf_orth he, rotOf_det he⟩, fun e e' he he' => ?_, fun e he => ?_, ?_, ?_, ?_⟩
  · unfold element
    split <;> simp [*]
  · exact ⟨element_ok (combine_unit haq he he'), combine_spec haq e e'⟩
  · exact ⟨element_ok (inverse_unit haq he), inverse_spec haq e⟩
  · exact element_ok (by rw [identity, normSq_quat]; norm_num)
  · exact rotOf_one
  · exact fun e e' he he' => (rotOf_eq_iff he he').symm

/-- The adjoint of rotations around Z. -/
theorem so2_of {H : Type} (haq : AsQuat aq) {adj : UQuat} (hadj : normSq adj = 1) {El : H → Prop} {mul : H → H → H}
    {θ : H → ℝ} {mk : ℝ → Except Err H} (hC : Circle El mul θ mk) :
    RealisesAs (fun e => normSq e = 1) rotOf El Eq mul (rotOf adj) (fun h => rotZ (θ h)) (fun h => so2ToSo3 aq adj (θ h))
      (so3ToSo2 aq mk adj) ∧
    TightChild (fun e => normSq e = 1) rotOf El (rotOf adj) (fun h => rotZ (θ h)) (so3ToSo2 aq mk adj) := by
  constructor
  · refine RealisesAs.of (rotOf_orth hadj) (rotOf_orth' hadj) (intoParent_spec haq hadj) (intoChild_spec haq hadj) hC.el ?_ ?_
      ?_ (core := fun e => if e.imI = 0 ∧ e.imJ = 0 then orNone (mk (2 * arctan2 e.imK e.re)) else .ok none) ?_
    · intro h _
      refine ⟨quat 0 0 (sin (θ h / 2)) (cos (θ h / 2)), ?_, unit_z _, rotOf_z _⟩
      simp only [so2ToSo3, element_ok (unit_z _), Except.bind, bind]
    · intro h h' hh hh'
      obtain ⟨k, hk⟩ := hC.mul h h' hh hh'
      rw [hk, rotZ_periodic, rotZ_add]
    · intro h h' hh hh' he
      obtain ⟨k, hk⟩ := rotZ_inj.1 he
      exact hC.inj h h' k hh hh' hk
    · intro e h he hh hr
      obtain ⟨hz, hm⟩ := circle_core hC he hh hr
      exact ⟨h, by rw [if_pos hz, hm]; rfl, rfl⟩
  · refine TightChild.of (rotOf_orth' hadj) (intoChild_spec haq hadj)
      (core := fun e => if e.imI = 0 ∧ e.imJ = 0 then orNone (mk (2 * arctan2 e.imK e.re)) else .ok none) ?_
    intro e he
    by_cases hz : e.imI = 0 ∧ e.imJ = 0
    · rcases circle_core_tol hC he hz with h | ⟨h, t, h1, h2⟩
      · exact .inl (by rw [if_pos hz, h]; rfl)
      · exact .inr ⟨h, t, by rw [if_pos hz, h1]; rfl, h2⟩
    · exact .inl (if_neg hz)

/-- The adjoint of rotations around Z and flips. -/
theorem o2_of {H : Type} (haq : AsQuat aq) {adj : UQuat} (hadj : normSq adj = 1) {El : H → Prop} {mul : H → H → H}
    {r : H → ℤ × ℝ} {mk : ℤ × ℝ → Except Err H} (hP : Plane El mul r mk) :
    RealisesAs (fun e => normSq e = 1) rotOf El Eq mul (rotOf adj)
      (fun h => rotZ (r h).2 * flipX ^ (r h).1.toNat) (fun h => o2ToSo3 aq adj (r h)) (so3ToO2 aq mk adj) ∧
    TightChild (fun e => normSq e = 1) rotOf El (rotOf adj)
      (fun h => rotZ (r h).2 * flipX ^ (r h).1.toNat) (so3ToO2 aq mk adj) := by
  constructor
  · refine RealisesAs.of (rotOf_orth hadj) (rotOf_orth' hadj) (intoParent_spec haq hadj) (intoChild_spec haq hadj) hP.el ?_
      (fun h h' hh hh' => hP.rot_mul flipX_flipX flipX_rotZ hh hh') (fun h h' hh hh' he => plane_inj hP hh hh' he)
      (core := fun e => if e.imI = 0 ∧ e.imJ = 0 then orNone (mk (0, 2 * arctan2 e.imK e.re))
        else if e.imK = 0 ∧ e.re = 0 then orNone (mk (1, 2 * arctan2 e.imJ e.imI)) else .ok none) ?_
    · intro h hh
      rcases hP.flip h hh with h0 | h1
      · refine ⟨quat 0 0 (sin ((r h).2 / 2)) (cos ((r h).2 / 2)), ?_, unit_z _, ?_⟩
        · simp only [o2ToSo3, h0, if_true, element_ok (unit_z _), Except.bind, bind]
        · rw [h0]; exact (rotOf_z (r h).2).trans (by simp)
      · refine ⟨quat (cos ((r h).2 / 2)) (sin ((r h).2 / 2)) 0 0, ?_, unit_xy _, ?_⟩
        · simp only [o2ToSo3, h1, one_ne_zero, if_false, if_true, element_ok (unit_xy _), Except.bind, bind]
        · rw [h1]; exact (rotOf_flip (r h).2).trans (by simp)
    · intro e h he hh hr
      refine ⟨h, ?_, rfl⟩
      rcases plane_core hP he hh hr with ⟨hz, hm⟩ | ⟨hz, hz', hm⟩
      · rw [if_pos hz, hm]; rfl
      · rw [if_neg hz, if_pos hz', hm]; rfl
  · refine TightChild.of (rotOf_orth' hadj) (intoChild_spec haq hadj)
      (core := fun e => if e.imI = 0 ∧ e.imJ = 0 then orNone (mk (0, 2 * arctan2 e.imK e.re))
        else if e.imK = 0 ∧ e.re = 0 then orNone (mk (1, 2 * arctan2 e.imJ e.imI)) else .ok none) ?_
    intro e he
    by_cases hz : e.imI = 0 ∧ e.imJ = 0
    · rcases (plane_core_tol hP he).1 hz with h | ⟨h, t, h1, h2⟩
      · exact .inl (by rw [if_pos hz, h]; rfl)
      · exact .inr ⟨h, t, by rw [if_pos hz, h1]; rfl, h2⟩
    by_cases hz' : e.imK = 0 ∧ e.re = 0
    · rcases (plane_core_tol hP he).2 hz' with h | ⟨h, t, h1, h2⟩
      · exact .inl (by rw [if_neg hz, if_pos hz', h]; rfl)
      · exact .inr ⟨h, t, by rw [if_neg hz, if_pos hz', h1]; rfl, h2⟩
    · exact .inl (by rw [if_neg hz, if_neg hz'])

/-- **C75** the cyclic subgroups: `(False, n, adj)` is the group of the rotations by multiples of `2π/n` around the axis
`adj⁻¹ e_z`. -/
theorem C75_cyclic (haq : AsQuat aq) (ico octa : RotGroup) {adj : UQuat} (hadj : normSq adj = 1) (n : ℕ) (hn : 0 < n) :
    ∃ P C, subgroup aq ico octa (.pair false n) adj =
        .ok ⟨ℤ, fun e => Cyclic.isElement n e = true, Cyclic.combine n, P, C⟩ ∧
      RealisesAs (fun e => normSq e = 1) rotOf (fun e => Cyclic.isElement n e = true) Eq (Cyclic.combine n) (rotOf adj)
        (fun k => rotZ (k * (2 * π / n))) P C ∧
      TightChild (fun e => normSq e = 1) rotOf (fun e => Cyclic.isElement n e = true) (rotOf adj)
        (fun k => rotZ (k * (2 * π / n))) C := by
  refine ⟨_, _, by
    rw [subgroup, if_neg (by simp), if_neg (by simp), if_pos (by simp; omega)]; rfl, ?_⟩
  have hr : (fun k : ℤ => rotZ (k * (2 * π / n))) = fun k => rotZ (Cyclic.radians n k) := by
    funext k; rw [Cyclic.radians]; congr 1; ring
  rw [hr]
  exact so2_of haq hadj (circle_cyclic hn)

/-- **C75** `(False, -1, adj)` is the group of all rotations around the axis `adj⁻¹ e_z`, and the restriction is `None`
exactly outside of it. -/
theorem C75_so2 (haq : AsQuat aq) (ico octa : RotGroup) {adj : UQuat} (hadj : normSq adj = 1) :
    ∃ P C, subgroup aq ico octa (.pair false (-1)) adj = .ok ⟨ℝ, SO2.IsElement, SO2.combine, P, C⟩ ∧
      RealisesAs (fun e => normSq e = 1) rotOf SO2.IsElement Eq SO2.combine (rotOf adj) rotZ P C ∧
      ExactChild (fun e => normSq e = 1) rotOf SO2.IsElement (rotOf adj) rotZ C := by
  refine ⟨_, _, by rw [subgroup, if_pos (by simp)], ?_, ?_⟩
  · have hr : rotZ = fun k => rotZ (mod2pi k) := funext fun k => (rotZ_mod2pi k).symm
    rw [hr]
    exact (so2_of haq hadj circle_so2).1
  · refine ExactChild.of (rotOf_orth' hadj) (intoChild_spec haq hadj)
      (core := fun e => if e.imI = 0 ∧ e.imJ = 0 then orNone (SO2.elementOf .radians (.rad (2 * arctan2 e.imK e.re)))
        else .ok none) ?_
    intro e he hn
    refine if_neg fun hz => hn ⟨mod2pi (2 * arctan2 e.imK e.re), ⟨mod2pi_nonneg _, mod2pi_lt _⟩, ?_⟩
    rw [z_spec he hz, rotZ_mod2pi]

/-- **C75** the dihedral subgroups: `(True, n, adj)` is the group of the rotations by multiples of `2π/n` around
`adj⁻¹ e_z` and of the flips. -/
theorem C75_dihedral (haq : AsQuat aq) (ico octa : RotGroup) {adj : UQuat} (hadj : normSq adj = 1) (n : ℕ) (hn : 1 < n) :
    ∃ P C, subgroup aq ico octa (.pair true n) adj =
        .ok ⟨Dihedral.Elem, fun e => Dihedral.isElement n e = true, Dihedral.combine n, P, C⟩ ∧
      RealisesAs (fun e => normSq e = 1) rotOf (fun e => Dihedral.isElement n e = true) Eq (Dihedral.combine n) (rotOf adj)
        (fun e => rotZ (e.2 * (2 * π / n)) * flipX ^ e.1.toNat) P C ∧
      TightChild (fun e => normSq e = 1) rotOf (fun e => Dihedral.isElement n e = true) (rotOf adj)
        (fun e => rotZ (e.2 * (2 * π / n)) * flipX ^ e.1.toNat) C := by
  refine ⟨_, _, by
    rw [subgroup, if_neg (by simp), if_neg (by simp), if_neg (by simp), if_pos (by simp; omega)]; rfl, ?_⟩
  have hr : (fun e : Dihedral.Elem => rotZ (e.2 * (2 * π / n)) * flipX ^ e.1.toNat) =
      fun e => rotZ ((e.1, Dihedral.radians n e) : ℤ × ℝ).2 * flipX ^ ((e.1, Dihedral.radians n e) : ℤ × ℝ).1.toNat := by
    funext e; simp only [Dihedral.radians]; congr 2; ring
  rw [hr]
  exact o2_of haq hadj (plane_dihedral (by omega))

/-- **C75** `(True, -1, adj)` is the group of all rotations around the axis `adj⁻¹ e_z` and all flips, and the restriction
is `None` exactly outside of it. -/
theorem C75_o2 (haq : AsQuat aq) (ico octa : RotGroup) {adj : UQuat} (hadj : normSq adj = 1) :
    ∃ P C, subgroup aq ico octa (.pair true (-1)) adj = .ok ⟨O2.Elem, O2.IsElement, O2.combine, P, C⟩ ∧
      RealisesAs (fun e => normSq e = 1) rotOf O2.IsElement Eq O2.combine (rotOf adj)
        (fun e => rotZ e.2 * flipX ^ e.1.toNat) P C ∧
      ExactChild (fun e => normSq e = 1) rotOf O2.IsElement (rotOf adj) (fun e => rotZ e.2 * flipX ^ e.1.toNat) C := by
  refine ⟨_, _, by rw [subgroup, if_neg (by simp), if_pos (by simp)], ?_, ?_⟩
  · have hr : (fun e : O2.Elem => rotZ e.2 * flipX ^ e.1.toNat) =
        fun e => rotZ (O2.reduce e).2 * flipX ^ (O2.reduce e).1.toNat := by
      funext e
      rw [← rotZ_mod2pi]; rfl
    rw [hr]
    exact (o2_of haq hadj plane_o2).1
  · refine ExactChild.of (rotOf_orth' hadj) (intoChild_spec haq hadj)
      (core := fun e => if e.imI = 0 ∧ e.imJ = 0 then orNone (O2.elementOf .radians (0, .rad (2 * arctan2 e.imK e.re)))
        else if e.imK = 0 ∧ e.re = 0 then orNone (O2.elementOf .radians (1, .rad (2 * arctan2 e.imJ e.imI)))
        else .ok none) ?_
    intro e he hn
    refine (if_neg fun hz => hn ⟨(0, mod2pi (2 * arctan2 e.imK e.re)), ⟨.inl rfl, mod2pi_nonneg _, mod2pi_lt _⟩, ?_⟩).trans
      (if_neg fun hz => hn ⟨(1, mod2pi (2 * arctan2 e.imJ e.imI)), ⟨.inr rfl, mod2pi_nonneg _, mod2pi_lt _⟩, ?_⟩)
    · rw [z_spec he hz, rotZ_mod2pi]; simp
    · rw [xy_spec he hz, rotZ_mod2pi]; simp

/-- **C75** `('so3', adj)` is SO(3) itself, conjugated. -/
theorem C75_self (haq : AsQuat aq) (ico octa : RotGroup) {adj : UQuat} (hadj : normSq adj = 1) :
    ∃ P C, subgroup aq ico octa (.str "so3") adj = .ok ⟨UQuat, fun q => normSq q = 1, combine aq, P, C⟩ ∧
      RealisesAs (fun e => normSq e = 1) rotOf (fun e => normSq e = 1) (fun a b => rotOf a = rotOf b) (combine aq)
        (rotOf adj) rotOf P C := by
  refine ⟨_, _, by rw [subgroup, if_pos rfl], ?_⟩
  refine RealisesAs.of (rotOf_orth hadj) (rotOf_orth' hadj)
    (P := adjointMap aq (inverse aq adj)) ?_ (intoChild_spec haq hadj) ?_ ?_ ?_ ?_ (core := fun e => .ok (some e)) ?_
  · intro e he
    refine ⟨combine_unit haq (combine_unit haq (inverse_unit haq hadj) he) (inverse_unit haq (inverse_unit haq hadj)), ?_⟩
    rw [adjointMap, combine_spec haq, combine_spec haq, inverse_spec haq, inverse_spec haq, inverse_spec haq,
      Matrix.transpose_transpose]
  · exact fun h h' hh hh' => combine_unit haq hh hh'
  · exact fun h hh => ⟨h, rfl, hh, rfl⟩
  · exact fun h h' _ _ => combine_spec haq h h'
  · exact fun h h' _ _ he => he
  · exact fun e h _ _ he => ⟨e, rfl, he⟩

/-- The contract of the groups of a Platonic solid: values in `'Q'` are unit quaternions which multiply as rotations;
`element(q, 'Q')` succeeds exactly for the quaternions of elements, and raises `ValueError` otherwise. -/
structure _root_.Escnn.RotGroup.Lawful (R : RotGroup) : Prop where
  /-- elements are rotations -/
  unit : ∀ h, R.El h → normSq (R.toQ h) = 1
  /-- closed under composition -/
  mul_el : ∀ h h', R.El h → R.El h' → R.El (R.mul h h')
  /-- composition of rotations -/
  mul_rot : ∀ h h', R.El h → R.El h' → rotOf (R.toQ (R.mul h h')) = rotOf (R.toQ h) * rotOf (R.toQ h')
  /-- the constructor accepts both quaternions of an element -/
  ofQ_ok : ∀ q h, normSq q = 1 → R.El h → rotOf q = rotOf (R.toQ h) → ∃ h', R.ofQ q = .ok h' ∧
    rotOf (R.toQ h') = rotOf (R.toQ h)
  /-- the constructor rejects other rotations -/
  ofQ_err : ∀ q, normSq q = 1 → (¬ ∃ h, R.El h ∧ rotOf q = rotOf (R.toQ h)) → R.ofQ q = .error .value

/-- **C75** `('ico', adj)` and `('octa', adj)` are the conjugated groups of the solids. -/
theorem C75_plato (haq : AsQuat aq) (ico octa : RotGroup) {adj : UQuat} (hadj : normSq adj = 1) (s : String) (R : RotGroup)
    (hs : s = "ico" ∧ R = ico ∨ s = "octa" ∧ R = octa) (hR : R.Lawful) :
    ∃ P C, subgroup aq ico octa (.str s) adj = .ok ⟨R.H, R.El, R.mul, P, C⟩ ∧
      RealisesAs (fun e => normSq e = 1) rotOf R.El (fun a b => rotOf (R.toQ a) = rotOf (R.toQ b)) R.mul
        (rotOf adj) (fun h => rotOf (R.toQ h)) P C ∧
      ExactChild (fun e => normSq e = 1) rotOf R.El (rotOf adj) (fun h => rotOf (R.toQ h)) C := by
  refine ⟨rotgroupToSo3 aq R adj, so3ToRotgroup aq R adj, ?_, ?_, ?_⟩
  · rcases hs with ⟨rfl, rfl⟩ | ⟨rfl, rfl⟩ <;> simp [subgroup]
  · refine RealisesAs.of (rotOf_orth hadj) (rotOf_orth' hadj) (intoParent_spec haq hadj) (intoChild_spec haq hadj)
      hR.mul_el ?_ hR.mul_rot (fun _ _ _ _ h => h) (core := fun e => orNone (R.ofQ e)) ?_
    · intro h hh
      refine ⟨R.toQ h, ?_, hR.unit h hh, rfl⟩
      simp only [rotgroupToSo3, element_ok (hR.unit h hh), Except.bind, bind]
    · intro e h he hh hr
      obtain ⟨h', h1, h2⟩ := hR.ofQ_ok e h he hh hr
      exact ⟨h', by rw [h1]; rfl, h2⟩
  · refine ExactChild.of (rotOf_orth' hadj) (intoChild_spec haq hadj) (core := fun e => orNone (R.ofQ e)) ?_
    intro e he hn
    rw [hR.ofQ_err e he hn]
    rfl

/-- **C75** the id `(a, n, adj)` denotes `(True, n, adj')`, whose flips are around the axis at the angle `a/2`; `(True, 1, adj)`
denotes the group of the rotation by `π` around X, and `(a, 1, adj)` around the axis at the angle `a/2`; the other ids are not
changed. -/
theorem C75_ids (haq : AsQuat aq) {adj : UQuat} (hadj : normSq adj = 1) (a : ℝ) (n : ℤ) :
    (n ≠ 1 → ∃ adj', processId aq (.axis a n) adj = (.pair true n, adj') ∧ normSq adj' = 1 ∧
      (∀ t, (rotOf adj')ᵀ * rotZ t * rotOf adj' = (rotOf adj)ᵀ * rotZ t * rotOf adj) ∧
      ∀ t, (rotOf adj')ᵀ * (rotZ t * flipX) * rotOf adj' = (rotOf adj)ᵀ * (rotZ (t + a) * flipX) * rotOf adj) ∧
    (∃ adj', processId aq (.axis a 1) adj = (.pair false 2, adj') ∧ normSq adj' = 1 ∧
      (rotOf adj')ᵀ * rotZ π * rotOf adj' = (rotOf adj)ᵀ * (rotZ a * flipX) * rotOf adj) ∧
    (∃ adj', processId aq (.pair true 1) adj = (.pair false 2, adj') ∧ normSq adj' = 1 ∧
      (rotOf adj')ᵀ * rotZ π * rotOf adj' = (rotOf adj)ᵀ * flipX * rotOf adj) ∧
    (∀ id, (∀ a n, id ≠ .axis a n) → id ≠ .pair true 1 → processId aq id adj = (id, adj)) := by
  have hq1 := unit_z (a / 2 / 2)
  have hq2 : normSq (quat 0 (sin (-π / 4)) 0 (cos (-π / 4))) = 1 := by
    rw [normSq_quat]; nlinarith [sin_sq_add_cos_sq (-π / 4)]
  have hr2 : (rotOf (quat 0 (sin (-π / 4)) 0 (cos (-π / 4))))ᵀ * rotZ π * rotOf (quat 0 (sin (-π / 4)) 0 (cos (-π / 4))) =
      flipX := by
    have e1 : sin (-π / 4) = -(√2 / 2) := by rw [neg_div, sin_neg, sin_pi_div_four]
    have e2 : cos (-π / 4) = √2 / 2 := by rw [neg_div, cos_neg, cos_pi_div_four]
    have e3 : (√2 : ℝ) ^ 2 = 2 := by norm_num
    rw [e1, e2]
    ext i j
    fin_cases i <;> fin_cases j <;>
      simp [rotOf, quat, rotZ, flipX, Matrix.mul_apply, Fin.sum_univ_three] <;> nlinarith [e3]
  have hr1 : rotOf (inverse aq (quat 0 0 (sin (a / 2 / 2)) (cos (a / 2 / 2)))) = rotZ (-(a / 2)) := by
    rw [inverse_spec haq, ← rotZ_transpose]
    congr 1
    exact rotOf_z _
  have hu := combine_unit haq (inverse_unit haq hq1) hadj
  have key : ∀ M N : Mat3, rotZ (a / 2) * M * rotZ (-(a / 2)) = N →
      (rotOf (combine aq (inverse aq (quat 0 0 (sin (a / 2 / 2)) (cos (a / 2 / 2)))) adj))ᵀ * M *
        rotOf (combine aq (inverse aq (quat 0 0 (sin (a / 2 / 2)) (cos (a / 2 / 2)))) adj) =
      (rotOf adj)ᵀ * N * rotOf adj := by
    intro M N h
    rw [combine_spec haq, hr1, Matrix.transpose_mul, rotZ_transpose, neg_neg, ← h]
    simp only [mul_assoc]
  have kz : ∀ t, rotZ (a / 2) * rotZ t * rotZ (-(a / 2)) = rotZ t := by
    intro t; rw [← rotZ_add, ← rotZ_add]; congr 1; ring
  have kf : ∀ t, rotZ (a / 2) * (rotZ t * flipX) * rotZ (-(a / 2)) = rotZ (t + a) * flipX := by
    intro t
    rw [mul_assoc, mul_assoc, flipX_rotZ, neg_neg, ← mul_assoc, ← mul_assoc, ← rotZ_add, ← rotZ_add]
    congr 2; ring
  have kpi : ∀ {B : UQuat}, (rotOf (combine aq (quat 0 (sin (-π / 4)) 0 (cos (-π / 4))) B))ᵀ * rotZ π *
      rotOf (combine aq (quat 0 (sin (-π / 4)) 0 (cos (-π / 4))) B) = (rotOf B)ᵀ * flipX * rotOf B := by
    intro B
    rw [combine_spec haq, Matrix.transpose_mul, ← hr2]
    simp only [mul_assoc]
  refine ⟨fun hn => ⟨_, ?_, hu, fun t => key _ _ (kz t), fun t => key _ _ (kf t)⟩,
    ⟨_, rfl, combine_unit haq hq2 hu, ?_⟩, ⟨_, rfl, combine_unit haq hq2 hadj, kpi⟩, ?_⟩
  · unfold processId
    simp only
    split
    · rename_i heq
      simp at heq
      first | exact absurd heq hn | exact absurd heq.2 hn | omega
    · rfl
  · have h0 := key _ _ (kf 0)
    rw [rotZ_zero, one_mul, zero_add] at h0
    rw [kpi, h0]
  · intro id h1 h2
    unfold processId
    cases id with
    | str s => rfl
    | pair f m => simp only
    | axis b m => exact absurd rfl (h1 b m)

/-- **C75** all other ids are rejected. -/
theorem C75_rejects (ico octa : RotGroup) (adj : UQuat) :
    subgroup aq ico octa (.str "tetra") adj = .error .notImplemented ∧
    (∀ s, s ∉ ["so3", "ico", "octa", "tetra"] → subgroup aq ico octa (.str s) adj = .error .value) ∧
    (∀ f (n : ℤ), (n ≤ 0 ∧ n ≠ -1) → subgroup aq ico octa (.pair f n) adj = .error .value) := by
  refine ⟨rfl, ?_, ?_⟩
  · intro s hs
    simp at hs
    simp [subgroup, hs]
  · intro f n hn
    rw [subgroup, if_neg (by tauto), if_neg (by tauto), if_neg (by omega), if_neg (by omega)]

/-! ### The hypotheses can be met -/

/-- Returning the quaternion itself is a possible normalisation. -/
example : AsQuat (fun q => q) := fun _ => .inl rfl

/-- Scipy's `as_quat` may return the opposite quaternion. -/
example : AsQuat (fun q => if q.re < 0 then -q else q) := fun q => by
  by_cases h : q.re < 0 <;> simp [h]

/-- A non-trivial adjoint element: the rotation by a third of a turn which permutes the axes. -/
example : normSq (quat (1/2) (1/2) (1/2) (1/2)) = 1 := by rw [normSq_quat]; norm_num

/-- The group of the half turn around Z satisfies the contract of the groups of the solids. -/
example : ∃ R : RotGroup, R.Lawful ∧ ∃ h, R.El h ∧ rotOf (R.toQ h) ≠ 1 := by
  classical
  have hk : rotOf (quat 0 0 1 0) = !![-1, 0, 0; 0, -1, 0; 0, 0, 1] := by
    ext i j; fin_cases i <;> fin_cases j <;> simp [rotOf, quat]
  have hne : rotOf (quat 0 0 1 0) ≠ 1 := by
    intro h
    rw [hk] at h
    have := congrFun (congrFun h 0) 0
    simp at this
    norm_num at this
  have hkk : rotOf (quat 0 0 1 0) * rotOf (quat 0 0 1 0) = 1 := by
    rw [hk]; ext i j; fin_cases i <;> fin_cases j <;> simp [Matrix.mul_apply, Fin.sum_univ_three]
  obtain ⟨f, hf⟩ : ∃ f : Bool → UQuat, ∀ b, f b = if b then quat 0 0 1 0 else 1 := ⟨_, fun _ => rfl⟩
  have f0 : f false = 1 := by rw [hf]; rfl
  have f1 : f true = quat 0 0 1 0 := by rw [hf]; rfl
  refine ⟨⟨Bool, fun _ => True, xor, f, fun q => if rotOf q = rotOf (f false) then .ok false else
    if rotOf q = rotOf (f true) then .ok true else .error .value⟩, ⟨?_, fun _ _ _ _ => trivial, ?_, ?_, ?_⟩, true,
    trivial, fun h => hne ((congrArg rotOf f1).symm.trans h)⟩
  · rintro (_ | _) _
    · simp [f0]
    · simp only [f1]; rw [normSq_quat]; norm_num
  · rintro (_ | _) (_ | _) _ _ <;> simp [f0, f1, rotOf_one, hkk]
  · rintro q (_ | _) _ _ hr
    · exact ⟨false, if_pos hr, rfl⟩
    · exact ⟨true, (if_neg (fun h => hne (by rw [← f1, ← rotOf_one, ← f0, ← h, hr]))).trans (if_pos hr), rfl⟩
  · intro q _ hn
    exact (if_neg fun h => hn ⟨false, trivial, h⟩).trans (if_neg fun h => hn ⟨true, trivial, h⟩)

end SO3

end Escnn
