import Verif.Model.IcoRestrict
import Verif.Props.C90_IcoSubgroups
import Verif.Props.C79_Irreps3

/-!
# C90: the restriction of the irreps of the icosahedral group
-/

namespace Escnn

open Real Quaternion NpMat
open scoped Matrix

namespace Ico

variable {aq : UQuat → UQuat} {W : ℕ → UQuat → NpMat ℝ} {ord : List Elem → List Elem}

theorem id_asQuat : AsQuat id := fun _ => .inl rfl

theorem el_rot {q : UQuat} (h : IsElement q) : ofRot q ∈ elements ∧ rotOf q = mat (ofRot q) := by
  obtain ⟨e, he, hr⟩ := (isElement_iff h.1).1 h
  rw [ofRot_eq he hr]
  exact ⟨he, hr⟩

theorem comp_el {g g' : UQuat} (h : IsElement g) (h' : IsElement g') : ∃ k, IsElement k ∧ rotOf k = rotOf g * rotOf g' := by
  obtain ⟨a, ha⟩ := el_rot h
  obtain ⟨b, hb⟩ := el_rot h'
  have hm := combine_mem _ a _ b
  have hr : rotOf (toQ (combine (ofRot g) (ofRot g'))) = rotOf g * rotOf g' := by rw [rotOf_toQ hm, mat_combine a b, ha, hb]
  exact ⟨_, (isElement_iff (toQ_unit hm)).2 ⟨_, hm, rotOf_toQ hm⟩, hr⟩

theorem inv_el {g : UQuat} (h : IsElement g) : ∃ k, IsElement k ∧ rotOf k = (rotOf g)ᵀ := by
  obtain ⟨a, ha⟩ := el_rot h
  have hm := finGroup.inv_mem _ a
  exact ⟨_, (isElement_iff (toQ_unit hm)).2 ⟨_, hm, rotOf_toQ hm⟩, by rw [rotOf_toQ hm, mat_inverse, ha]⟩

theorem id_rot : rotOf SO3.identity = 1 := by rw [show SO3.identity = 1 from rfl, rotOf_one]

theorem irrepAt_rep (h1 : Wigner 1 (W 1)) (h2 : Wigner 2 (W 2)) (hord : ∀ L, (ord L).Perm L) {l : ℤ} (hl : l ∈ irrepIds) :
    Rep3 IsElement rotOf ((table W ord).size l) (irrepAt W ord l) := by
  obtain ⟨-, hs, hm⟩ := table_spec h1 h2 hord (l := l) (by simpa [table] using hl)
  have hv := (C89_complete h1 h2 hord).1
  have hT := hv l (by simpa [table] using hl)
  refine ⟨fun g hg => hT.rows _ (el_rot hg).1, fun g hg => hT.cols _ (el_rot hg).1, fun g hg => hT.ortho _ (el_rot hg).1, fun g hg h => ?_, fun g g' k hg hg' hk h => ?_⟩
  · have e : ofRot g = identity := ofRot_eq identity_mem (by rw [h, mat_identity])
    unfold irrepAt
    rw [e]
    exact hT.map_one
  · obtain ⟨a, ha⟩ := el_rot hg
    obtain ⟨b, hb⟩ := el_rot hg'
    have e : ofRot k = combine (ofRot g) (ofRot g') := ofRot_eq (combine_mem _ a _ b) (by rw [h, mat_combine a b, ha, hb])
    unfold irrepAt
    rw [e]
    exact hT.map_mul _ _ a b

/-- Adding the adjoint. -/
theorem adj_restriction (h1 : Wigner 1 (W 1)) (h2 : Wigner 2 (W 2)) (hord : ∀ L, (ord L).Perm L) {l : ℤ} (hl : l ∈ irrepIds) {adj : UQuat} (hadj : IsElement adj)
    {H : Type} {ElH : H → Prop} {R : H → Mat3} {P : H → Except Err UQuat} (hP : ∀ h, ElH h → ∃ g, P h = .ok g ∧ IsElement g ∧ rotOf g = (rotOf adj)ᵀ * R h * rotOf adj)
    {Q : NpMat ℝ} (hQr : Q.rows = (table W ord).size l) (hQ : IsOrtho Q) {blocks : H → List (NpMat ℝ)}
    (hb : ∀ h q, ElH h → IsElement q → rotOf q = R h → irrepAt W ord l q ≈ conj Q (blockDiag (blocks h)))
    (hbr : ∀ h, ElH h → (blockDiag (blocks h)).rows = (table W ord).size l ∧ (blockDiag (blocks h)).cols = (table W ord).size l) :
    IsRestriction ((table W ord).size l) (irrepAt W ord l) ElH P (mul (transpose (irrepAt W ord l adj)) Q) blocks :=
  restrict_adj (irrepAt_rep h1 h2 hord hl) identity_el id_rot (fun g hg => ⟨rotOf_orth hg.1, rotOf_orth' hg.1⟩) (fun _ _ h h' => comp_el h h') (fun _ h => inv_el h) hadj hP hQr hQ hb hbr

/-- **C90** `_restrict_irrep` to the cyclic subgroups `(False, n, adj)`, `n = 2, 3, 5`: if the numerical routine decomposes the restriction to the subgroup which is not conjugated, then the result decomposes the
restriction to the conjugated one, for every element `adj`. -/
theorem C90_restrict (haq : AsQuat aq) (h1 : Wigner 1 (W 1)) (h2 : Wigner 2 (W 2)) (hord : ∀ L, (ord L).Perm L) {l : ℤ} (hl : l ∈ irrepIds) {adj : UQuat} (hadj : IsElement adj)
    {n : ℤ} (hn : n = 2 ∨ n = 3 ∨ n = 5) {num : Octa.Id → ℤ → Except Err (NpMat ℝ × List ℤ)} {Q : NpMat ℝ} {irr : List ℤ} (hnum : num (.pair false n) l = .ok (Q, irr)) {B : ℤ → ℤ → NpMat ℝ}
    (hres : ∀ P C, subgroup aq (.pair false n) SO3.identity = .ok ⟨ℤ, fun e => Cyclic.isElement n.toNat e = true, Cyclic.combine n.toNat, P, C⟩ →
      IsRestriction ((table W ord).size l) (irrepAt W ord l) (fun e => Cyclic.isElement n.toNat e = true) P Q fun h => irr.map fun i => B i h) :
    ∃ P C Q', subgroup aq (.pair false n) adj = .ok ⟨ℤ, fun e => Cyclic.isElement n.toNat e = true, Cyclic.combine n.toNat, P, C⟩ ∧
      restrictIrrep aq W ord num (.pair false n) adj l = .ok (Q', irr) ∧
      IsRestriction ((table W ord).size l) (irrepAt W ord l) (fun e => Cyclic.isElement n.toNat e = true) P Q' fun h => irr.map fun i => B i h := by
  obtain ⟨P₀, C₀, hs₀, hP₀, -⟩ := C90_cyclic haq identity_el hn
  obtain ⟨P, C, hs, hP, -⟩ := C90_cyclic haq hadj hn
  have hr := hres P₀ C₀ hs₀
  have hn1 : n ≠ 1 := by omega
  have hb : 0 ≤ l ∧ l ≤ 4 := by
    simp only [irrepIds, List.mem_cons, List.not_mem_nil, or_false] at hl
    omega
  obtain ⟨I, hI, -⟩ := (C89_irreps h1 h2 hord l).1 hb.1 hb.2
  refine ⟨P, C, _, hs, ?_, adj_restriction h1 h2 hord hl hadj hP hr.rows hr.ortho (fun h q hh hq hqr => ?_) (fun h hh => ⟨hr.block_rows h hh, hr.block_cols h hh⟩)⟩
  · rw [restrictIrrep, hI, hs, if_neg (by simp), if_neg (by simpa using hn1), hnum]
    rfl
  · obtain ⟨g, hg, hgE, hgr⟩ := hP₀ h hh
    rw [id_rot, Matrix.transpose_one, one_mul, mul_one] at hgr
    exact ((irrepAt_rep h1 h2 hord hl).ext identity_el id_rot hq hgE (by rw [hqr, hgr])).trans (hr.restrict h g hh hg)

/-- **C90** `_restrict_irrep` to the whole group and to the trivial subgroup: the irrep itself, and one copy of the trivial irrep per dimension. -/
theorem C90_restrict_trivial_whole (haq : AsQuat aq) (h1 : Wigner 1 (W 1)) (h2 : Wigner 2 (W 2)) (hord : ∀ L, (ord L).Perm L) {l : ℤ} (hl : l ∈ irrepIds) {adj : UQuat} (hadj : IsElement adj)
    (num : Octa.Id → ℤ → Except Err (NpMat ℝ × List ℤ)) :
    (∃ P C Q, subgroup aq (.str "ico") adj = .ok ⟨UQuat, IsElement, SO3.combine aq, P, C⟩ ∧ restrictIrrep aq W ord num (.str "ico") adj l = .ok (Q, [l]) ∧
      IsRestriction ((table W ord).size l) (irrepAt W ord l) IsElement P Q fun h => [irrepAt W ord l h]) ∧
    ∃ P C Q, subgroup aq (.pair false 1) adj = .ok ⟨ℤ, fun e => Cyclic.isElement 1 e = true, Cyclic.combine 1, P, C⟩ ∧
      restrictIrrep aq W ord num (.pair false 1) adj l = .ok (Q, List.replicate ((table W ord).size l) 0) ∧
      IsRestriction ((table W ord).size l) (irrepAt W ord l) (fun e => Cyclic.isElement 1 e = true) P Q fun _ => List.replicate ((table W ord).size l) (eye 1) := by
  have hb : 0 ≤ l ∧ l ≤ 4 := by
    simp only [irrepIds, List.mem_cons, List.not_mem_nil, or_false] at hl
    omega
  obtain ⟨I, hI, -⟩ := (C89_irreps h1 h2 hord l).1 hb.1 hb.2
  have hR := irrepAt_rep (ord := ord) h1 h2 hord hl
  refine ⟨⟨_, _, mul (transpose (irrepAt W ord l adj)) (eye ((table W ord).size l)), by rw [subgroup, if_pos rfl], ?_, adj_restriction h1 h2 hord hl hadj (R := rotOf) (fun h hh => ⟨_, rfl, ?_⟩) rfl (eye_isOrtho _) (fun h q hh hq hqr => ?_) fun h hh => ?_⟩,
    _, _, mul (transpose (irrepAt W ord l adj)) (eye ((table W ord).size l)), by rw [subgroup, if_pos rfl], ?_, adj_restriction h1 h2 hord hl hadj (R := fun _ => 1) (fun h hh => ⟨_, rfl, identity_el, ?_⟩) rfl (eye_isOrtho _) (fun h q hh hq hqr => ?_) fun h hh => ?_⟩
  · rw [restrictIrrep, hI, subgroup, if_pos rfl, if_pos rfl]
    rfl
  · have hr : rotOf (SO3.adjointMap aq (SO3.inverse aq adj) h) = (rotOf adj)ᵀ * rotOf h * rotOf adj := by
      simp only [SO3.adjointMap, SO3.combine, SO3.inverse, haq.rotOf, rotOf_mul, rotOf_star, Matrix.transpose_transpose]
    obtain ⟨a, ha⟩ := el_rot hh
    refine ⟨conj_mem hadj ?_ a (by rw [hr, ha]), hr⟩
    simp only [SO3.adjointMap, SO3.combine, SO3.inverse, haq.normSq, map_mul, normSq_star, hadj.1, hh.1, mul_one]
  · exact O3.single_conj (hR.ext identity_el id_rot hq hh hqr) (hR.rows h hh) (hR.cols h hh)
  · exact O3.single_size (hR.rows h hh) (hR.cols h hh)
  · rw [restrictIrrep, hI, subgroup, if_pos rfl, if_neg (by simp), if_pos rfl]
    rfl
  · rw [id_rot, mul_one, rotOf_orth' hadj.1]
  · have he : blockDiag (List.replicate ((table W ord).size l) (eye 1)) ≈ (eye ((table W ord).size l) : NpMat ℝ) := by
      have := blockDiag_eye (List.replicate ((table W ord).size l) ()) (fun _ => 1)
      simpa using this
    exact (hR.one q hq hqr).trans ((conj_eye _ rfl rfl).symm.trans (conj_congr he.symm rfl rfl))
  · have he : blockDiag (List.replicate ((table W ord).size l) (eye 1)) ≈ (eye ((table W ord).size l) : NpMat ℝ) := by
      have := blockDiag_eye (List.replicate ((table W ord).size l) ()) (fun _ => 1)
      simpa using this
    exact ⟨he.1, he.2.1⟩

theorem turn_half {h : ℤ} (hh : Cyclic.isElement 2 h = true) : turnAbout (pole 2) (2 * π * h / (2 : ℤ)) = if h = 0 then 1 else !![-1, 0, 0; 0, -1, 0; 0, 0, 1] := by
  rw [Cyclic.isElement_iff] at hh
  have hp : pole 2 = ![0, 0, 1] := rfl
  obtain rfl | rfl : h = 0 ∨ h = 1 := by have := hh.1; have := hh.2; push_cast at this; omega
  · rw [if_pos rfl, turnAbout, hp]
    ext i j
    fin_cases i <;> fin_cases j <;> simp
  · rw [if_neg (by norm_num), turnAbout, hp, show 2 * π * ((1 : ℤ) : ℝ) / ((2 : ℤ) : ℝ) = π by push_cast; ring, cos_pi, sin_pi]
    ext i j
    fin_cases i <;> fin_cases j <;> norm_num [Matrix.of_apply]

/-- The three-dimensional irrep restricted to the rotations by 180 degrees around any axis which is conjugate to Z: the coordinates `y` and `x` change sign, the coordinate `z` does not. -/
example (h1 : Wigner 1 (W 1)) (h2 : Wigner 2 (W 2)) {adj : UQuat} (hadj : IsElement adj) :
    ∃ P C Q, subgroup id (.pair false 2) adj = .ok ⟨ℤ, fun e => Cyclic.isElement 2 e = true, Cyclic.combine 2, P, C⟩ ∧
      restrictIrrep id W id (fun _ _ => .ok (eye 3, [1, 0, 1])) (.pair false 2) adj 1 = .ok (Q, [1, 0, 1]) ∧
      IsRestriction ((table W id).size 1) (irrepAt W id 1) (fun e => Cyclic.isElement 2 e = true) P Q
        fun h => [1, 0, 1].map fun i : ℤ => ⟨1, 1, fun _ _ => if i = 1 ∧ h = 1 then -1 else 1⟩ := by
  have hord : ∀ L : List Elem, (id L).Perm L := fun L => List.Perm.refl _
  have hs : (table W id).size 1 = 3 := (table_spec h1 h2 hord (l := 1) (by simp [table, irrepIds])).2.1
  refine C90_restrict id_asQuat h1 h2 hord (by simp [irrepIds]) hadj (.inl rfl) rfl (B := fun i h => ⟨1, 1, fun _ _ => if i = 1 ∧ h = 1 then -1 else 1⟩) fun P C hP => ?_
  obtain ⟨P', C', hs', hP', -⟩ := C90_cyclic (aq := id) id_asQuat identity_el (n := 2) (.inl rfl)
  rw [hs'] at hP
  obtain ⟨rfl, rfl⟩ : P' = P ∧ C' = C := by simpa using hP
  rw [hs]
  refine ⟨rfl, eye_isOrtho _, fun h hh => rfl, fun h hh => rfl, fun h g hh hg => ?_⟩
  obtain ⟨g', hg', hE, hr⟩ := hP' h hh
  obtain rfl : g' = g := by rw [hg] at hg'; exact (Except.ok.inj hg').symm
  rw [id_rot, Matrix.transpose_one, one_mul, mul_one, turn_half hh] at hr
  obtain ⟨he, hm⟩ := el_rot hE
  refine ((table_spec h1 h2 hord (l := 1) (by simp [table, irrepIds])).2.2 _ he).trans (Eqv.trans ?_ (conj_eye (n := 3) (blockDiag ([1, 0, 1].map fun i : ℤ => ⟨1, 1, fun _ _ => if i = 1 ∧ h = 1 then -1 else 1⟩)) rfl rfl).symm)
  refine ⟨rfl, rfl, fun i j hi hj => ?_⟩
  change i < 3 at hi
  change j < 3 at hj
  have h01 : h = 0 ∨ h = 1 := by
    rw [Cyclic.isElement_iff] at hh
    have := hh.1; have := hh.2; push_cast at this; omega
  rw [psi]
  simp only [true_or, if_true, ← hm, hr]
  rcases h01 with rfl | rfl <;> interval_cases i <;> interval_cases j <;> simp only [Octa.toNp, Octa.ax, Fin.ofNat] <;> simp [Matrix.one_apply, blockDiag, diag2, harmonicAxis]

end Ico

end Escnn
