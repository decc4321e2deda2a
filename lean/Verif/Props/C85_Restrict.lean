import Verif.Model.OctaRestrict
import Verif.Props.C85_Subgroups
import Verif.Props.C79_Irreps3

/-!
# C85: the restriction of the irreps of the octahedral group
-/

namespace Escnn

open Real Quaternion NpMat
open scoped Matrix

namespace Octa

variable {aq : UQuat → UQuat} {W : ℕ → UQuat → NpMat ℝ} {ord : List Elem → List Elem}

theorem id_asQuat : AsQuat id := fun _ => .inl rfl

theorem el_rot {q : UQuat} (h : IsElement q) : ofRot q ∈ elements ∧ rotOf q = mat (ofRot q) := by
  obtain ⟨e, he, hr⟩ := (isElement_iff h.1).1 h
  rw [floor_cast _ _ hr]
  exact ⟨he, hr⟩

theorem comp_el {g g' : UQuat} (h : IsElement g) (h' : IsElement g') : ∃ k, IsElement k ∧ rotOf k = rotOf g * rotOf g' := by
  obtain ⟨a, ha⟩ := el_rot h
  obtain ⟨b, hb⟩ := el_rot h'
  have hm := finGroup.mul_mem _ a _ b
  have hr : rotOf (toQ (combine (ofRot g) (ofRot g'))) = rotOf g * rotOf g' := by rw [rotOf_toQ hm, mat_combine, ha, hb]
  exact ⟨_, (isElement_iff (toQ_unit hm)).2 ⟨_, hm, rotOf_toQ hm⟩, hr⟩

theorem inv_el {g : UQuat} (h : IsElement g) : ∃ k, IsElement k ∧ rotOf k = (rotOf g)ᵀ := by
  obtain ⟨a, ha⟩ := el_rot h
  have hm := finGroup.inv_mem _ a
  exact ⟨_, (isElement_iff (toQ_unit hm)).2 ⟨_, hm, rotOf_toQ hm⟩, by rw [rotOf_toQ hm, mat_inverse, ha]⟩

theorem id_rot : rotOf SO3.identity = 1 := by rw [show SO3.identity = 1 from rfl, rotOf_one]

theorem identity_el : IsElement SO3.identity := by
  have hu : normSq SO3.identity = 1 := by rw [show SO3.identity = 1 from rfl, map_one]
  exact (isElement_iff hu).2 ⟨identity, finGroup.one_mem, by rw [id_rot, mat_identity]⟩

theorem irrepAt_rep (hW : Wigner 1 (W 1)) (hord : ∀ L, (ord L).Perm L) {l : ℤ} (hl : l ∈ irrepIds) :
    Rep3 IsElement rotOf ((table W ord).size l) (irrepAt W ord l) := by
  obtain ⟨-, hs, hm⟩ := table_spec hW hord (l := l) (by simpa [table] using hl)
  have hv := (C85_complete hW hord).1
  have hT := hv l (by simpa [table] using hl)
  refine ⟨fun g hg => hT.rows _ (el_rot hg).1, fun g hg => hT.cols _ (el_rot hg).1, fun g hg => hT.ortho _ (el_rot hg).1, fun g hg h => ?_, fun g g' k hg hg' hk h => ?_⟩
  · have e : ofRot g = identity := floor_cast _ _ (by rw [h, mat_identity])
    unfold irrepAt
    rw [e]
    exact hT.map_one
  · obtain ⟨a, ha⟩ := el_rot hg
    obtain ⟨b, hb⟩ := el_rot hg'
    have e : ofRot k = combine (ofRot g) (ofRot g') := floor_cast _ _ (by rw [h, mat_combine, ha, hb])
    unfold irrepAt
    rw [e]
    exact hT.map_mul _ _ a b

/-- Adding the adjoint. -/
theorem adj_restriction (hW : Wigner 1 (W 1)) (hord : ∀ L, (ord L).Perm L) {l : ℤ} (hl : l ∈ irrepIds) {adj : UQuat} (hadj : IsElement adj)
    {H : Type} {ElH : H → Prop} {R : H → Mat3} {P : H → Except Err UQuat} (hP : ∀ h, ElH h → ∃ g, P h = .ok g ∧ IsElement g ∧ rotOf g = (rotOf adj)ᵀ * R h * rotOf adj)
    {Q : NpMat ℝ} (hQr : Q.rows = (table W ord).size l) (hQ : IsOrtho Q) {blocks : H → List (NpMat ℝ)}
    (hb : ∀ h q, ElH h → IsElement q → rotOf q = R h → irrepAt W ord l q ≈ conj Q (blockDiag (blocks h)))
    (hbr : ∀ h, ElH h → (blockDiag (blocks h)).rows = (table W ord).size l ∧ (blockDiag (blocks h)).cols = (table W ord).size l) :
    IsRestriction ((table W ord).size l) (irrepAt W ord l) ElH P (mul (transpose (irrepAt W ord l adj)) Q) blocks :=
  restrict_adj (irrepAt_rep hW hord hl) identity_el id_rot (fun g hg => ⟨rotOf_orth hg.1, rotOf_orth' hg.1⟩) (fun _ _ h h' => comp_el h h') (fun _ h => inv_el h) hadj hP hQr hQ hb hbr

/-- **C85** `_restrict_irrep` to the cyclic subgroups `(False, n, adj)`, `n = 2, 3, 4`: if the numerical routine decomposes the restriction to the subgroup which is not conjugated, then the result decomposes the
restriction to the conjugated one, for every element `adj`. -/
theorem C85_restrict (haq : AsQuat aq) (hW : Wigner 1 (W 1)) (hord : ∀ L, (ord L).Perm L) {l : ℤ} (hl : l ∈ irrepIds) {adj : UQuat} (hadj : IsElement adj)
    {n : ℤ} (hn : n = 2 ∨ n = 3 ∨ n = 4) {num : Id → ℤ → Except Err (NpMat ℝ × List ℤ)} {Q : NpMat ℝ} {irr : List ℤ} (hnum : num (.pair false n) l = .ok (Q, irr)) {B : ℤ → ℤ → NpMat ℝ}
    (hres : ∀ P C, subgroup aq (.pair false n) SO3.identity = .ok ⟨ℤ, fun e => Cyclic.isElement n.toNat e = true, Cyclic.combine n.toNat, P, C⟩ →
      IsRestriction ((table W ord).size l) (irrepAt W ord l) (fun e => Cyclic.isElement n.toNat e = true) P Q fun h => irr.map fun i => B i h) :
    ∃ P C Q', subgroup aq (.pair false n) adj = .ok ⟨ℤ, fun e => Cyclic.isElement n.toNat e = true, Cyclic.combine n.toNat, P, C⟩ ∧
      restrictIrrep aq W ord num (.pair false n) adj l = .ok (Q', irr) ∧
      IsRestriction ((table W ord).size l) (irrepAt W ord l) (fun e => Cyclic.isElement n.toNat e = true) P Q' fun h => irr.map fun i => B i h := by
  obtain ⟨P₀, C₀, hs₀, hP₀, -⟩ := C85_cyclic haq identity_el hn
  obtain ⟨P, C, hs, hP, -⟩ := C85_cyclic haq hadj hn
  have hr := hres P₀ C₀ hs₀
  have hn1 : n ≠ 1 := by omega
  have hb : -1 ≤ l ∧ l ≤ 3 := by
    simp only [irrepIds, List.mem_cons, List.not_mem_nil, or_false] at hl
    omega
  obtain ⟨I, hI, -⟩ := (C85_irreps hW hord l).1 hb.1 hb.2
  refine ⟨P, C, _, hs, ?_, adj_restriction hW hord hl hadj hP hr.rows hr.ortho (fun h q hh hq hqr => ?_) (fun h hh => ⟨hr.block_rows h hh, hr.block_cols h hh⟩)⟩
  · rw [restrictIrrep, hI, hs, if_neg (by simp), if_neg (by simpa using hn1), hnum]
    rfl
  · obtain ⟨g, hg, hgE, hgr⟩ := hP₀ h hh
    rw [id_rot, Matrix.transpose_one, one_mul, mul_one] at hgr
    exact ((irrepAt_rep hW hord hl).ext identity_el id_rot hq hgE (by rw [hqr, hgr])).trans (hr.restrict h g hh hg)

/-- **C85** `_restrict_irrep` to the whole group: the irrep itself. -/
theorem C85_restrict_whole (haq : AsQuat aq) (hW : Wigner 1 (W 1)) (hord : ∀ L, (ord L).Perm L) {l : ℤ} (hl : l ∈ irrepIds) {adj : UQuat} (hadj : IsElement adj)
    (num : Id → ℤ → Except Err (NpMat ℝ × List ℤ)) :
    ∃ P C Q, subgroup aq (.str "octa") adj = .ok ⟨UQuat, IsElement, SO3.combine aq, P, C⟩ ∧ restrictIrrep aq W ord num (.str "octa") adj l = .ok (Q, [l]) ∧
      IsRestriction ((table W ord).size l) (irrepAt W ord l) IsElement P Q fun h => [irrepAt W ord l h] := by
  have hb : -1 ≤ l ∧ l ≤ 3 := by
    simp only [irrepIds, List.mem_cons, List.not_mem_nil, or_false] at hl
    omega
  obtain ⟨I, hI, -⟩ := (C85_irreps hW hord l).1 hb.1 hb.2
  have hR := irrepAt_rep (ord := ord) hW hord hl
  refine ⟨_, _, mul (transpose (irrepAt W ord l adj)) (eye ((table W ord).size l)), by rw [subgroup, if_pos rfl], ?_,
    adj_restriction hW hord hl hadj (R := rotOf) (fun h hh => ⟨_, rfl, ?_⟩) rfl (eye_isOrtho _) (fun h q hh hq hqr => ?_) fun h hh => ?_⟩
  · rw [restrictIrrep, hI, subgroup, if_pos rfl, if_pos rfl]
    rfl
  · have hr : rotOf (SO3.adjointMap aq (SO3.inverse aq adj) h) = (rotOf adj)ᵀ * rotOf h * rotOf adj := by
      simp only [SO3.adjointMap, SO3.combine, SO3.inverse, haq.rotOf, rotOf_mul, rotOf_star, Matrix.transpose_transpose]
    obtain ⟨a, ha⟩ := el_rot hh
    refine ⟨conj_mem hadj ?_ a (by rw [hr, ha]), hr⟩
    simp only [SO3.adjointMap, SO3.combine, SO3.inverse, haq.normSq, map_mul, normSq_star, hadj.1, hh.1, mul_one]
  · exact O3.single_conj (hR.ext identity_el id_rot hq hh hqr) (hR.rows h hh) (hR.cols h hh)
  · exact O3.single_size (hR.rows h hh) (hR.cols h hh)

theorem turn_half {h : ℤ} (hh : Cyclic.isElement 2 h = true) : turn 2 h = if h = 0 then 1 else !![-1, 0, 0; 0, -1, 0; 0, 0, 1] := by
  have c := case_of (.inl rfl) hh
  rw [turn_eq c]
  cases c with
  | c20 => rw [if_pos rfl, show idx 2 0 = 3 from rfl, nth3]; exact mat_identity
  | c21 => rw [if_neg (by norm_num), show idx 2 1 = 2 from rfl, nth2]; simp [mat]

/-- The three-dimensional irrep restricted to the rotations by 180 degrees around any axis which is conjugate to Z: the coordinates `y` and `x` change sign, the coordinate `z` does not. -/
example (hW : Wigner 1 (W 1)) {adj : UQuat} (hadj : IsElement adj) :
    ∃ P C Q, subgroup id (.pair false 2) adj = .ok ⟨ℤ, fun e => Cyclic.isElement 2 e = true, Cyclic.combine 2, P, C⟩ ∧
      restrictIrrep id W id (fun _ _ => .ok (eye 3, [1, 0, 1])) (.pair false 2) adj 1 = .ok (Q, [1, 0, 1]) ∧
      IsRestriction ((table W id).size 1) (irrepAt W id 1) (fun e => Cyclic.isElement 2 e = true) P Q
        fun h => [1, 0, 1].map fun i : ℤ => ⟨1, 1, fun _ _ => if i = 1 ∧ h = 1 then -1 else 1⟩ := by
  have hord : ∀ L : List Elem, (id L).Perm L := fun L => List.Perm.refl _
  have hs : (table W id).size 1 = 3 := (table_spec hW hord (l := 1) (by simp [table, irrepIds])).2.1
  refine C85_restrict id_asQuat hW hord (by simp [irrepIds]) hadj (.inl rfl) rfl (B := fun i h => ⟨1, 1, fun _ _ => if i = 1 ∧ h = 1 then -1 else 1⟩) fun P C hP => ?_
  obtain ⟨P', C', hs', hP', -⟩ := C85_cyclic (aq := id) id_asQuat identity_el (n := 2) (.inl rfl)
  rw [hs'] at hP
  obtain ⟨rfl, rfl⟩ : P' = P ∧ C' = C := by simpa using hP
  rw [hs]
  refine ⟨rfl, eye_isOrtho _, fun h hh => rfl, fun h hh => rfl, fun h g hh hg => ?_⟩
  obtain ⟨g', hg', hE, hr⟩ := hP' h hh
  obtain rfl : g' = g := by rw [hg] at hg'; exact (Except.ok.inj hg').symm
  rw [id_rot, Matrix.transpose_one, one_mul, mul_one, turn_half hh] at hr
  obtain ⟨he, hm⟩ := el_rot hE
  refine ((table_spec hW hord (l := 1) (by simp [table, irrepIds])).2.2 _ he).trans (Eqv.trans ?_ (conj_eye (n := 3) (blockDiag ([1, 0, 1].map fun i : ℤ => ⟨1, 1, fun _ _ => if i = 1 ∧ h = 1 then -1 else 1⟩)) rfl rfl).symm)
  refine ⟨rfl, rfl, fun i j hi hj => ?_⟩
  change i < 3 at hi
  change j < 3 at hj
  have h01 : h = 0 ∨ h = 1 := by
    rw [Cyclic.isElement_iff] at hh
    have := hh.1; have := hh.2; push_cast at this; omega
  rw [psi]
  simp only [true_or, if_true, ← hm, hr]
  rcases h01 with rfl | rfl <;> interval_cases i <;> interval_cases j <;> simp only [toNp, ax, Fin.ofNat] <;> simp [Matrix.one_apply, blockDiag, diag2, harmonicAxis]

end Octa

end Escnn
