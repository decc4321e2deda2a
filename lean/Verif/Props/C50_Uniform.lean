import Verif.Model.GatedUniform
import Verif.Props.C50_Gated
import Verif.Props.C36_RestrictedWE

/-!
# C50: `GatedNonLinearityUniform`
-/

namespace Escnn

variable {B P S G Id C : Type} {El : G → Prop}

theorem expandLoop_get (size : Id → ℕ) (L : List Id) (p i : ℕ) (M : NpMat ℝ) (hM : ∀ a c, p ≤ a → M.get a c = 0) (k a : ℕ) (j : Id) (hk : L[k]? = some j) (ha : a < size j) (c : ℕ) :
    (expandLoop size p i L M).get (p + chanOffset size L k + a) c = if c = i + k then 1 else 0 := by
  have hlow : ∀ (L : List Id) (p i : ℕ) (M : NpMat ℝ) (a c : ℕ), a < p → (expandLoop size p i L M).get a c = M.get a c := by
    intro L
    induction L with
    | nil => intro p i M a c _; rfl
    | cons j L ih =>
      intro p i M a c ha
      rw [expandLoop, ih _ _ _ _ _ (by omega)]
      simp only [setOnes]
      rw [if_neg (by omega)]
  induction L generalizing p i M k with
  | nil => simp at hk
  | cons j0 L ih =>
    rw [expandLoop]
    cases k with
    | zero =>
      simp only [List.getElem?_cons_zero, Option.some.injEq] at hk
      subst hk
      rw [show chanOffset size (j0 :: L) 0 = 0 by simp [chanOffset], Nat.add_zero, hlow _ _ _ _ _ _ (by omega)]
      simp only [setOnes]
      by_cases hc : c = i
      · rw [if_pos ⟨by omega, by omega, hc⟩, if_pos (by omega)]
      · rw [if_neg (fun h => hc h.2.2), hM _ _ (by omega), if_neg (by omega)]
    | succ k =>
      rw [List.getElem?_cons_succ] at hk
      have := ih (p + size j0) (i + 1) (setOnes M p (size j0) i) (fun a c ha => by
        simp only [setOnes]
        rw [if_neg (by omega), hM _ _ (by omega)]) k hk
      rw [show p + chanOffset size (j0 :: L) (k + 1) + a = p + size j0 + chanOffset size L k + a by simp [chanOffset]; omega, this]
      congr 1
      rw [eq_iff_iff]
      omega

theorem expandLoop_rows (size : Id → ℕ) (L : List Id) (p i : ℕ) (M : NpMat ℝ) : (expandLoop size p i L M).rows = M.rows := by
  induction L generalizing p i M with
  | nil => rfl
  | cons j L ih => rw [expandLoop, ih]; rfl

/-- A representation with the identity as change of basis is the direct sum of its irreps. -/
theorem Rep.WF.mat_eye {op : G → G → G} {one : G} {T : IrrepTable G Id} (hT : T.Valid El op one) {r : Rep G Id} (hr : r.WF T El) (h : r.cob ≈ NpMat.eye r.size) {g : G} (hg : El g) :
    r.mat g ≈ NpMat.blockDiag (r.irreps.map fun i => T.mat i g) := by
  have hinv : r.cobInv ≈ NpMat.eye r.size := by
    have h1 : NpMat.IsInv r.cob (NpMat.eye r.size) := by
      refine ⟨hr.inv.1, rfl, rfl, ?_, ?_⟩
      · exact (NpMat.mul_eye' r.cob hr.cob_cols).trans h
      · exact (NpMat.eye_mul' r.cob rfl).trans h
    exact hr.inv.unique h1
  have e1 := (irrepsBlock_rows hT hr.ok hg).trans hr.size
  have e2 := (irrepsBlock_cols hT hr.ok hg).trans hr.size
  exact (hr.mat g hg).trans ((NpMat.conjBy_congr h (NpMat.Eqv.refl _) hinv (by rw [e1, hr.cob_cols]) (by rw [e2, hr.inv_rows])).trans (NpMat.conjBy_eye_left e1 e2))

/-- A sum of irreps of the group without a name of its own. -/
theorem directsum_ok {op : G → G → G} {one : G} {T : IrrepTable G Id} (hT : T.Valid El op one) {taken : List String} {reprs : List (Rep G Id)} (hwf : ∀ r ∈ reprs, r.WF T El) {r : Rep G Id}
    (h : directsum T taken reprs none none = .ok r) :
    reprs ≠ [] ∧ r.WF T El ∧ r.size = (reprs.map Rep.size).sum ∧ r.irreps = reprs.flatMap Rep.irreps ∧ ∀ g, El g → r.mat g ≈ NpMat.blockDiag (reprs.map fun r => r.mat g) := by
  cases reprs with
  | nil => cases h
  | cons r0 rs =>
    refine ⟨by simp, ?_⟩
    have e : directsum T taken (r0 :: rs) none none = directsum T taken (r0 :: rs) none (some ("_".intercalate ((r0 :: rs).map fun r => "[" ++ r.name ++ "]"))) := rfl
    rw [e] at h
    by_cases hn : ("_".intercalate ((r0 :: rs).map fun r => "[" ++ r.name ++ "]")) ∈ taken
    · simp only [directsum, mkRep, Option.getD_some, if_pos hn] at h
      cases h
    · obtain ⟨r', h1, h2, -, h4, h5, h6⟩ := C14_directsum_plain hT taken (r0 :: rs) (by simp) hwf _ hn
      rw [h] at h1
      obtain rfl := Except.ok.inj h1
      exact ⟨h2, h4, h5, h6⟩

theorem chanOffset_replicate {R : Type} (sz : R → ℕ) {rs : List R} {r : R} (h : ∀ r' ∈ rs, r' = r) {k : ℕ} (hk : k ≤ rs.length) : chanOffset sz rs k = k * sz r := by
  have : (rs.take k).map sz = List.replicate k (sz r) := by
    rw [List.eq_replicate_iff]
    refine ⟨by simp [hk], fun a ha => ?_⟩
    obtain ⟨r', hr', rfl⟩ := List.mem_map.1 ha
    rw [h r' (List.mem_of_mem_take hr')]
  rw [chanOffset, this, List.sum_replicate, smul_eq_mul]

namespace GatedUniform

/-- What a constructed module satisfies. -/
structure Facts (T : IrrepTable G Id) (triv : Id) (El : G → Prop) (t : FType S (Rep G Id)) (m : GatedUniform S (Rep G Id)) (D : List Id) : Prop where
  inType : m.inType = t
  uniform : ∀ r ∈ t.reprs, r = m.rhoIn
  mem : m.rhoIn ∈ t.reprs
  irreps : m.rhoIn.irreps = List.replicate m.nGates triv ++ D
  len : D.length = m.nGates
  cob : m.rhoIn.cob ≈ NpMat.eye m.rhoIn.size
  out : m.outType.reprs = List.replicate t.reprs.length m.rhoOut
  wf : m.rhoOut.WF T El
  osize : m.rhoOut.size = (D.map T.size).sum
  omat : ∀ g, El g → m.rhoOut.mat g ≈ NpMat.blockDiag (D.map fun i => T.mat i g)
  expansion : m.expansion = expandLoop T.size 0 0 D (NpMat.zeros m.rhoOut.size m.nGates)

variable {op : G → G → G} {one : G} {T : IrrepTable G Id} {triv : Id} {t : FType S (Rep G Id)} {m : GatedUniform S (Rep G Id)}

theorem facts [DecidableEq Id] (hT : T.Valid El op one) (hpos : ∀ i, T.ok i = true → 0 < T.size i) {taken : List String} {irr : Id → Rep G Id}
    (hirr : ∀ i, T.ok i = true → ∃ name nl, irr i = irrepRep T name nl i) {gate : ℝ → ℝ} {bias : ℕ → ℕ → ℝ} (hwf : ∀ r ∈ t.reprs, r.WF T El)
    (h : init T taken irr triv gate bias t = .ok m) : m.gate = gate ∧ m.bias = bias ∧ ∃ D, Facts T triv El t m D := by
  unfold init at h
  split at h
  · cases h
  rename_i rho rest hrs
  split_ifs at h with h1 h2 h3 h4
  split at h
  · cases h
  rename_i out hout
  have hrho := hwf rho (by rw [hrs]; simp)
  have hd : ∀ i ∈ rho.irreps.drop (rho.irreps.length / 2), T.ok i = true := fun i hi => hrho.ok i (List.mem_of_mem_drop hi)
  obtain ⟨-, q2, q3, q4, q5⟩ := directsum_ok hT (taken := taken) (reprs := (rho.irreps.drop (rho.irreps.length / 2)).map irr) (by
    intro r hr
    obtain ⟨i, hi, rfl⟩ := List.mem_map.1 hr
    obtain ⟨n, nl, e⟩ := hirr i (hd i hi)
    rw [e]
    exact irrepRep_wf hT (hd i hi) (hpos i (hd i hi)) n nl) hout
  obtain rfl := Except.ok.inj h
  refine ⟨rfl, rfl, rho.irreps.drop (rho.irreps.length / 2), ?_⟩
  constructor
  · rfl
  · intro r hr
    rw [hrs] at hr
    rcases List.mem_cons.1 hr with h | h
    · exact h
    · exact h1 r h
  · rw [hrs]; simp
  · show rho.irreps = List.replicate (rho.irreps.length / 2) triv ++ _
    conv_lhs => rw [← List.take_append_drop (rho.irreps.length / 2) rho.irreps]
    congr 1
    rw [List.eq_replicate_iff]
    exact ⟨by simp; omega, h4⟩
  · show _ = rho.irreps.length / 2
    rw [List.length_drop]
    omega
  · exact h3
  · rfl
  · exact q2
  · show out.size = _
    rw [q3, List.map_map]
    congr 1
    refine List.map_congr_left fun i hi => ?_
    obtain ⟨n, nl, e⟩ := hirr i (hd i hi)
    simp only [Function.comp, e]
    rfl
  · intro g hg
    refine (q5 g hg).trans ?_
    rw [List.map_map]
    have : (rho.irreps.drop (rho.irreps.length / 2)).map ((fun r : Rep G Id => r.mat g) ∘ irr) = (rho.irreps.drop (rho.irreps.length / 2)).map fun i => T.mat i g := by
      refine List.map_congr_left fun i hi => ?_
      obtain ⟨n, nl, e⟩ := hirr i (hd i hi)
      simp only [Function.comp, e]
      rfl
    rw [this]
  · rfl

variable {D : List Id}

theorem Facts.rhoIn_size (F : Facts T triv El t m D) (htriv : T.size triv = 1) (hwf : m.rhoIn.WF T El) : m.rhoIn.size = m.nGates + m.rhoOut.size := by
  rw [← hwf.size, F.irreps, F.osize]
  simp [htriv]

theorem Facts.row (F : Facts T triv El t m D) {k a : ℕ} {i : Id} (hk : D[k]? = some i) (ha : a < T.size i) (c : ℕ) : m.expansion.get (chanOffset T.size D k + a) c = if c = k then 1 else 0 := by
  have := expandLoop_get T.size D 0 0 (NpMat.zeros m.rhoOut.size m.nGates) (fun _ _ _ => rfl) k a i hk ha c
  rw [F.expansion]
  simpa using this

/-- What the forward pass computes: the features of the `k`-th gated irrep are multiplied with the gate `k`. -/
theorem forward_spec (F : Facts T triv El t m D) (htriv : T.size triv = 1) (hwf : ∀ r ∈ t.reprs, r.WF T El) (x : GTensor B P S (Rep G Id) C) (hx : x.type = t) (hc : x.tensor.chans = t.size Rep.size) :
    ∃ y, forward m x = .ok y ∧ y.type = m.outType ∧ y.coords = x.coords ∧ y.tensor.chans = m.outType.size Rep.size ∧
      ∀ c < t.reprs.length, ∀ (k : ℕ) i, D[k]? = some i → ∀ a < T.size i, ∀ b p, y.tensor.get b (c * m.rhoOut.size + (chanOffset T.size D k + a)) p =
        m.gate (x.tensor.get b (c * m.rhoIn.size + k) p - m.bias c k) * x.tensor.get b (c * m.rhoIn.size + (m.nGates + (chanOffset T.size D k + a))) p := by
  have hs := F.rhoIn_size htriv (hwf _ F.mem)
  have hrow : m.expansion.rows = m.rhoOut.size := by rw [F.expansion, expandLoop_rows]; rfl
  have h1 : x.tensor.chans = m.inType.len * m.rhoIn.size := by
    rw [hc, FType.size_eq, F.inType]
    have := chanOffset_replicate Rep.size F.uniform (le_refl _)
    rw [chanOffset, List.take_length] at this
    exact this
  have h2 : m.outType.size Rep.size = m.inType.len * m.rhoOut.size := by
    rw [FType.size_eq, F.out, F.inType]
    simp [FType.len]
  refine ⟨⟨(⟨m.inType.len, m.rhoOut.size, fun b c o p =>
        (∑ i ∈ Finset.range m.nGates, m.expansion.get o i * m.gate (x.tensor.get b (c * m.rhoIn.size + i) p - m.bias c i)) * x.tensor.get b (c * m.rhoIn.size + (m.nGates + o)) p⟩ : FieldsT B P).flat, m.outType, x.coords⟩,
    ?_, rfl, rfl, h2.symm, fun c hcl k i hk a ha b p => ?_⟩
  · rw [forward, if_pos (hx.trans F.inType.symm), FTensor.toFields, if_pos h1]
    simp only [bind, Except.bind]
    rw [if_pos (by omega), hrow]
    exact if_pos h2.symm
  · have hlt : chanOffset T.size D k + a < m.rhoOut.size := by rw [F.osize]; exact chanOffset_lt hk ha
    simp only
    rw [FieldsT.flat_get (⟨m.inType.len, m.rhoOut.size, fun b c o p =>
        (∑ i ∈ Finset.range m.nGates, m.expansion.get o i * m.gate (x.tensor.get b (c * m.rhoIn.size + i) p - m.bias c i)) * x.tensor.get b (c * m.rhoIn.size + (m.nGates + o)) p⟩ : FieldsT B P) b p hlt]
    simp only [F.row hk ha, ite_mul, one_mul, zero_mul]
    rw [Finset.sum_ite_eq' (Finset.range m.nGates) k, if_pos (Finset.mem_range.2 (by rw [← F.len]; exact (List.getElem?_eq_some_iff.1 hk).1))]

/-- **C50** For each uniform type accepted by the constructor, each gate function, bias, input and group element, the module commutes with the action; it computes at each position from the values at that position. -/
theorem C50_uniform [DecidableEq Id] (hT : T.Valid El op one) (hpos : ∀ i, T.ok i = true → 0 < T.size i) (htriv : T.IsTrivial El triv) {taken : List String} {irr : Id → Rep G Id}
    (hirr : ∀ i, T.ok i = true → ∃ name nl, irr i = irrepRep T name nl i) {gate : ℝ → ℝ} {bias : ℕ → ℕ → ℝ} (hwf : ∀ r ∈ t.reprs, r.WF T El)
    (hm : init T taken irr triv gate bias t = .ok m) :
    FibreEquivariant (B := B) (P := P) (C := C) El t m.outType (forward m) ∧ PositionLocal (B := B) (P := P) (C := C) Rep.size t (forward m) := by
  obtain ⟨-, -, D, F⟩ := facts hT hpos hirr hwf hm
  have hrho := hwf _ F.mem
  have hs := F.rhoIn_size htriv.size hrho
  have hwf' : ∀ r ∈ m.outType.reprs, r.WF T El := by
    intro r hr
    rw [F.out] at hr
    rw [List.eq_of_mem_replicate hr]
    exact F.wf
  let Φ : FTensor B P → ℕ → ℕ → B → P → ℝ := fun x c o b p =>
    (∑ i ∈ Finset.range m.nGates, m.expansion.get o i * m.gate (x.get b (c * m.rhoIn.size + i) p - m.bias c i)) * x.get b (c * m.rhoIn.size + (m.nGates + o)) p
  have hΦ : ∀ (x : FTensor B P) (c : ℕ) b p (k : ℕ) i, D[k]? = some i → ∀ a < T.size i, Φ x c (chanOffset T.size D k + a) b p =
      m.gate (x.get b (c * m.rhoIn.size + k) p - m.bias c k) * x.get b (c * m.rhoIn.size + (m.nGates + (chanOffset T.size D k + a))) p := by
    intro x c b p k i hk a ha
    simp only [Φ, F.row hk ha, ite_mul, one_mul, zero_mul]
    rw [Finset.sum_ite_eq' (Finset.range m.nGates) k, if_pos (Finset.mem_range.2 (by rw [← F.len]; exact (List.getElem?_eq_some_iff.1 hk).1))]
  have hpick : ∀ (c : ℕ) r, m.outType.reprs[c]? = some r → c < t.reprs.length ∧ r = m.rhoOut := by
    intro c r hr
    rw [F.out, List.getElem?_replicate] at hr
    split_ifs at hr with h
    exact ⟨h, (Option.some.inj hr).symm⟩
  have hoff : ∀ c < t.reprs.length, chanOffset Rep.size m.outType.reprs c = c * m.rhoOut.size := fun c hc =>
    chanOffset_replicate Rep.size (fun r hr => by rw [F.out] at hr; exact List.eq_of_mem_replicate hr) (by rw [F.out, List.length_replicate]; omega)
  have hoffi : ∀ c < t.reprs.length, chanOffset Rep.size t.reprs c = c * m.rhoIn.size := fun c hc => chanOffset_replicate Rep.size F.uniform (by omega)
  have hf : ∀ x : GTensor B P S (Rep G Id) C, x.type = t → x.tensor.chans = t.size Rep.size → ∃ y, forward m x = .ok y ∧ y.type = m.outType ∧ y.coords = x.coords ∧
      y.tensor.chans = m.outType.size Rep.size ∧
      ∀ (k : ℕ) (r : Rep G Id), m.outType.reprs[k]? = some r → ∀ o < r.size, ∀ b p, y.tensor.get b (chanOffset Rep.size m.outType.reprs k + o) p = Φ x.tensor k o b p := by
    intro x hx hc
    obtain ⟨y, e1, e2, e3, e4, e5⟩ := forward_spec (C := C) F htriv.size hwf x hx hc
    refine ⟨y, e1, e2, e3, e4, fun c r hr o ho b p => ?_⟩
    obtain ⟨hcl, rfl⟩ := hpick c r hr
    rw [F.osize] at ho
    obtain ⟨k, i, a, hk, ha, rfl⟩ := exists_field ho
    rw [hoff c hcl, e5 c hcl k i hk a ha b p, hΦ _ _ _ _ k i hk a ha]
  refine ⟨FibreEquivariant.of_fields (GatedNL.wf_square hwf) (GatedNL.wf_square hwf') Φ hf ?_, PositionLocal.of_fields Φ hf ?_⟩
  · intro g hg x gx _ _ hact c r hr o ho b p
    obtain ⟨hcl, rfl⟩ := hpick c r hr
    rw [F.osize] at ho
    obtain ⟨k, i, a, hk, ha, rfl⟩ := exists_field ho
    have hok : ∀ i ∈ m.rhoIn.irreps, T.ok i = true := hrho.ok
    have hρ : ∀ i ∈ m.rhoIn.irreps, (T.mat i g).rows = T.size i ∧ (T.mat i g).cols = T.size i := fun i hi => ⟨(hT i (hok i hi)).rows g hg, (hT i (hok i hi)).cols g hg⟩
    have hDmem : ∀ i ∈ D, i ∈ m.rhoIn.irreps := fun i hi => by rw [F.irreps]; exact List.mem_append_right _ hi
    have hmat := hrho.mat_eye hT F.cob hg
    -- the transformed field, irrep by irrep
    have hact' : ∀ (q : ℕ) i, m.rhoIn.irreps[q]? = some i → ∀ a < T.size i, gx.get b (c * m.rhoIn.size + (chanOffset T.size m.rhoIn.irreps q + a)) p =
        ∑ j ∈ Finset.range (T.size i), (T.mat i g).get a j * x.get b (c * m.rhoIn.size + (chanOffset T.size m.rhoIn.irreps q + j)) p := by
      intro q i hq a ha
      have hlt : chanOffset T.size m.rhoIn.irreps q + a < m.rhoIn.size := by rw [← hrho.size]; exact chanOffset_lt hq ha
      have hc1 : t.reprs[c]? = some m.rhoIn := by rw [List.getElem?_eq_getElem hcl, F.uniform _ (List.getElem_mem hcl)]
      have h1 := hact c m.rhoIn hc1 b _ p hlt
      rw [hoffi c hcl] at h1
      rw [h1, ← blockDiag_row hρ hq ha fun j => x.get b (c * m.rhoIn.size + j) p, hrho.size]
      refine Finset.sum_congr rfl fun j hj => ?_
      rw [hmat.2.2 _ _ (by rw [hrho.rows hg]; exact hlt) (by rw [hrho.cols hg]; exact Finset.mem_range.1 hj)]
    have hgates : ∀ q < m.nGates, gx.get b (c * m.rhoIn.size + q) p = x.get b (c * m.rhoIn.size + q) p := by
      intro q hq
      have h1 : m.rhoIn.irreps[q]? = some triv := by
        rw [F.irreps, List.getElem?_append_left (by simpa using hq), List.getElem?_replicate, if_pos hq]
      have h2 : chanOffset T.size m.rhoIn.irreps q = q := by
        rw [F.irreps, chanOffset, List.take_append_of_le_length (by simp; omega), List.take_replicate, min_eq_left hq.le]
        simp [htriv.size]
      have := hact' q triv h1 0 (by rw [htriv.size]; exact one_pos)
      rw [htriv.size, Finset.sum_range_one, htriv.mat g hg, one_mul, h2, Nat.add_zero] at this
      exact this
    have hfeat : ∀ a < T.size i, gx.get b (c * m.rhoIn.size + (m.nGates + (chanOffset T.size D k + a))) p =
        ∑ j ∈ Finset.range (T.size i), (T.mat i g).get a j * x.get b (c * m.rhoIn.size + (m.nGates + (chanOffset T.size D k + j))) p := by
      intro a ha
      have h1 : m.rhoIn.irreps[m.nGates + k]? = some i := by
        rw [F.irreps, List.getElem?_append_right (by simp), List.length_replicate, Nat.add_sub_cancel_left, hk]
      have h2 : chanOffset T.size m.rhoIn.irreps (m.nGates + k) = m.nGates + chanOffset T.size D k := by
        rw [F.irreps, chanOffset, List.take_append, List.length_replicate, Nat.add_sub_cancel_left, List.take_of_length_le (by simp), List.map_append, List.sum_append]
        simp [htriv.size, chanOffset]
      have := hact' _ i h1 a ha
      rw [h2] at this
      simpa only [Nat.add_assoc] using this
    have hkn : k < m.nGates := by rw [← F.len]; exact (List.getElem?_eq_some_iff.1 hk).1
    rw [hΦ _ _ _ _ k i hk a ha, hgates k hkn, hfeat a ha]
    have hρ' : ∀ i ∈ D, (T.mat i g).rows = T.size i ∧ (T.mat i g).cols = T.size i := fun i hi => hρ i (hDmem i hi)
    have hlt : chanOffset T.size D k + a < m.rhoOut.size := by rw [F.osize]; exact chanOffset_lt hk ha
    have hR : ∑ j ∈ Finset.range m.rhoOut.size, (m.rhoOut.mat g).get (chanOffset T.size D k + a) j * Φ x c j b p =
        ∑ j ∈ Finset.range (T.size i), (T.mat i g).get a j * Φ x c (chanOffset T.size D k + j) b p := by
      rw [← blockDiag_row hρ' hk ha fun j => Φ x c j b p, ← F.osize]
      refine Finset.sum_congr rfl fun j hj => ?_
      rw [(F.omat g hg).2.2 _ _ (by rw [F.wf.rows hg]; exact hlt) (by rw [F.wf.cols hg]; exact Finset.mem_range.1 hj)]
    rw [hR, Finset.mul_sum]
    refine Finset.sum_congr rfl fun j hj => ?_
    rw [hΦ _ _ _ _ k i hk j (Finset.mem_range.1 hj)]
    ring
  · intro σ x k o b p
    simp only [Φ]

end GatedUniform

end Escnn
