import Verif.Lemmas.NumericalExact

/-!
# C83: the numerical decomposition of representations
-/

namespace Escnn

open NpMat

variable {G Id : Type}

/-- **C83** The Sylvester constraint: a matrix, flattened by columns, is in the kernel of the constraint exactly if it intertwines the two representations on all given elements. -/
theorem C83_sylvester {rho₁ rho₂ : List (NpMat ℝ)} {d₁ d₂ : ℕ} (h₁ : ∀ A ∈ rho₁, A.rows = d₁ ∧ A.cols = d₁) (h₂ : ∀ B ∈ rho₂, B.rows = d₂ ∧ B.cols = d₂) (hl : rho₁.length = rho₂.length) (h0 : rho₁ ≠ []) :
    ∃ C, buildSylvester rho₁ rho₂ = .ok C ∧ C.cols = d₁ * d₂ ∧ ∀ X : NpMat ℝ, X.rows = d₁ → X.cols = d₂ →
      ((∀ i < C.rows, ∑ a ∈ Finset.range C.cols, C.get i a * X.get (a % d₁) (a / d₁) = 0) ↔ ∀ p ∈ rho₁.zip rho₂, mul p.1 X ≈ mul X p.2) := by
  obtain ⟨C, hC, hc, hk⟩ := buildSylvester_spec h₁ h₂ hl h0
  refine ⟨C, hC, by rw [hc, Nat.mul_comm], fun X hr hcX => ?_⟩
  have e : unflatF d₁ d₂ (fun a => X.get (a % d₁) (a / d₁)) ≈ X := by
    refine ⟨hr.symm, hcX.symm, fun i j hi hj => ?_⟩
    have hi : i < d₁ := hi
    have hd : 0 < d₁ := by omega
    show X.get ((j * d₁ + i) % d₁) ((j * d₁ + i) / d₁) = X.get i j
    rw [Nat.mul_comm, Nat.mul_add_div hd, Nat.div_eq_of_lt hi, add_zero, Nat.mul_add_mod, Nat.mod_eq_of_lt hi]
  refine (hk fun a => X.get (a % d₁) (a / d₁)).trans (forall_congr' fun p => ?_)
  constructor
  · intro h hp
    have hp1 := h₁ _ (List.of_mem_zip hp).1
    have hp2 := h₂ _ (List.of_mem_zip hp).2
    exact ((mul_congr_right p.1 e.symm (by rw [hp1.2, hr])).trans (h hp)).trans (mul_congr_left p.2 e (by rw [hp2.1]; rfl))
  · intro h hp
    have hp1 := h₁ _ (List.of_mem_zip hp).1
    have hp2 := h₂ _ (List.of_mem_zip hp).2
    exact ((mul_congr_right p.1 e (by rw [hp1.2]; rfl)).trans (h hp)).trans (mul_congr_left p.2 e.symm (by rw [hp2.1, hcX]))

/-- The data of a finite group: its irreps are representations, the generators generate it, and the characters of the irreps are orthogonal. -/
structure FinData.Law [DecidableEq Id] (F : FinData G Id) (op : G → G → G) (one : G) : Prop where
  grp : FinGroup F.els op F.inv one
  valid : F.T.Valid (· ∈ F.els) op one
  gens : ∀ g ∈ F.gens, g ∈ F.els
  generate : ∀ g ∈ F.els, ∃ w : List G, (∀ x ∈ w, x ∈ F.gens) ∧ w.foldl op one = g
  nodup : F.ids.Nodup
  ok : ∀ i ∈ F.ids, F.T.ok i = true
  sumsq : ∀ i ∈ F.ids, 0 < F.sumsq i
  orthogonal : ∀ i ∈ F.ids, ∀ j ∈ F.ids, (F.els.map fun e => trace (F.T.mat j e) * F.char i (F.inv e)).sum = if i = j then (F.els.length : ℝ) * F.sumsq i else 0
  le_trans : ∀ a b c, F.le a b = true → F.le b c = true → F.le a c = true
  le_total : ∀ a b, (F.le a b || F.le b a) = true

variable [DecidableEq Id] {F : FinData G Id} {op : G → G → G} {one : G}

theorem asInt_of {x : ℝ} {n : ℤ} (h : x = n) : asInt x = .ok n := by
  have hx : ∃ n : ℤ, x = n := ⟨n, h⟩
  unfold asInt
  rw [dif_pos hx]
  have := hx.choose_spec
  congr 1
  exact_mod_cast this.symm.trans h

theorem trace_block (hT : F.T.Valid (· ∈ F.els) op one) {L : List Id} (hL : ∀ i ∈ L, F.T.ok i = true) {g : G} (hg : g ∈ F.els) :
    trace (irrepsBlock F.T L g) = (L.map fun i => trace (F.T.mat i g)).sum := by
  induction L with
  | nil => simp [irrepsBlock, trace, blockDiag, zeros]
  | cons i L ih =>
    have hi := hT i (hL i (by simp))
    rw [List.map_cons, List.sum_cons, ← ih fun j hj => hL j (List.mem_cons_of_mem _ hj)]
    show trace (diag2 (F.T.mat i g) (irrepsBlock F.T L g)) = _
    simp only [trace, diag2_rows]
    rw [Finset.sum_range_add]
    congr 1
    · refine Finset.sum_congr rfl fun k hk => ?_
      have hk := Finset.mem_range.1 hk
      have hk' : k < (F.T.mat i g).cols := by rwa [hi.cols g hg, ← hi.rows g hg]
      simp [diag2, hk, hk']
    · refine Finset.sum_congr rfl fun k hk => ?_
      simp [diag2, hi.rows g hg, hi.cols g hg]

/-- `rho` is equivalent to the direct sum of the irreps `irr` by the orthogonal matrix `P`. -/
structure Equivalent (F : FinData G Id) (rho : G → NpMat ℝ) (P : NpMat ℝ) (irr : List Id) : Prop where
  mem : ∀ i ∈ irr, i ∈ F.ids
  ortho : IsOrtho P
  size : P.rows = (irr.map F.T.size).sum
  mat : ∀ g ∈ F.els, rho g ≈ mul (mul P (blockDiag (irr.map fun i => F.T.mat i g))) (transpose P)

theorem trace_equiv (hF : F.Law op one) {rho : G → NpMat ℝ} {P : NpMat ℝ} {irr : List Id} (h : Equivalent F rho P irr) {g : G} (hg : g ∈ F.els) :
    trace (rho g) = (irr.map fun i => trace (F.T.mat i g)).sum := by
  have hok : ∀ i ∈ irr, F.T.ok i = true := fun i hi => hF.ok i (h.mem i hi)
  rw [← trace_block hF.valid hok hg]
  have hr := irrepsBlock_rows hF.valid hok hg
  have hc := irrepsBlock_cols hF.valid hok hg
  have hPc : P.cols = (irr.map F.T.size).sum := by rw [← h.ortho.1, h.size]
  have e := h.mat g hg
  rw [trace_congr' e (by rw [e.1, e.2.1]; rfl)]
  rw [trace_congr' (mul_assoc' _ _ _) rfl]
  rw [trace_mul_comm' (n := (irr.map F.T.size).sum) (B := mul (blockDiag (irr.map fun i => F.T.mat i g)) (transpose P)) ⟨h.size, hPc⟩ ⟨hr, h.size⟩]
  have e2 := (mul_assoc' (blockDiag (irr.map fun i => F.T.mat i g)) (transpose P) P).trans ((mul_congr_right _ h.ortho.2.2 (by rw [hc]; exact hPc.symm)).trans (mul_eye' _ (by rw [hc, h.size])))
  exact trace_congr' e2 (by show (blockDiag _).rows = P.cols; rw [hr, hPc])

theorem Equivalent.linRep (hF : F.Law op one) {rho : G → NpMat ℝ} {P : NpMat ℝ} {irr : List Id} (h : Equivalent F rho P irr) : LinRep (· ∈ F.els) op one (irr.map F.T.size).sum rho := by
  have hok : ∀ i ∈ irr, F.T.ok i = true := fun i hi => hF.ok i (h.mem i hi)
  have hτ := irrepsBlock_orthoRep hF.valid hF.grp.one_mem hok
  have hPc : P.cols = (irr.map F.T.size).sum := by rw [← h.ortho.1, h.size]
  have hi := IsInv.of_ortho h.ortho
  have hm : ∀ g ∈ F.els, rho g ≈ conjBy P (irrepsBlock F.T irr g) (transpose P) := h.mat
  have hr : ∀ g ∈ F.els, (rho g).rows = (irr.map F.T.size).sum := fun g hg => by rw [(hm g hg).1]; exact h.size
  have hc : ∀ g ∈ F.els, (rho g).cols = (irr.map F.T.size).sum := fun g hg => by rw [(hm g hg).2.1]; exact h.size
  refine ⟨hr, hc, ?_, fun a b ha hb => ?_⟩
  · rw [← h.size]
    refine (hm one hF.grp.one_mem).trans (Eqv.trans (conjBy_congr (Eqv.refl P) ?_ (Eqv.refl _) ?_ ?_) (conjBy_eye hi))
    · rw [h.size]; exact hτ.map_one
    · rw [hPc, hτ.rows one hF.grp.one_mem]
    · rw [hτ.cols one hF.grp.one_mem]; exact hPc.symm
  · have hab := hF.grp.mul_mem a ha b hb
    refine (hm _ hab).trans ((conjBy_congr (Eqv.refl P) (hτ.map_mul a b ha hb) (Eqv.refl _) ?_ ?_).trans ?_)
    · rw [hPc, hτ.rows _ hab]
    · rw [hτ.cols _ hab]; exact hPc.symm
    · refine (conjBy_mul hi _ _ ?_ ?_ ?_ ?_).symm.trans (mul_congr (hm a ha) (hm b hb) ?_).symm
      · rw [h.size, hτ.rows a ha]
      · rw [h.size, hτ.cols a ha]
      · rw [h.size, hτ.rows b hb]
      · rw [h.size, hτ.cols b hb]
      · rw [hc a ha, hr b hb]

theorem multList_perm {ms ms' : List (Id × ℤ)} (h : ms.Perm ms') : (multList ms).Perm (multList ms') := List.Perm.flatMap_right _ h

/-- **C83** The multiplicities of a representation equivalent to a direct sum of irreps are how often the irreps occur in it; they are sorted by the ids. -/
theorem C83_multiplicities (hF : F.Law op one) {rho : G → NpMat ℝ} {P : NpMat ℝ} {irr : List Id} (h : Equivalent F rho P irr) :
    ∃ ms, multiplicitiesFinite F.els F.inv F.ids F.char F.sumsq F.le rho = .ok ms ∧ ms.Perm (F.ids.map fun i => (i, (irr.count i : ℤ))) ∧ ms.Pairwise (fun a b => F.le a.1 b.1 = true) ∧
      (multList ms).Perm irr := by
  have hm : ∀ i ∈ F.ids, innerChar F.els F.inv rho (F.char i) (F.sumsq i) = ((irr.count i : ℤ) : ℝ) := by
    intro i hi
    unfold innerChar
    have e1 : (F.els.map fun e => trace (rho e) * F.char i (F.inv e)).sum = (irr.map fun j => (F.els.map fun e => trace (F.T.mat j e) * F.char i (F.inv e)).sum).sum := by
      rw [List.map_congr_left (g := fun e => (irr.map fun j => trace (F.T.mat j e) * F.char i (F.inv e)).sum) fun e he => by
        rw [trace_equiv hF h he, List.sum_map_mul_right]]
      exact Multiset.sum_map_sum_map (F.els : Multiset G) (irr : Multiset Id) (f := fun e j => trace (F.T.mat j e) * F.char i (F.inv e))
    have e2 : (irr.map fun j => (F.els.map fun e => trace (F.T.mat j e) * F.char i (F.inv e)).sum) = irr.map fun j => if i = j then (F.els.length : ℝ) * F.sumsq i else 0 :=
      List.map_congr_left fun j hj => hF.orthogonal i hi j (h.mem j hj)
    have e3 : ∀ L : List Id, (L.map fun j => if i = j then (F.els.length : ℝ) * F.sumsq i else 0).sum = (L.count i : ℝ) * (F.els.length * F.sumsq i) := by
      intro L
      induction L with
      | nil => simp
      | cons j L ih =>
        rw [List.map_cons, List.sum_cons, ih, List.count_cons]
        by_cases hj : i = j
        · subst hj; simp; ring
        · have : ¬ j = i := fun e => hj e.symm
          simp [hj, this]
    have hpos : (0 : ℝ) < F.els.length * F.sumsq i := mul_pos (Nat.cast_pos.2 hF.grp.length_pos) (Nat.cast_pos.2 (hF.sumsq i hi))
    rw [e1, e2, e3, mul_div_cancel_right₀ _ hpos.ne']
    norm_cast
  refine ⟨(F.ids.map fun i => (i, (irr.count i : ℤ))).mergeSort fun a b => F.le a.1 b.1, ?_, List.mergeSort_perm _ _, ?_, ?_⟩
  · unfold multiplicitiesFinite
    rw [mapE_map (g := fun i => (i, (irr.count i : ℤ))) fun i hi => by rw [asInt_of (hm i hi)]; rfl]
    rfl
  · exact List.pairwise_mergeSort (fun a b c => hF.le_trans a.1 b.1 c.1) (fun a b => hF.le_total a.1 b.1) _
  · refine (multList_perm (List.mergeSort_perm _ _)).trans ?_
    rw [List.perm_iff_count]
    intro x
    unfold multList
    rw [List.flatMap_map]
    simp only [Int.toNat_natCast]
    rw [count_flatMap_replicate x F.ids hF.nodup]
    split_ifs with hx
    · rfl
    · exact (List.count_eq_zero.2 fun hi => hx (h.mem x hi)).symm

/-- The direct sum of the irreps of a list of ids of the group is a representation. -/
theorem block_linRep (hF : F.Law op one) {L : List Id} (hL : ∀ i ∈ L, F.T.ok i = true) : LinRep (· ∈ F.els) op one (L.map F.T.size).sum (irrepsBlock F.T L) :=
  (irrepsBlock_orthoRep hF.valid hF.grp.one_mem hL).toLinRep

theorem multiplicities_mem {rho : G → NpMat ℝ} {ms : List (Id × ℤ)} (h : multiplicitiesFinite F.els F.inv F.ids F.char F.sumsq F.le rho = .ok ms) : ∀ i ∈ multList ms, i ∈ F.ids := by
  obtain ⟨ns, h1, h2⟩ := ExRel.bind_ok h
  have e := Except.ok.inj h2
  subst e
  intro i hi
  obtain ⟨p, hp, hip⟩ := List.mem_flatMap.1 hi
  rw [List.mem_mergeSort] at hp
  rw [List.eq_of_mem_replicate hip]
  obtain ⟨j, hj, hjp⟩ := (List.forall₂_iff_get.1 (mapE_ok_iff.1 h1) |> fun ⟨hl, hg⟩ => by
    obtain ⟨k, hk, rfl⟩ := List.getElem_of_mem hp
    exact ⟨F.ids[k]'(by omega), List.getElem_mem _, hg k (by omega) hk⟩ : ∃ j ∈ F.ids, (do
      let m ← asInt (innerChar F.els F.inv rho (F.char j) (F.sumsq j))
      Except.ok (j, m)) = Except.ok p)
  obtain ⟨m, _, hm⟩ := ExRel.bind_ok hjp
  rw [← Except.ok.inj hm]
  exact hj

/-- **C83** Whatever the numerical routines return: if the decomposition of a representation of a finite group returns, then `rho(g) = D @ P(g) @ inv(D)` for every element `g`, where `P` is the
direct sum of the returned irreps. -/
theorem C83_finite_sound (hF : F.Law op one) (N : Numerics) {rho : G → NpMat ℝ} {d : ℕ} (hrho : LinRep (· ∈ F.els) op one d rho) {D : NpMat ℝ} {ms : List (Id × ℤ)}
    (h : decomposeFinite N F rho = .ok (D, ms)) :
    D.rows = d ∧ ((multList ms).map F.T.size).sum = d ∧ (∀ i ∈ multList ms, i ∈ F.ids) ∧
      ∃ Dinv, IsInv D Dinv ∧ ∀ g ∈ F.els, rho g ≈ mul (mul D (blockDiag ((multList ms).map fun i => F.T.mat i g))) Dinv := by
  obtain ⟨ms', h1, h2⟩ := ExRel.bind_ok h
  obtain ⟨D', h3, h4⟩ := ExRel.bind_ok h2
  obtain ⟨rfl, rfl⟩ := Prod.mk.inj (Except.ok.inj h4)
  have hmem := multiplicities_mem h1
  have hok : ∀ i ∈ multList ms', F.T.ok i = true := fun i hi => hF.ok i (hmem i hi)
  unfold changeOfBasisFinite at h3
  obtain ⟨B, hB, h5⟩ := ExRel.bind_ok h3
  cases hg : F.gens with
  | nil => rw [hg] at h5; cases h5
  | cons g gs =>
    rw [hg] at h5
    obtain ⟨D'', h6, h7⟩ := ExRel.bind_ok h5
    obtain ⟨Dinv, h8, h9⟩ := ExRel.bind_ok h7
    obtain ⟨_, h10, h11⟩ := ExRel.bind_ok h9
    have e := Except.ok.inj h11
    subst e
    have hinv := npInv_ok h8
    rw [← hg, checkCob_iff] at h10
    have hgE : g ∈ F.els := hF.gens g (by rw [hg]; simp)
    have hDd : D''.rows = d ∧ D''.cols = d := by
      have h6' := h6
      rw [hrho.rows g hgE, hrho.cols g hgE] at h6'
      unfold findOrthogonal at h6'
      dsimp only at h6'
      split_ifs at h6' <;> (rw [← Except.ok.inj h6']; exact ⟨rfl, rfl⟩)
    have hPr := irrepsBlock_rows hF.valid hok hgE
    have hsz : ((multList ms').map F.T.size).sum = d := by
      have := (h10 _ (List.mem_map_of_mem (show g ∈ F.gens by rw [hg]; simp))).1.1
      rw [hDd.2] at this
      rw [← hPr]; exact this.symm
    have hσ := block_linRep hF hok
    rw [hsz] at hσ
    have hS : ∀ x ∈ F.gens, x ∈ F.els ∧ mul (rho x) D'' ≈ mul D'' (irrepsBlock F.T (multList ms') x) := by
      intro x hx
      have hxE := hF.gens x hx
      refine ⟨hxE, ?_⟩
      rw [intertwine_conj hinv hDd.1 ⟨hrho.rows x hxE, hrho.cols x hxE⟩ ⟨hσ.rows x hxE, hσ.cols x hxE⟩]
      exact (h10 _ (List.mem_map_of_mem hx)).2
    refine ⟨hDd.1, hsz, hmem, Dinv, hinv, fun x hx => ?_⟩
    obtain ⟨w, hw, rfl⟩ := hF.generate x hx
    have key := intertwine_word hrho hσ hF.grp.one_mem (fun a b ha hb => hF.grp.mul_mem a ha b hb) hDd hS w one hw hF.grp.one_mem (intertwine_one hrho hσ hF.grp.one_mem hDd)
    exact (intertwine_conj hinv hDd.1 ⟨hrho.rows _ hx, hrho.cols _ hx⟩ ⟨hσ.rows _ hx, hσ.cols _ hx⟩).1 key.2

/-- **C83** With exact numerical routines the decomposition of a representation which is equivalent to a direct sum of irreps returns: the change of basis is orthogonal, and the irreps are those of the
direct sum, sorted. -/
theorem C83_finite_exact (hF : F.Law op one) {N : Numerics} (hN : NumExact N) (hg : F.gens ≠ []) {rho : G → NpMat ℝ} {P : NpMat ℝ} {irr : List Id} (h : Equivalent F rho P irr) :
    ∃ D ms, decomposeFinite N F rho = .ok (D, ms) ∧ IsOrtho D ∧ (multList ms).Perm irr ∧ ms.Pairwise (fun a b => F.le a.1 b.1 = true) ∧
      ∀ g ∈ F.els, rho g ≈ mul (mul D (blockDiag ((multList ms).map fun i => F.T.mat i g))) (transpose D) := by
  obtain ⟨ms, hms, hperm, hsorted, hmult⟩ := C83_multiplicities hF h
  have hok : ∀ i ∈ irr, F.T.ok i = true := fun i hi => hF.ok i (h.mem i hi)
  have hok' : ∀ i ∈ multList ms, F.T.ok i = true := fun i hi => hok i (hmult.mem_iff.1 hi)
  obtain ⟨d, hd⟩ : ∃ d, d = (irr.map F.T.size).sum := ⟨_, rfl⟩
  have hd' : ((multList ms).map F.T.size).sum = d := by rw [hd]; exact (hmult.map F.T.size).sum_eq
  have hσ := irrepsBlock_orthoRep hF.valid hF.grp.one_mem hok'
  rw [hd'] at hσ
  have hτ := irrepsBlock_orthoRep hF.valid hF.grp.one_mem hok
  rw [← hd] at hτ
  have hPr : P.rows = d := by rw [h.size, hd]
  have hPc : P.cols = d := by rw [← h.ortho.1, hPr]
  have hrs : ∀ g ∈ F.els, (rho g).rows = d ∧ (rho g).cols = d := fun g hg => by
    have e := h.mat g hg
    exact ⟨by rw [e.1]; exact hPr, by rw [e.2.1]; exact hPr⟩
  have hPint : ∀ g ∈ F.els, mul (rho g) P ≈ mul P (irrepsBlock F.T irr g) := fun g hg =>
    (intertwine_conj (IsInv.of_ortho h.ortho) hPr (hrs g hg) ⟨hτ.rows g hg, hτ.cols g hg⟩).2 (h.mat g hg)
  obtain ⟨Q, hQ, hQr, hQi⟩ := irrepsBlock_perm hF.valid hmult hok'
  rw [hd'] at hQr
  have hQc : Q.cols = d := by rw [← hQ.1, hQr]
  have hDo := mul_isOrtho h.ortho hQ (by rw [hPc, hQr])
  have hDi : ∀ g ∈ F.els, mul (rho g) (mul P Q) ≈ mul (mul P Q) (irrepsBlock F.T (multList ms) g) := by
    intro g hg
    refine (mul_assoc' _ _ _).symm.trans ((mul_congr_left Q (hPint g hg) (by rw [mul_cols, hPc, hQr])).trans ?_)
    refine (mul_assoc' _ _ _).trans ((mul_congr_right P (hQi g hg) ?_).trans (mul_assoc' _ _ _).symm)
    rw [hPc, mul_rows, hτ.rows g hg]
  have hz : ∀ p ∈ (F.gens.map rho).zip (F.gens.map (irrepsBlock F.T (multList ms))), ∃ g ∈ F.gens, p = (rho g, irrepsBlock F.T (multList ms) g) := by
    intro p hp
    rw [List.zip_map'] at hp
    obtain ⟨g, hg, rfl⟩ := List.mem_map.1 hp
    exact ⟨g, hg, rfl⟩
  obtain ⟨B, hB, hBr, hBs⟩ := findIntertwiner_exact hN (rho₁ := F.gens.map rho) (rho₂ := F.gens.map (irrepsBlock F.T (multList ms))) (d := d)
    (fun A hA => by obtain ⟨g, hg, rfl⟩ := List.mem_map.1 hA; exact hrs g (hF.gens g hg))
    (fun A hA => by obtain ⟨g, hg, rfl⟩ := List.mem_map.1 hA; exact ⟨hσ.rows g (hF.gens g hg), hσ.cols g (hF.gens g hg)⟩) (by simp) (by simpa using hg)
    hDo (by rw [mul_rows, hPr]) (fun p hp => by obtain ⟨g, hg, rfl⟩ := hz p hp; exact hDi g (hF.gens g hg))
  have hcol : ∃ v, unflatF d d v ≈ mul P Q := by
    refine ⟨fun a => (mul P Q).get (a % d) (a / d), hPr.symm, hQc.symm, fun i j hi hj => ?_⟩
    have hi : i < d := hi
    have hdp : 0 < d := by omega
    show (mul P Q).get ((j * d + i) % d) ((j * d + i) / d) = _
    rw [Nat.mul_comm, Nat.mul_add_div hdp, Nat.div_eq_of_lt hi, add_zero, Nat.mul_add_mod, Nat.mod_eq_of_lt hi]
  obtain ⟨v, hv⟩ := hcol
  have hvspan : InSpan B v := by
    rw [hBs]
    intro p hp
    obtain ⟨g, hg, rfl⟩ := hz p hp
    have hgE := hF.gens g hg
    exact ((mul_congr_right (rho g) hv (by rw [(hrs g hgE).2]; rfl)).trans (hDi g hgE)).trans (mul_congr_left _ hv.symm (by rw [mul_cols, hQc, hσ.rows g hgE]))
  obtain ⟨D, hD, hDor, hDr, w, hw, hDw⟩ := findOrthogonal_exact hN (B := N.orth B) (n := d) (by rw [hN.orth_rows, hBr]) ⟨v, (hN.orth B v).2 hvspan, hDo.of_eqv hv.symm⟩
  have hw' := (hBs w).1 ((hN.orth B w).1 hw)
  have hDc : D.cols = d := by rw [← hDor.1, hDr]
  have hDg : ∀ g ∈ F.gens, mul (rho g) D ≈ mul D (irrepsBlock F.T (multList ms) g) := by
    intro g hg
    have hgE := hF.gens g hg
    have := hw' (rho g, irrepsBlock F.T (multList ms) g) (by rw [List.zip_map']; exact List.mem_map.2 ⟨g, hg, rfl⟩)
    exact ((mul_congr_right (rho g) hDw (by rw [(hrs g hgE).2, hDr])).trans this).trans (mul_congr_left _ hDw.symm (by rw [hσ.rows g hgE]; rfl))
  obtain ⟨Dinv, hDinv, hinv, hinvT⟩ := npInv_of (IsInv.of_ortho hDor)
  have hcheck : checkCob D Dinv (F.gens.map fun g => (rho g, irrepsBlock F.T (multList ms) g)) = .ok () := by
    rw [checkCob_iff]
    intro p hp
    obtain ⟨g, hg, rfl⟩ := List.mem_map.1 hp
    have hgE := hF.gens g hg
    refine ⟨⟨by rw [hDc]; exact (hσ.rows g hgE).symm, ?_⟩, ?_⟩
    · rw [hinvT.1]; show (irrepsBlock F.T (multList ms) g).cols = D.cols; rw [hσ.cols g hgE, hDc]
    · exact (intertwine_conj hinv hDr (hrs g hgE) ⟨hσ.rows g hgE, hσ.cols g hgE⟩).1 (hDg g hg)
  have hdec : decomposeFinite N F rho = .ok (D, ms) := by
    unfold decomposeFinite
    rw [hms]
    simp only [bind, Except.bind]
    unfold changeOfBasisFinite
    rw [hB]
    simp only [bind, Except.bind]
    cases hgs : F.gens with
    | nil => exact absurd hgs hg
    | cons g gs =>
      have hgE : g ∈ F.els := hF.gens g (by rw [hgs]; simp)
      simp only
      rw [(hrs g hgE).1, (hrs g hgE).2, hD]
      simp only
      rw [hDinv]
      simp only
      rw [← hgs, hcheck]
  have hlin := h.linRep hF
  rw [← hd] at hlin
  obtain ⟨_, _, _, E, hE, hmat⟩ := C83_finite_sound hF N hlin hdec
  refine ⟨D, ms, hdec, hDor, hmult, hsorted, fun g hg => (hmat g hg).trans ?_⟩
  refine mul_congr_right _ (hE.unique (IsInv.of_ortho hDor)) ?_
  rw [mul_cols, hE.2.1, hDr]
  exact hσ.cols g hg

/-- **C83** Whatever the numerical routines return: a representation built from a dictionary is well-formed, and its matrices are those of the dictionary. -/
theorem C83_build_sound (hF : F.Law op one) (N : Numerics) {rho : G → NpMat ℝ} {d : ℕ} (hrho : LinRep (· ∈ F.els) op one d rho) {taken : List String} {name : String} {nonlin : Finset String} {r : Rep G Id}
    (h : buildFromDiscrete N F taken rho name nonlin = .ok r) : r.WF F.T (· ∈ F.els) ∧ r.mat = rho ∧ r.size = d ∧ r.name = name ∧ name ∉ taken ∧ r.nonlin = nonlin := by
  obtain ⟨⟨D, ms⟩, h1, h2⟩ := ExRel.bind_ok h
  obtain ⟨hr, hs, hm, E, hE, hmat⟩ := C83_finite_sound hF N hrho h1
  dsimp only at h2
  split_ifs at h2 with c1 c2 c3
  · obtain ⟨inv, h3, h4⟩ := ExRel.bind_ok h2
    cases h4
  obtain ⟨inv, h3, h4⟩ := ExRel.bind_ok h2
  have e := Except.ok.inj h4
  subst e
  have hinv := npInv_ok h3
  refine ⟨⟨?_, hinv, fun i hi => hF.ok i (hm i hi), by rw [hs]; exact hr.symm, fun g hg => ?_⟩, rfl, hr, rfl, c1, rfl⟩
  · exact c2.2
  · refine (hmat g hg).trans (mul_congr_right _ (hE.unique hinv) ?_)
    rw [mul_cols, hE.2.1, hr, ← hs]
    exact irrepsBlock_cols hF.valid (fun i hi => hF.ok i (hm i hi)) hg

/-- **C83** With exact numerical routines a representation equivalent to a direct sum of irreps is built under every free name: it has these irreps (sorted) and an orthogonal change of basis. -/
theorem C83_build_exact (hF : F.Law op one) {N : Numerics} (hN : NumExact N) (hg : F.gens ≠ []) {rho : G → NpMat ℝ} {P : NpMat ℝ} {irr : List Id} (h : Equivalent F rho P irr) (hpos : 0 < P.rows)
    {taken : List String} {name : String} (hname : name ∉ taken) (nonlin : Finset String) :
    ∃ r, buildFromDiscrete N F taken rho name nonlin = .ok r ∧ r.WF F.T (· ∈ F.els) ∧ r.mat = rho ∧ r.name = name ∧ r.irreps.Perm irr ∧ r.irreps.Pairwise (fun a b => F.le a b = true) ∧ IsOrtho r.cob := by
  obtain ⟨D, ms, h1, hD, hp, hs, hm⟩ := C83_finite_exact hF hN hg h
  obtain ⟨hr, hsz, _⟩ := C83_finite_sound hF N (h.linRep hF) h1
  obtain ⟨inv, h2, _⟩ := npInv_of (IsInv.of_ortho hD)
  have hb : buildFromDiscrete N F taken rho name nonlin = .ok ⟨name, multList ms, D, inv, rho, nonlin⟩ := by
    unfold buildFromDiscrete
    rw [h1]
    simp only [bind, Except.bind]
    rw [if_neg hname, if_neg (not_not.2 ⟨hD.1, by rw [hr, ← h.size]; exact hpos⟩), h2]
    simp only
    rw [if_neg]
    rintro ⟨_, h3⟩
    exact h3 (by rw [irrepsSize, hsz, hr])
  refine ⟨_, hb, (C83_build_sound hF N (h.linRep hF) hb).1, rfl, rfl, hp, ?_, hD⟩
  show (ms.flatMap fun im => List.replicate im.2.toNat im.1).Pairwise _
  rw [List.pairwise_flatMap]
  refine ⟨fun a _ => ?_, hs.imp fun {a b} hab x hx y hy => ?_⟩
  · rw [List.pairwise_replicate]
    exact Or.inr (by simpa using hF.le_total a.1 a.1)
  · rw [List.eq_of_mem_replicate hx, List.eq_of_mem_replicate hy]
    exact hab

/-- **C83** (violated) A group without generators: no representation is ever built, an assertion fails. -/
theorem C83_trivial_group_violated (N : Numerics) (rho : ℤ → NpMat ℝ) (taken : List String) (name : String) (nonlin : Finset String) :
    buildFromDiscrete N (cyclicData 1) taken rho name nonlin = .error .assertion := by
  have key : decomposeFinite N (cyclicData 1) rho = .error .assertion := by
    unfold decomposeFinite multiplicitiesFinite
    have hg : (cyclicData 1).gens = [] := rfl
    have hi : (cyclicData 1).ids = [0] := rfl
    rw [hg, hi]
    simp only [mapE]
    unfold asInt
    split_ifs
    · rfl
    · rfl
  unfold buildFromDiscrete
  rw [key]
  rfl

end Escnn
