import Verif.Props.C14_DirectSum
import Verif.Props.C12_RestrictIrrep
import Verif.Props.C01_Cyclic
import Verif.Props.C02_Dihedral
import Verif.Props.C03_SO2O2

/-!
# C13 — restricting a representation is composition with the inclusion
-/

namespace Escnn

open NpMat

variable {G Id H Id' : Type}

/-- `_restrict_irrep(·, id)` is correct for the subgroup with inclusion `parent` (C12). -/
def RestrictsCorrectly (T : IrrepTable G Id) (S : IrrepTable H Id') (ElH : H → Prop) (parent : H → Except Err G)
    (restrictIrrep : Id → Except Err (NpMat ℝ × List Id')) : Prop :=
  ∀ i, T.ok i = true → ∃ Q L, restrictIrrep i = .ok (Q, L) ∧ (∀ f ∈ L, S.ok f = true) ∧
    IsRestriction (T.size i) (T.mat i) ElH parent Q (fun h => L.map fun f => S.mat f h)

theorem isOrtho_diag2 {A B : NpMat ℝ} (h : IsOrtho A) (h' : IsOrtho B) : IsOrtho (diag2 A B) := by
  obtain ⟨h1, h2, h3⟩ := h
  obtain ⟨k1, k2, k3⟩ := h'
  refine ⟨by simp [h1, k1], ?_, ?_⟩
  · refine (mul_congr_right _ (diag2_transpose A B) (by simp [h1, k1])).trans ?_
    exact (diag2_mul _ _ _ _ rfl).trans ((diag2_congr h2 k2).trans (diag2_eye _ _))
  · refine (mul_congr_left _ (diag2_transpose A B) (by simp [h1, k1])).trans ?_
    exact (diag2_mul _ _ _ _ rfl).trans ((diag2_congr h3 k3).trans (diag2_eye _ _))

theorem restrictLoop_spec {T : IrrepTable G Id} {S : IrrepTable H Id'} {ElH : H → Prop} {parent : H → Except Err G}
    {restrictIrrep : Id → Except Err (NpMat ℝ × List Id')} (hR : RestrictsCorrectly T S ElH parent restrictIrrep)
    (L : List Id) (hL : ∀ i ∈ L, T.ok i = true) :
    ∃ Cs ids, restrictLoop T restrictIrrep L = .ok (Cs, ids) ∧ (∀ f ∈ ids, S.ok f = true) ∧
      IsRestriction (L.map T.size).sum (fun g => blockDiag (L.map fun i => T.mat i g)) ElH parent (blockDiag Cs)
        (fun h => ids.map fun f => S.mat f h) := by
  induction L with
  | nil =>
    refine ⟨[], [], rfl, by simp, rfl, ?_, fun _ _ => rfl, fun _ _ => rfl, fun h g _ _ => ?_⟩
    · exact ⟨rfl, ⟨rfl, rfl, fun i j hi => absurd hi (Nat.not_lt_zero i)⟩,
        ⟨rfl, rfl, fun i j hi => absurd hi (Nat.not_lt_zero i)⟩⟩
    · exact ⟨rfl, rfl, fun i j hi => absurd hi (Nat.not_lt_zero i)⟩
  | cons i L ih =>
    obtain ⟨C, ids, h1, h2, h3⟩ := hR i (hL i (by simp))
    obtain ⟨Cs, ids', k1, k2, k3⟩ := ih fun j hj => hL j (by simp [hj])
    have hCc : C.cols = T.size i := by rw [← h3.ortho.1, h3.rows]
    have hCsc : (blockDiag Cs).cols = (L.map T.size).sum := by rw [← k3.ortho.1, k3.rows]
    refine ⟨C :: Cs, ids ++ ids', ?_, ?_, ?_⟩
    · simp only [restrictLoop, h1, k1]
      rw [if_neg (not_not.2 ⟨h3.rows, hCc⟩)]
    · intro f hf
      rcases List.mem_append.1 hf with hf | hf
      · exact h2 f hf
      · exact k2 f hf
    · have ha : ∀ h, blockDiag ((ids ++ ids').map fun f => S.mat f h) ≈
          diag2 (blockDiag (ids.map fun f => S.mat f h)) (blockDiag (ids'.map fun f => S.mat f h)) := fun h => by
        rw [List.map_append]; exact blockDiag_append _ _
      refine ⟨?_, isOrtho_diag2 h3.ortho k3.ortho, fun h hh => ?_, fun h hh => ?_, fun h g hh hp => ?_⟩
      · simp [blockDiag, h3.rows, k3.rows]
      · rw [(ha h).1]; simp [h3.block_rows h hh, k3.block_rows h hh]
      · rw [(ha h).2.1]; simp [h3.block_cols h hh, k3.block_cols h hh]
      · refine (diag2_congr (h3.restrict h g hh hp) (k3.restrict h g hh hp)).trans ?_
        refine (diag2_conjBy C _ (transpose C) (blockDiag Cs) _ (transpose (blockDiag Cs)) ?_ ?_ ?_ ?_).trans ?_
        · rw [hCc, h3.block_rows h hh]
        · rw [h3.block_cols h hh, transpose_rows, hCc]
        · rw [hCsc, k3.block_rows h hh]
        · rw [k3.block_cols h hh, transpose_rows, hCsc]
        · refine conjBy_congr (Eqv.refl _) (ha h).symm (diag2_transpose _ _).symm ?_ ?_
          · simp only [diag2_rows, diag2_cols, h3.block_rows h hh, k3.block_rows h hh, hCc, hCsc]
          · simp only [diag2_rows, diag2_cols, h3.block_cols h hh, k3.block_cols h hh, transpose_rows, hCc, hCsc]

/-- **C13** for any group, subgroup and representation object: `restrict` never raises under a fresh name, keeps the size, and
`restrict(rho)(h) = rho(parent(h))`. -/
theorem C13_restrict (T : IrrepTable G Id) (S : IrrepTable H Id') (El : G → Prop) (ElH : H → Prop) (opH : H → H → H) (oneH : H)
    (parent : H → Except Err G) (restrictIrrep : Id → Except Err (NpMat ℝ × List Id'))
    (op : G → G → G) (one : G) (hT : T.Valid El op one) (hS : S.Valid ElH opH oneH) (honeH : ElH oneH)
    (hpar : ∀ h g, ElH h → parent h = .ok g → El g)
    (hR : RestrictsCorrectly T S ElH parent restrictIrrep)
    (taken : List String) (gname : String) (trivial : Id') (r : Rep G Id) (hwf : r.WF T El)
    (hname : gname ++ ":" ++ r.name ∉ taken) :
    ∃ r', restrictRep T S taken gname trivial restrictIrrep r = .ok r' ∧ r'.WF S ElH ∧ r'.size = r.size ∧
      r.nonlin ⊆ r'.nonlin ∧ ∀ h g, ElH h → parent h = .ok g → r'.mat h ≈ r.mat g := by
  obtain ⟨Cs, ids, h1, h2, h3⟩ := restrictLoop_spec hR r.irreps hwf.ok
  have hCr : (blockDiag Cs).rows = r.size := by rw [h3.rows, hwf.size]
  have hc : r.cob.cols = (blockDiag Cs).rows := by rw [hwf.cob_cols, hCr]
  have hinv := hwf.inv.mul (IsInv.of_ortho h3.ortho) hc
  have hids : (ids.map S.size).sum = r.size := by
    rw [← irrepsBlock_rows hS h2 honeH, h3.block_rows oneH honeH, hwf.size]
  obtain ⟨r', hr, hrwf, hn, hir, hcb, hci, hnl⟩ := C14_constructor hS taken (gname ++ ":" ++ r.name) ids
    (mul r.cob (blockDiag Cs)) _ r.nonlin hname (by rw [mul_rows]; exact hwf.pos) hinv h2 hids false
  have hmat : ∀ h g, ElH h → parent h = .ok g → r'.mat h ≈ r.mat g := by
    intro h g hh hp
    have hg := hpar h g hh hp
    have e := hrwf.mat h hh
    rw [hir, hcb] at e
    have hbr := (h3.block_rows h hh).trans hwf.size
    have hbc := (h3.block_cols h hh).trans hwf.size
    have hCc : (blockDiag Cs).cols = r.size := by rw [← h3.ortho.1, hCr]
    refine e.trans ((conjBy_congr (Eqv.refl _) (Eqv.refl _) hci ?_ ?_).trans ?_)
    · rw [mul_cols, hCc, hbr]
    · rw [hbc, hci.1, mul_rows, transpose_rows, hCc]
    · refine (conjBy_conjBy r.cob (blockDiag Cs) _ (transpose (blockDiag Cs)) r.cobInv hc ?_ ?_).symm.trans ?_
      · rw [transpose_cols, hCr, hwf.inv_rows]
      · rw [hbc, transpose_rows, hCc]
      · refine (conjBy_congr (Eqv.refl _) (h3.restrict h g hh hp).symm (Eqv.refl _) ?_ ?_).trans (hwf.mat g hg).symm
        · exact hc
        · rw [mul_cols, transpose_cols, hCr, hwf.inv_rows]
  have hsz : r'.size = r.size := by rw [Rep.size, hcb]; rfl
  unfold restrictRep
  simp only [h1]
  simp only [Bool.false_eq_true, if_false] at hr
  simp only [hr]
  split
  · exact ⟨_, rfl, ⟨hrwf.pos, hrwf.inv, hrwf.ok, hrwf.size, hrwf.mat⟩, hsz,
      by rw [← hnl]; exact Finset.subset_insert _ _, hmat⟩
  · exact ⟨_, rfl, hrwf, hsz, by rw [hnl], hmat⟩

/-! ### Instances: every subgroup family of C_N, D_N, SO(2), O(2) -/

theorem O2.reduce_isElement (e : O2.Elem) (h : e.1 = 0 ∨ e.1 = 1) : O2.IsElement (O2.reduce e) :=
  ⟨h, mod2pi_nonneg _, mod2pi_lt _⟩

theorem O2.isElement_of_element {e g : O2.Elem} (h : O2.element e = .ok g) : O2.IsElement g := by
  obtain ⟨h1, rfl⟩ := O2.element_eq_ok h
  exact O2.reduce_isElement e h1

theorem SO2.parentMap_isElement (M : ℕ) (h : ℤ) : SO2.IsElement (SO2.parentMap M h) := ⟨mod2pi_nonneg _, mod2pi_lt _⟩

theorem O2.selfParent_isElement (axis : ℝ) (e : O2.Elem) (h : O2.IsElement e) : O2.IsElement (O2.selfParent axis e) := by
  have := selfParent_reduce axis e.1 h.1 e.2
  rw [show (e.1, e.2) = e from rfl, O2.reduce_of_isElement h] at this
  rw [this]; exact O2.reduce_isElement _ h.1

theorem Cyclic.isElement_zero {M : ℕ} (hM : 0 < M) : isElement M identity = true := by
  simp [isElement, identity, hM]

/-- **C13** `C_N → C_M`. -/
theorem C13_cyclic (N M : ℕ) (hN : 0 < N) (hok : Cyclic.subgroupIdOk N M = true) (taken : List String) (gname : String)
    (r : Rep ℤ ℕ) (hwf : r.WF (Cyclic.table N) (fun e => Cyclic.isElement N e = true)) (hname : gname ++ ":" ++ r.name ∉ taken) :
    ∃ r', restrictRep (Cyclic.table N) (Cyclic.table M) taken gname 0 (fun k => Cyclic.restrictIrrep N k M) r = .ok r' ∧
      r'.WF (Cyclic.table M) (fun e => Cyclic.isElement M e = true) ∧ r'.size = r.size ∧ r.nonlin ⊆ r'.nonlin ∧
      ∀ h g, Cyclic.isElement M h = true → Cyclic.parentMap N M h = .ok g → r'.mat h ≈ r.mat g := by
  obtain ⟨hM, hd⟩ : 0 < M ∧ N % M = 0 := by simpa [Cyclic.subgroupIdOk] using hok
  refine C13_restrict _ _ _ _ _ _ _ _ _ _ (Cyclic.table_valid N hN) (Cyclic.table_valid M hM) (Cyclic.isElement_zero hM)
    (fun h g hh hp => ?_) (fun i hi => ?_) taken gname 0 r hwf hname
  · obtain ⟨he, rfl⟩ := Cyclic.element_eq_ok_iff.1 hp; exact he
  · obtain ⟨Q, L, h1, h2, h3⟩ := Cyclic.C12_cyclic N i M hN (by simpa [Cyclic.table] using hi) hok
    exact ⟨Q, L, h1, fun f hf => by simpa [Cyclic.table] using h2 f hf, h3⟩

/-- **C13** `D_N → C_M`. -/
theorem C13_dihedral_rot (N M : ℕ) (hN : 0 < N) (hid : Dihedral.subgroupIdOk N (none, M) = true) (taken : List String) (gname : String)
    (r : Rep Dihedral.Elem (ℕ × ℕ)) (hwf : r.WF (Dihedral.table N) (fun e => Dihedral.isElement N e = true)) (hname : gname ++ ":" ++ r.name ∉ taken) :
    ∃ r', restrictRep (Dihedral.table N) (Cyclic.table M) taken gname 0 (fun i => .ok (Dihedral.restrictRot N i.1 i.2 M)) r = .ok r' ∧
      r'.WF (Cyclic.table M) (fun e => Cyclic.isElement M e = true) ∧ r'.size = r.size ∧ r.nonlin ⊆ r'.nonlin ∧
      ∀ h g, (fun e => Cyclic.isElement M e = true) h → (Dihedral.cnToDn N M) h = .ok g → r'.mat h ≈ r.mat g := by
  obtain ⟨hM, hd⟩ : 1 ≤ M ∧ N % M = 0 := by simpa [Dihedral.subgroupIdOk] using hid
  refine C13_restrict _ _ _ (fun e => Cyclic.isElement M e = true) _ _ (Dihedral.cnToDn N M) _ _ _ (Dihedral.table_valid N hN) (Cyclic.table_valid M hM) (Cyclic.isElement_zero hM)
    (fun h g hh hp => ?_) (fun i hi => ?_) taken gname 0 r hwf hname
  · obtain ⟨he, rfl⟩ := Dihedral.element_eq_ok_iff.1 hp; exact he
  · have := Dihedral.C12_dihedral_rot N i.1 i.2 M hN hi hid
    exact ⟨_, _, rfl, fun f hf => by simpa [Cyclic.table] using this.1 f hf, this.2⟩

/-- **C13** `D_N → C_2` (a reflection). -/
theorem C13_dihedral_flip (N : ℕ) (axis : ℤ) (hN : 0 < N) (hid : Dihedral.subgroupIdOk N (some axis, 1) = true) (taken : List String) (gname : String)
    (r : Rep Dihedral.Elem (ℕ × ℕ)) (hwf : r.WF (Dihedral.table N) (fun e => Dihedral.isElement N e = true)) (hname : gname ++ ":" ++ r.name ∉ taken) :
    ∃ r', restrictRep (Dihedral.table N) (Cyclic.table 2) taken gname 0 (fun i => .ok (Dihedral.restrictFlip N i.1 i.2 axis)) r = .ok r' ∧
      r'.WF (Cyclic.table 2) (fun e => Cyclic.isElement 2 e = true) ∧ r'.size = r.size ∧ r.nonlin ⊆ r'.nonlin ∧
      ∀ h g, (fun e => Cyclic.isElement 2 e = true) h → (Dihedral.flipToDn N axis) h = .ok g → r'.mat h ≈ r.mat g := by
  have h2 : 0 < 2 := two_pos
  refine C13_restrict _ _ _ (fun e => Cyclic.isElement 2 e = true) _ _ (Dihedral.flipToDn N axis) _ _ _ (Dihedral.table_valid N hN) (Cyclic.table_valid 2 h2) (Cyclic.isElement_zero h2)
    (fun h g hh hp => ?_) (fun i hi => ?_) taken gname 0 r hwf hname
  · by_cases h0 : h = 0
    · simp only [Dihedral.flipToDn, h0, if_true, Except.ok.injEq] at hp
      subst hp; simp [Dihedral.identity, Dihedral.isElement, hN]
    · simp only [Dihedral.flipToDn, h0, if_false] at hp
      obtain ⟨he, rfl⟩ := Dihedral.element_eq_ok_iff.1 hp; exact he
  · have := Dihedral.C12_dihedral_flip N i.1 i.2 axis hN hi hid
    exact ⟨_, _, rfl, fun f hf => by simpa [Cyclic.table] using this.1 f hf, this.2⟩

/-- **C13** `D_N → D_M`. -/
theorem C13_dihedral_dih (N M : ℕ) (axis : ℤ) (hN : 0 < N) (hid : Dihedral.subgroupIdOk N (some axis, M) = true) (taken : List String) (gname : String)
    (r : Rep Dihedral.Elem (ℕ × ℕ)) (hwf : r.WF (Dihedral.table N) (fun e => Dihedral.isElement N e = true)) (hname : gname ++ ":" ++ r.name ∉ taken) :
    ∃ r', restrictRep (Dihedral.table N) (Dihedral.table M) taken gname (0, 0) (fun i => .ok (Dihedral.restrictDih N i.1 i.2 M axis)) r = .ok r' ∧
      r'.WF (Dihedral.table M) (fun e => Dihedral.isElement M e = true) ∧ r'.size = r.size ∧ r.nonlin ⊆ r'.nonlin ∧
      ∀ h g, (fun e => Dihedral.isElement M e = true) h → (Dihedral.dmToDn N M axis) h = .ok g → r'.mat h ≈ r.mat g := by
  obtain ⟨⟨hM, hd⟩, -⟩ : (1 ≤ M ∧ N % M = 0) ∧ _ := by simpa [Dihedral.subgroupIdOk] using hid
  refine C13_restrict _ _ _ (fun e => Dihedral.isElement M e = true) _ _ (Dihedral.dmToDn N M axis) _ _ _ (Dihedral.table_valid N hN) (Dihedral.table_valid M hM) (by simp [Dihedral.identity, Dihedral.isElement]; omega)
    (fun h g hh hp => ?_) (fun i hi => ?_) taken gname (0, 0) r hwf hname
  · obtain ⟨he, rfl⟩ := Dihedral.element_eq_ok_iff.1 hp; exact he
  · have := Dihedral.C12_dihedral_dih N i.1 i.2 M axis hN hi hid
    exact ⟨_, _, rfl, fun f hf => this.1 f hf, this.2⟩

/-- **C13** `SO(2) → C_M`. -/
theorem C13_so2 (M : ℕ) (hM : 0 < M) (taken : List String) (gname : String)
    (r : Rep ℝ ℕ) (hwf : r.WF SO2.table SO2.IsElement) (hname : gname ++ ":" ++ r.name ∉ taken) :
    ∃ r', restrictRep SO2.table (Cyclic.table M) taken gname 0 (fun k => SO2.restrictIrrep k M) r = .ok r' ∧
      r'.WF (Cyclic.table M) (fun e => Cyclic.isElement M e = true) ∧ r'.size = r.size ∧ r.nonlin ⊆ r'.nonlin ∧
      ∀ h g, (fun e => Cyclic.isElement M e = true) h → SO2.parentMap M h = g → r'.mat h ≈ r.mat g := by
  have hpi := Real.pi_pos
  have hR : RestrictsCorrectly SO2.table (Cyclic.table M) (fun e => Cyclic.isElement M e = true)
      (fun h => .ok (SO2.parentMap M h)) (fun k => SO2.restrictIrrep k M) := fun i hi => by
    obtain ⟨Q, L, h1, h2, h3⟩ := SO2.C12_so2 i M hM
    exact ⟨Q, L, h1, fun f hf => by simpa [Cyclic.table] using h2 f hf, h3⟩
  obtain ⟨r', h1, h2, h3, h4, h5⟩ := C13_restrict _ _ _ (fun e => Cyclic.isElement M e = true) _ _ (fun h => .ok (SO2.parentMap M h)) _ _ _ SO2.table_valid (Cyclic.table_valid M hM) (Cyclic.isElement_zero hM)
    (fun h g hh hp => by
      simp only [Except.ok.injEq] at hp; subst hp; exact SO2.parentMap_isElement M h) hR taken gname 0 r hwf hname
  exact ⟨r', h1, h2, h3, h4, fun h g hh hp => h5 h g hh (by rw [hp])⟩

/-- **C13** `O(2) → SO(2)`. -/
theorem C13_o2_so2  (taken : List String) (gname : String)
    (r : Rep O2.Elem (ℕ × ℕ)) (hwf : r.WF O2.table O2.IsElement) (hname : gname ++ ":" ++ r.name ∉ taken) :
    ∃ r', restrictRep O2.table SO2.table taken gname 0 (fun i => .ok (O2.restrictSO2 i.1 i.2)) r = .ok r' ∧
      r'.WF SO2.table SO2.IsElement ∧ r'.size = r.size ∧ r.nonlin ⊆ r'.nonlin ∧
      ∀ h g, SO2.IsElement h → O2.so2ToO2 h = .ok g → r'.mat h ≈ r.mat g := by
  have hpi := Real.pi_pos
  refine C13_restrict _ _ _ SO2.IsElement _ _ O2.so2ToO2 _ _ _ O2.table_valid SO2.table_valid ⟨le_rfl, Real.two_pi_pos⟩
    (fun h g hh hp => ?_) (fun i hi => ?_) taken gname 0 r hwf hname
  · exact O2.isElement_of_element hp
  · exact ⟨_, _, rfl, fun f hf => rfl, O2.C12_o2_so2 i.1 i.2 hi⟩

/-- **C13** `O(2) → C_M`. -/
theorem C13_o2_rot (M : ℕ) (hM : 0 < M) (taken : List String) (gname : String)
    (r : Rep O2.Elem (ℕ × ℕ)) (hwf : r.WF O2.table O2.IsElement) (hname : gname ++ ":" ++ r.name ∉ taken) :
    ∃ r', restrictRep O2.table (Cyclic.table M) taken gname 0 (fun i => .ok (O2.restrictRot i.1 i.2 M)) r = .ok r' ∧
      r'.WF (Cyclic.table M) (fun e => Cyclic.isElement M e = true) ∧ r'.size = r.size ∧ r.nonlin ⊆ r'.nonlin ∧
      ∀ h g, (fun e => Cyclic.isElement M e = true) h → (fun h => O2.so2ToO2 (Cyclic.radians M h)) h = .ok g → r'.mat h ≈ r.mat g := by
  have hpi := Real.pi_pos
  refine C13_restrict _ _ _ (fun e => Cyclic.isElement M e = true) _ _ (fun h => O2.so2ToO2 (Cyclic.radians M h)) _ _ _ O2.table_valid (Cyclic.table_valid M hM) (Cyclic.isElement_zero hM)
    (fun h g hh hp => ?_) (fun i hi => ?_) taken gname 0 r hwf hname
  · exact O2.isElement_of_element hp
  · have := O2.C12_o2_rot i.1 i.2 M hM hi
    exact ⟨_, _, rfl, fun f hf => by simpa [Cyclic.table] using this.1 f hf, this.2⟩

/-- **C13** `O(2) → C_2` (a reflection). -/
theorem C13_o2_flip (axis : ℝ) (taken : List String) (gname : String)
    (r : Rep O2.Elem (ℕ × ℕ)) (hwf : r.WF O2.table O2.IsElement) (hname : gname ++ ":" ++ r.name ∉ taken) :
    ∃ r', restrictRep O2.table (Cyclic.table 2) taken gname 0 (fun i => .ok (O2.restrictFlip i.1 i.2 axis)) r = .ok r' ∧
      r'.WF (Cyclic.table 2) (fun e => Cyclic.isElement 2 e = true) ∧ r'.size = r.size ∧ r.nonlin ⊆ r'.nonlin ∧
      ∀ h g, (fun e => Cyclic.isElement 2 e = true) h → (O2.flipToO2 axis) h = .ok g → r'.mat h ≈ r.mat g := by
  have h2 : 0 < 2 := two_pos
  refine C13_restrict _ _ _ (fun e => Cyclic.isElement 2 e = true) _ _ (O2.flipToO2 axis) _ _ _ O2.table_valid (Cyclic.table_valid 2 h2) (Cyclic.isElement_zero h2)
    (fun h g hh hp => ?_) (fun i hi => ?_) taken gname 0 r hwf hname
  · by_cases h0 : h = 0
    · simp only [O2.flipToO2, h0, if_true, Except.ok.injEq] at hp
      subst hp; exact ⟨.inl rfl, le_rfl, Real.two_pi_pos⟩
    · simp only [O2.flipToO2, h0, if_false] at hp
      exact O2.isElement_of_element hp
  · have := O2.C12_o2_flip i.1 i.2 axis hi
    exact ⟨_, _, rfl, fun f hf => by simpa [Cyclic.table] using this.1 f hf, this.2⟩

/-- **C13** `O(2) → D_M`. -/
theorem C13_o2_dih (M : ℕ) (axis : ℝ) (hM : 0 < M) (taken : List String) (gname : String)
    (r : Rep O2.Elem (ℕ × ℕ)) (hwf : r.WF O2.table O2.IsElement) (hname : gname ++ ":" ++ r.name ∉ taken) :
    ∃ r', restrictRep O2.table (Dihedral.table M) taken gname (0, 0) (fun i => .ok (O2.restrictDih i.1 i.2 M axis)) r = .ok r' ∧
      r'.WF (Dihedral.table M) (fun e => Dihedral.isElement M e = true) ∧ r'.size = r.size ∧ r.nonlin ⊆ r'.nonlin ∧
      ∀ h g, (fun e => Dihedral.isElement M e = true) h → (O2.dnToO2 M axis) h = .ok g → r'.mat h ≈ r.mat g := by
  have hpi := Real.pi_pos
  refine C13_restrict _ _ _ (fun e => Dihedral.isElement M e = true) _ _ (O2.dnToO2 M axis) _ _ _ O2.table_valid (Dihedral.table_valid M hM) (by simp [Dihedral.identity, Dihedral.isElement]; omega)
    (fun h g hh hp => ?_) (fun i hi => ?_) taken gname (0, 0) r hwf hname
  · exact O2.isElement_of_element hp
  · have := O2.C12_o2_dih i.1 i.2 M axis hM hi
    exact ⟨_, _, rfl, fun f hf => this.1 f hf, this.2⟩

/-- **C13** `O(2) → O(2)` with another axis. -/
theorem C13_o2_self (axis : ℝ) (taken : List String) (gname : String)
    (r : Rep O2.Elem (ℕ × ℕ)) (hwf : r.WF O2.table O2.IsElement) (hname : gname ++ ":" ++ r.name ∉ taken) :
    ∃ r', restrictRep O2.table O2.table taken gname (0, 0) (fun i => .ok (O2.restrictSelf i.1 i.2 axis)) r = .ok r' ∧
      r'.WF O2.table O2.IsElement ∧ r'.size = r.size ∧ r.nonlin ⊆ r'.nonlin ∧
      ∀ h g, O2.IsElement h → O2.selfParent axis h = g → r'.mat h ≈ r.mat g := by
  have hpi := Real.pi_pos
  have hR : RestrictsCorrectly O2.table O2.table O2.IsElement (fun e => .ok (O2.selfParent axis e))
      (fun i => .ok (O2.restrictSelf i.1 i.2 axis)) := fun i hi => by
    refine ⟨_, _, rfl, fun f hf => ?_, O2.C12_o2_self i.1 i.2 axis hi⟩
    simp only [O2.restrictSelf, List.mem_singleton] at hf
    subst hf; exact hi
  obtain ⟨r', h1, h2, h3, h4, h5⟩ := C13_restrict _ _ _ O2.IsElement _ _ (fun e => .ok (O2.selfParent axis e)) _ _ _ O2.table_valid O2.table_valid ⟨.inl rfl, le_rfl, Real.two_pi_pos⟩
    (fun h g hh hp => by
      simp only [Except.ok.injEq] at hp; subst hp; exact O2.selfParent_isElement axis h hh) hR taken gname (0, 0) r hwf hname
  exact ⟨r', h1, h2, h3, h4, fun h g hh hp => h5 h g hh (by rw [hp])⟩

/-- A concrete case: the direct sum of frequencies 1 and 2 of `C_6`, restricted to `C_3`. -/
example : ∃ r : Rep ℤ ℕ, r.WF (Cyclic.table 6) (fun e => Cyclic.isElement 6 e = true) ∧ r.irreps = [1, 2] ∧
    Cyclic.subgroupIdOk 6 3 = true := by
  obtain ⟨r, h, hwf, -, hir, -⟩ := C14_constructor (Cyclic.table_valid 6 (by norm_num)) [] "r" [1, 2] (eye 4) (eye 4) ∅ (by simp)
    (by simp) (IsInv.eye 4) (by simp [Cyclic.table]) (by simp [Cyclic.table, Cyclic.irrepSize]) false
  exact ⟨r, hwf, hir, by decide⟩

end Escnn
