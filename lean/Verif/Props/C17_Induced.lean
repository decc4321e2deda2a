import Verif.Model.Induced
import Verif.Props.C18_Endo
import Verif.Props.C16_Regular
import Verif.Props.C13_RestrictRep
import Verif.Props.C05_CyclicSubgroups
import Mathlib.Data.List.Perm.Subperm
import Verif.Lemmas.Regular

/-!
# C17 — quotient and induced representations
-/

namespace Escnn

open NpMat

variable {G H Id Id' : Type}

/-- `M` is the matrix, in the basis indexed by (representative, basis vector of `psi`), of the action of `g` on the representation
induced from `psi`: block `(i, j)` is `psi(h)` if `g r_j = r_i h` with `h` in the subgroup, and zero otherwise. -/
def IsInducedAction (mulG : G → G → G) (ElH : H → Prop) (parent : H → G) (psi : H → NpMat ℝ) (d : ℕ) (reps : List G) (g : G)
    (M : NpMat ℝ) : Prop :=
  M.rows = reps.length * d ∧ M.cols = reps.length * d ∧
  ∀ (i j p q : ℕ) (hi : i < reps.length) (hj : j < reps.length), p < d → q < d →
    (∀ h, ElH h → mulG g reps[j] = mulG reps[i] (parent h) → M.get (i * d + p) (j * d + q) = (psi h).get p q) ∧
    ((∀ h, ElH h → mulG g reps[j] ≠ mulG reps[i] (parent h)) → M.get (i * d + p) (j * d + q) = 0)

/-! ### bilinear forms of block diagonal arrays -/

/-- `uᵀ A w` -/
noncomputable def bform (A : NpMat ℝ) (u w : ℕ → ℝ) : ℝ :=
  ∑ i ∈ Finset.range A.rows, ∑ j ∈ Finset.range A.cols, u i * A.get i j * w j

theorem bform_congr {A B : NpMat ℝ} {u u' w w' : ℕ → ℝ} (h : A ≈ B) (hv : ∀ i, i < A.rows → u i = u' i)
    (hv' : ∀ i, i < A.cols → w i = w' i) : bform A u w = bform B u' w' := by
  unfold bform
  rw [← h.1, ← h.2.1]
  refine Finset.sum_congr rfl fun i hi => Finset.sum_congr rfl fun j hj => ?_
  rw [Finset.mem_range] at hi hj
  rw [h.2.2 i j hi hj, hv i hi, hv' j hj]

theorem bform_diag2 (A B : NpMat ℝ) (u w : ℕ → ℝ) :
    bform (diag2 A B) u w = bform A u w + bform B (fun t => u (A.rows + t)) (fun t => w (A.cols + t)) := by
  unfold bform
  simp only [diag2_rows, diag2_cols, Finset.sum_range_add, diag2]
  congr 1
  · refine Finset.sum_congr rfl fun i hi => ?_
    rw [Finset.mem_range] at hi
    simp only [hi, if_true]
    have e : ∑ x ∈ Finset.range B.cols, u i * (if A.cols + x < A.cols then A.get i (A.cols + x) else 0) * w (A.cols + x) = 0 := by
      refine Finset.sum_eq_zero fun x _ => by simp
    rw [e, add_zero]
    refine Finset.sum_congr rfl fun j hj => ?_
    rw [Finset.mem_range] at hj
    rw [if_pos hj]
  · refine Finset.sum_congr rfl fun i _ => ?_
    have hi : ¬ A.rows + i < A.rows := by omega
    simp only [hi, if_false]
    have e : ∑ x ∈ Finset.range A.cols, u (A.rows + i) * (if x < A.cols then 0 else B.get (A.rows + i - A.rows) (x - A.cols)) * w x = 0 := by
      refine Finset.sum_eq_zero fun x hx => ?_
      rw [Finset.mem_range] at hx
      simp [hx]
    rw [e, zero_add]
    refine Finset.sum_congr rfl fun j _ => ?_
    rw [if_neg (by omega)]
    simp

theorem bform_blockDiag {α : Type} (L : List α) (A : α → NpMat ℝ) (u w : α → List ℝ)
    (h : ∀ a ∈ L, (A a).rows = (u a).length ∧ (A a).cols = (w a).length) :
    bform (blockDiag (L.map A)) (fun t => (L.flatMap u).getD t 0) (fun t => (L.flatMap w).getD t 0) =
      (L.map fun a => bform (A a) (fun t => (u a).getD t 0) (fun t => (w a).getD t 0)).sum := by
  induction L with
  | nil => simp [bform, blockDiag, zeros]
  | cons p L ih =>
    have hp := h p (List.mem_cons_self ..)
    rw [List.map_cons, show blockDiag (A p :: L.map A) = diag2 (A p) (blockDiag (L.map A)) from rfl,
      bform_diag2, List.map_cons, List.sum_cons, ← ih fun q hq => h q (List.mem_cons_of_mem _ hq)]
    congr 1
    · refine bform_congr (Eqv.refl _) (fun i hi => ?_) (fun i hi => ?_)
      all_goals
        rw [List.flatMap_cons, List.getD_append]
        omega
    · refine bform_congr (Eqv.refl _) (fun i _ => ?_) (fun i _ => ?_)
      all_goals
        rw [List.flatMap_cons, List.getD_append_right _ _ _ _ (by omega)]
        congr 1; omega

theorem conj_transpose_get (C X : NpMat ℝ) (h1 : X.rows = C.cols) (h2 : X.cols = C.cols) (a b : ℕ) :
    (mul (mul C X) (transpose C)).get a b = bform X (C.get a) (C.get b) := by
  simp only [mul, transpose, bform, h1, h2, Finset.sum_mul]
  rw [Finset.sum_comm]

/-! ### the Dirac kernel intertwines -/

section
variable [DecidableEq Id'] {TH : IrrepTable H Id'} {typH : Id' → IrrType} {ElH : H → Prop} {opH : H → H → H} {oneH : H}

theorem mem_diracLoop {cols : List (NpMat ℝ)} {psi : Id'} {n p : ℕ} {L : List Id'} {B : NpMat ℝ}
    (h : B ∈ diracLoop TH cols psi n p L) :
    ∃ o1 o2 O, L = o1 ++ psi :: o2 ∧ O ∈ cols ∧ B = pad n (TH.size psi) (p + (o1.map TH.size).sum) 0 O := by
  induction L generalizing p with
  | nil => simp [diracLoop] at h
  | cons b L ih =>
    rw [diracLoop, List.mem_append] at h
    rcases h with h | h
    · split_ifs at h with hb
      · obtain ⟨E, hE, rfl⟩ := List.mem_map.1 h
        exact ⟨[], L, E, by simp [hb], hE, by simp⟩
      · simp at h
    · obtain ⟨o1, o2, E, h1, h2, h3⟩ := ih h
      exact ⟨b :: o1, o2, E, by simp [h1], h2, by rw [h3]; simp [add_assoc]⟩

omit [DecidableEq Id'] in
theorem diracColumn_commute {psi : Id'} (hpsi : TH.ok psi = true) (hT : TH.Valid ElH opH oneH) (hE : EndoValid TH typH ElH) (c : ℕ)
    {h : H} (hh : ElH h) : mul (TH.mat psi h) (diracColumn (endoBasis (typH psi) (TH.size psi)) (TH.size psi) c) ≈
      mul (diracColumn (endoBasis (typH psi) (TH.size psi)) (TH.size psi) c) (TH.mat psi h) := by
  obtain ⟨hs, hcomm⟩ := hE psi hpsi
  have hshape := (C18_endo_orthogonal _ _ hs).2.1
  have hr := (hT psi hpsi).rows h hh
  have hc := (hT psi hpsi).cols h hh
  refine ⟨hr, hc.symm, fun i j hi hj => ?_⟩
  have hi' : i < TH.size psi := by rw [← hr]; exact hi
  have hj' : j < TH.size psi := hj
  simp only [mul, diracColumn, hc]
  generalize endoBasis (typH psi) (TH.size psi) = L at hcomm hshape
  induction L with
  | nil => simp
  | cons M L ih =>
    simp only [List.map_cons, List.sum_cons, mul_add, add_mul, Finset.sum_add_distrib]
    rw [ih (fun E hE' g hg => hcomm E (List.mem_cons_of_mem _ hE') g hg) (fun E hE' => hshape E (List.mem_cons_of_mem _ hE'))]
    congr 1
    have sM := hshape M (List.mem_cons_self ..)
    have := (hcomm M (List.mem_cons_self ..) h hh).2.2 i j (by simp; omega) (by simp; omega)
    simp only [mul, hc, sM.2] at this
    calc _ = M.get 0 c * ∑ k ∈ Finset.range (TH.size psi), (TH.mat psi h).get i k * M.get k j := by
          rw [Finset.mul_sum]; exact Finset.sum_congr rfl fun k _ => by ring
      _ = _ := by
          rw [this, Finset.mul_sum]; exact Finset.sum_congr rfl fun k _ => by ring

theorem pad_mul_right (m d p : ℕ) (O A : NpMat ℝ) (hO : O.cols = d) (hA : A.rows = d) (hA' : A.cols = d) :
    mul (pad m d p 0 O) A ≈ pad m d p 0 (mul O A) := by
  refine ⟨rfl, hA', fun i j _ hj => ?_⟩
  have e0 : (pad m d p 0 (mul O A)).get i j = if p ≤ i ∧ i < p + O.rows ∧ 0 ≤ j ∧ j < 0 + A.cols then
      ∑ k ∈ Finset.range O.cols, O.get (i - p) k * A.get k (j - 0) else 0 := rfl
  have hj' : j < A.cols := hj
  rw [e0]
  simp only [mul, pad_cols]
  split_ifs with h
  · rw [hO]
    refine Finset.sum_congr rfl fun k hk => ?_
    rw [Finset.mem_range] at hk
    rw [pad_get, if_pos (by omega)]; simp
  · refine Finset.sum_eq_zero fun k _ => ?_
    rw [pad_get, if_neg (by omega), zero_mul]

/-- Every slice of `_dirac_kernel_ft(rho, psi)` intertwines `psi` and the restriction of `rho`. -/
theorem dirac_intertwines (hT : TH.Valid ElH opH oneH) (hE : EndoValid TH typH ElH) {psi : Id'} (hpsi : TH.ok psi = true)
    {rhoH : Rep H Id'} (hwf : rhoH.WF TH ElH) {sel : List (NpMat ℝ) → Except Err (List (NpMat ℝ))}
    (hsel : ∀ L L', sel L = .ok L' → ∀ B ∈ L', B ∈ L) {L : List (NpMat ℝ)}
    (hL : diracKernelFT TH typH psi rhoH sel = .ok L) {B : NpMat ℝ} (hB : B ∈ L) :
    B.rows = rhoH.size ∧ B.cols = TH.size psi ∧ ∀ h, ElH h → mul (rhoH.mat h) B ≈ mul B (TH.mat psi h) := by
  unfold diracKernelFT at hL
  simp only at hL
  split at hL
  · simp at hL
  split at hL
  · simp at hL
  rename_i L0 hL0
  cases hL
  obtain ⟨C, hC, rfl⟩ := List.mem_map.1 hB
  obtain ⟨o1, o2, O, e1, hO, hCe⟩ := mem_diracLoop (hsel _ _ hL0 C hC)
  rw [zero_add] at hCe
  obtain ⟨c, hc, rfl⟩ := List.mem_map.1 hO
  have hr := hwf.cob_rows; have hcc := hwf.cob_cols; have hir := hwf.inv_rows; have hic := hwf.inv_cols
  have hCr : C.rows = rhoH.size := by rw [hCe]; rfl
  have hCc : C.cols = TH.size psi := by rw [hCe]; rfl
  refine ⟨hr, hCc, fun h hh => ?_⟩
  have sp := hT psi hpsi
  have hok : ∀ i ∈ o1 ++ psi :: o2, TH.ok i = true := fun i hi => hwf.ok i (e1 ▸ hi)
  set X := blockDiag (rhoH.irreps.map fun i => TH.mat i h) with hX
  have hX1 : X.rows = rhoH.size := (irrepsBlock_rows hT hwf.ok hh).trans hwf.size
  have hX2 : X.cols = rhoH.size := (irrepsBlock_cols hT hwf.ok hh).trans hwf.size
  have hXC : mul X C ≈ mul C (TH.mat psi h) := by
    have d2 : X ≈ diag2 (blockDiag (o1.map fun i => TH.mat i h)) (diag2 (TH.mat psi h) (blockDiag (o2.map fun i => TH.mat i h))) := by
      rw [hX, e1, List.map_append]; exact blockDiag_append _ _
    have ro1 := irrepsBlock_rows hT (L := o1) (fun i hi => hok i (by simp [hi])) hh
    have co1 := irrepsBlock_cols hT (L := o1) (fun i hi => hok i (by simp [hi])) hh
    have ro2 := irrepsBlock_rows hT (L := o2) (fun i hi => hok i (by simp [hi])) hh
    have s2 := hwf.size
    rw [e1, List.map_append, List.sum_append, List.map_cons, List.sum_cons] at s2
    have l := mul_pad_left (blockDiag (o1.map fun i => TH.mat i h)) (TH.mat psi h) (blockDiag (o2.map fun i => TH.mat i h))
      (TH.size psi) 0 (diracColumn (endoBasis (typH psi) (TH.size psi)) (TH.size psi) c) (ro1.trans co1.symm)
      ((sp.rows h hh).trans (sp.cols h hh).symm) (sp.rows h hh).symm
    rw [ro1, sp.rows h hh, ro2, s2] at l
    rw [hCe]
    refine (mul_congr_left _ d2 ?_).trans (l.trans ((pad_congr _ _ _ _ (diracColumn_commute hpsi hT hE c hh)).trans
      (pad_mul_right _ _ _ _ _ rfl (sp.rows h hh) (sp.cols h hh)).symm))
    rw [hX2]; rfl
  -- `rho cob C = cob X cob⁻¹ cob C = cob X C = cob C psi`
  refine (mul_congr_left _ (hwf.mat h hh) ?_).trans ?_
  · rw [hwf.cols hh]; simpa using hr.symm
  refine (mul_assoc' _ _ _).trans ?_
  have a2 : mul rhoH.cobInv (mul rhoH.cob C) ≈ C := by
    refine (mul_assoc' _ _ _).symm.trans ((mul_congr_left C hwf.inv.2.2.2.2 ?_).trans (eye_mul' C ?_))
    · simp; omega
    · omega
  rw [← hX]
  refine (mul_congr_right _ a2 (show (mul _ X).cols = _ from hX2.trans hir.symm)).trans ?_
  refine (mul_assoc' _ _ _).trans ((mul_congr_right _ hXC (hcc.trans hX1.symm)).trans (mul_assoc' _ _ _).symm)

end

/-! ### the induced representation -/

/-- `∑ c_ρ² Bᵀ ρ(z) B` over the blocks. -/
noncomputable def indK (TG : IrrepTable G Id) (n d : ℕ) (blocks : List (Id × NpMat ℝ)) (z : G) (p q : ℕ) : ℝ :=
  (blocks.map fun ib => (TG.size ib.1 : ℝ) / (n * d) * (mul (transpose ib.2) (mul (TG.mat ib.1 z) ib.2)).get p q).sum

section
variable {TG : IrrepTable G Id} {ElG : G → Prop} {mulG : G → G → G} {invG : G → G} {oneG : G}

theorem ortho_conj {n d : ℕ} {ρ : G → NpMat ℝ} (hG : PGroup ElG mulG invG oneG) (hρ : OrthoRep ElG mulG oneG n ρ) (B : NpMat ℝ)
    (hB : B.rows = n) {x g y : G} (hx : ElG x) (hg : ElG g) (hy : ElG y) :
    mul (transpose (mul (ρ x) B)) (mul (ρ g) (mul (ρ y) B)) ≈ mul (transpose B) (mul (ρ (mulG (invG x) (mulG g y))) B) := by
  have hgy := hG.mul_mem g y hg hy
  have ix := hG.inv_mem x hx
  have hk := hG.mul_mem _ _ ix hgy
  set k := mulG (invG x) (mulG g y)
  have hxk : mulG x k = mulG g y := hG.mul_inv_cancel_left hx hgy
  have e1 : mul (ρ g) (ρ y) ≈ mul (ρ x) (ρ k) :=
    (hρ.map_mul g y hg hy).symm.trans ((Eqv.of_eq (by rw [hxk])).trans (hρ.map_mul x k hx hk))
  have e2 : mul (ρ g) (mul (ρ y) B) ≈ mul (ρ x) (mul (ρ k) B) := by
    refine (mul_assoc' _ _ _).symm.trans ?_
    refine (mul_congr_left B e1 ?_).trans (mul_assoc' _ _ _)
    rw [mul_cols, hρ.cols y hy, hB]
  refine (mul_congr (transpose_mul _ _ ?_) e2 ?_).trans ?_
  · rw [hρ.cols x hx, hB]
  · simp [hρ.rows x hx, hρ.rows g hg]
  refine (mul_assoc' _ _ _).trans ?_
  refine mul_congr_right _ ?_ ?_
  · refine (mul_assoc' _ _ _).symm.trans ?_
    refine (mul_congr_left _ (hρ.ortho x hx).2.2 ?_).trans ?_
    · simp [hρ.cols x hx, hρ.rows k hk]
    · refine eye_mul' _ ?_
      simp [hρ.rows x hx, hρ.rows k hk]
  · simp [hρ.cols x hx, hB]

theorem inducedRow_length (n d : ℕ) (blocks : List (Id × NpMat ℝ)) (r : G) (p : ℕ) :
    (inducedRow TG n d blocks r p).length = (blocks.map fun ib => TG.size ib.1).sum := by
  induction blocks with
  | nil => rfl
  | cons b L ih =>
    have : inducedRow TG n d (b :: L) r p = _ ++ inducedRow TG n d L r p := List.flatMap_cons
    rw [this]; simp [ih]

/-- Entries of `change_of_basis @ block_diag(irreps(g)) @ change_of_basis.T`. -/
theorem inducedCob_entry (hG : PGroup ElG mulG invG oneG) (hT : TG.Valid ElG mulG oneG) {d : ℕ} (hd : 0 < d)
    {blocks : List (Id × NpMat ℝ)} (hok : ∀ ib ∈ blocks, TG.ok ib.1 = true)
    (hB : ∀ ib ∈ blocks, ib.2.rows = TG.size ib.1 ∧ ib.2.cols = d) {reps : List G} (hreps : ∀ r ∈ reps, ElG r)
    {g : G} (hg : ElG g) {i j p q : ℕ} (hi : i < reps.length) (hj : j < reps.length) (hp : p < d) (hq : q < d) :
    (mul (mul (inducedCob TG d blocks reps) (irrepsBlock TG (blocks.map Prod.fst) g)) (transpose (inducedCob TG d blocks reps))).get
      (i * d + p) (j * d + q) = indK TG reps.length d blocks (mulG (invG reps[i]) (mulG g reps[j])) p q := by
  have hok' : ∀ i ∈ blocks.map Prod.fst, TG.ok i = true := by
    intro i hi; obtain ⟨ib, hib, rfl⟩ := List.mem_map.1 hi; exact hok ib hib
  have hr := irrepsBlock_rows hT hok' hg
  have hc := irrepsBlock_cols hT hok' hg
  rw [conj_transpose_get]
  rotate_left
  · refine hr.trans ?_; simp [inducedCob, Function.comp_def]
  · refine hc.trans ?_; simp [inducedCob, Function.comp_def]
  have row : ∀ i p (hi : i < reps.length), p < d → (inducedCob TG d blocks reps).get (i * d + p) =
      fun t => (inducedRow TG reps.length d blocks reps[i] p).getD t 0 := by
    intro i p hi hp
    funext t
    simp only [inducedCob]
    rw [show (i * d + p) / d = i by rw [mul_comm, Nat.mul_add_div hd, Nat.div_eq_of_lt hp, add_zero],
      show (i * d + p) % d = p by rw [mul_comm, Nat.mul_add_mod, Nat.mod_eq_of_lt hp], List.getElem?_eq_getElem hi]
  rw [row i p hi hp, row j q hj hq]
  have hx := hreps _ (List.getElem_mem hi)
  have hy := hreps _ (List.getElem_mem hj)
  have hn : 0 < reps.length := by omega
  unfold inducedRow irrepsBlock
  rw [List.map_map, bform_blockDiag]
  · unfold indK
    congr 1
    refine List.map_congr_left fun ib hib => ?_
    have hv := hT ib.1 (hok ib hib)
    obtain ⟨hb1, hb2⟩ := hB ib hib
    have oc := (ortho_conj (d := d) hG hv ib.2 hb1 hx hg hy).2.2 p q (by simp [hb2, hp]) (by simp [hb2, hq])
    rw [← oc]
    have rg := hv.rows g hg
    have cg := hv.cols g hg
    have rx := hv.rows _ hx
    simp only [bform, Function.comp, rg, cg]
    have m1 : (mul (transpose (mul (TG.mat ib.1 reps[i]) ib.2)) (mul (TG.mat ib.1 g) (mul (TG.mat ib.1 reps[j]) ib.2))).get p q =
        ∑ x ∈ Finset.range (TG.size ib.1), (mul (TG.mat ib.1 reps[i]) ib.2).get x p *
          ∑ y ∈ Finset.range (TG.size ib.1), (TG.mat ib.1 g).get x y * (mul (TG.mat ib.1 reps[j]) ib.2).get y q := by
      generalize mul (TG.mat ib.1 reps[j]) ib.2 = Bj
      have hr' : (mul (TG.mat ib.1 reps[i]) ib.2).rows = TG.size ib.1 := rx
      generalize mul (TG.mat ib.1 reps[i]) ib.2 = Bi at hr' ⊢
      simp only [mul, transpose, hr', cg]
    rw [m1, Finset.mul_sum]
    refine Finset.sum_congr rfl fun x hx' => ?_
    rw [Finset.mul_sum, Finset.mul_sum]
    refine Finset.sum_congr rfl fun y hy' => ?_
    rw [Finset.mem_range] at hx' hy'
    rw [List.getD_eq_getElem _ _ (by simpa using hx'), List.getD_eq_getElem _ _ (by simpa using hy')]
    simp only [List.getElem_map, List.getElem_range]
    have q1 := Real.mul_self_sqrt (Nat.cast_nonneg (α := ℝ) reps.length)
    have q2 := Real.mul_self_sqrt (Nat.cast_nonneg (α := ℝ) d)
    have q3 := Real.mul_self_sqrt (Nat.cast_nonneg (α := ℝ) (TG.size ib.1))
    have z1 : Real.sqrt reps.length ≠ 0 := Real.sqrt_ne_zero'.2 (by positivity)
    have z2 : Real.sqrt d ≠ 0 := Real.sqrt_ne_zero'.2 (by positivity)
    generalize (mul (TG.mat ib.1 reps[i]) ib.2).get x p = u
    generalize (mul (TG.mat ib.1 reps[j]) ib.2).get y q = w
    rw [show (TG.size ib.1 : ℝ) / (reps.length * d) = (Real.sqrt (TG.size ib.1) * Real.sqrt (TG.size ib.1)) /
      ((Real.sqrt reps.length * Real.sqrt reps.length) * (Real.sqrt d * Real.sqrt d)) by rw [q1, q2, q3]]
    field_simp
  · intro ib hib
    have hv := hT ib.1 (hok ib hib)
    simp [Function.comp, hv.rows g hg, hv.cols g hg]

theorem indK_mul {ElH : H → Prop} {parent : H → G} {psi : H → NpMat ℝ} (hG : PGroup ElG mulG invG oneG) (hT : TG.Valid ElG mulG oneG)
    {n d : ℕ} {blocks : List (Id × NpMat ℝ)} (hok : ∀ ib ∈ blocks, TG.ok ib.1 = true)
    (hB : ∀ ib ∈ blocks, ib.2.rows = TG.size ib.1 ∧ ib.2.cols = d)
    (hparent : ∀ h, ElH h → ElG (parent h)) (hpsi : ∀ h, ElH h → (psi h).rows = d ∧ (psi h).cols = d)
    (hint : ∀ ib ∈ blocks, ∀ h, ElH h → mul (TG.mat ib.1 (parent h)) ib.2 ≈ mul ib.2 (psi h))
    {z : G} (hz : ElG z) {h : H} (hh : ElH h) {p q : ℕ} (hp : p < d) (hq : q < d) :
    indK TG n d blocks (mulG z (parent h)) p q = ∑ s ∈ Finset.range d, indK TG n d blocks z p s * (psi h).get s q := by
  unfold indK
  induction blocks with
  | nil => simp
  | cons ib L ih =>
    have hib : ib ∈ ib :: L := List.mem_cons_self ..
    rw [List.map_cons, List.sum_cons, ih (fun b hb => hok b (List.mem_cons_of_mem _ hb)) (fun b hb => hB b (List.mem_cons_of_mem _ hb))
      (fun b hb => hint b (List.mem_cons_of_mem _ hb))]
    simp only [List.map_cons, List.sum_cons, add_mul, Finset.sum_add_distrib]
    congr 1
    have hv := hT ib.1 (hok ib hib)
    obtain ⟨hb1, hb2⟩ := hB ib hib
    have hph := hparent h hh
    have e : mul (transpose ib.2) (mul (TG.mat ib.1 (mulG z (parent h))) ib.2) ≈
        mul (mul (transpose ib.2) (mul (TG.mat ib.1 z) ib.2)) (psi h) := by
      have e1 : mul (TG.mat ib.1 (mulG z (parent h))) ib.2 ≈ mul (mul (TG.mat ib.1 z) ib.2) (psi h) := by
        refine (mul_congr_left _ (hv.map_mul z _ hz hph) ?_).trans ((mul_assoc' _ _ _).trans ((mul_congr_right _ (hint ib hib h hh) ?_).trans
          (mul_assoc' _ _ _).symm))
        · rw [hv.cols _ (hG.mul_mem _ _ hz hph), hb1]
        · rw [hv.cols z hz, mul_rows, hv.rows _ hph]
      refine (mul_congr_right _ e1 ?_).trans (mul_assoc' _ _ _).symm
      rw [transpose_cols, mul_rows, hb1, hv.rows _ (hG.mul_mem _ _ hz hph)]
    rw [e.2.2 p q (by simp [hb2, hp]) (by simp [hb2, hq])]
    rw [show (mul (mul (transpose ib.2) (mul (TG.mat ib.1 z) ib.2)) (psi h)).get p q =
      ∑ s ∈ Finset.range d, (mul (transpose ib.2) (mul (TG.mat ib.1 z) ib.2)).get p s * (psi h).get s q by
        conv_lhs => rw [mul]
        simp only [mul_cols, hb2], Finset.mul_sum]
    exact Finset.sum_congr rfl fun s _ => by ring

end

/-! ### soundness -/

/-- The situation in which an induced representation is built: a subgroup inclusion, valid irreps of both groups, and for every irrep
of `G` its restriction to the subgroup (which C13 provides). -/
structure InducedData (TG : IrrepTable G Id) (TH : IrrepTable H Id') (typH : Id' → IrrType) (ElG : G → Prop) (mulG : G → G → G)
    (invG : G → G) (oneG : G) (ElH : H → Prop) (mulH : H → H → H) (invH : H → H) (oneH : H) (parent : H → G)
    (child : G → Option H) (rhoH : Id → Rep H Id') : Prop where
  incl : Inclusion ElG mulG invG oneG ElH mulH invH oneH parent child
  validG : TG.Valid ElG mulG oneG
  validH : TH.Valid ElH mulH oneH
  endoH : EndoValid TH typH ElH
  restr : ∀ i, TG.ok i = true → (rhoH i).WF TH ElH ∧ (rhoH i).size = TG.size i ∧
    ∀ h, ElH h → (rhoH i).mat h ≈ TG.mat i (parent h)

theorem mem_inducedBlocks {kernel : Id → Except Err (List (NpMat ℝ))} {ids : List Id} {blocks : List (Id × NpMat ℝ)}
    (h : inducedBlocks kernel ids = .ok blocks) {ib : Id × NpMat ℝ} (hib : ib ∈ blocks) :
    ib.1 ∈ ids ∧ ∃ L, kernel ib.1 = .ok L ∧ ib.2 ∈ L := by
  induction ids generalizing blocks with
  | nil => simp only [inducedBlocks] at h; cases h; simp at hib
  | cons i L ih =>
    simp only [inducedBlocks] at h
    split at h
    · simp at h
    rename_i B hB
    split at h
    · simp at h
    rename_i R hR
    cases h
    rcases List.mem_append.1 hib with hib | hib
    · obtain ⟨b, hb, rfl⟩ := List.mem_map.1 hib
      exact ⟨List.mem_cons_self .., B, hB, hb⟩
    · obtain ⟨h1, h2⟩ := ih hR hib
      exact ⟨List.mem_cons_of_mem _ h1, h2⟩

section
variable [DecidableEq Id'] {TG : IrrepTable G Id} {TH : IrrepTable H Id'} {typH : Id' → IrrType} {ElG : G → Prop} {mulG : G → G → G}
  {invG : G → G} {oneG : G} {ElH : H → Prop} {mulH : H → H → H} {invH : H → H} {oneH : H} {parent : H → G} {child : G → Option H}
  {rhoH : Id → Rep H Id'}

/-- **C17** Whenever `induced_representation` returns, for representatives meeting every coset, the result is a representation of the
group, and the matrix of every element is exactly the matrix of its action on the induced representation in the basis of the given
representatives. -/
theorem C17_induced_sound (hD : InducedData TG TH typH ElG mulG invG oneG ElH mulH invH oneH parent child rhoH) {psi : Id'}
    (hpsi : TH.ok psi = true) {sel : Id → List (NpMat ℝ) → Except Err (List (NpMat ℝ))}
    (hsel : ∀ i L L', sel i L = .ok L' → ∀ B ∈ L', B ∈ L) (ids : List Id) (hok : ∀ i ∈ ids, TG.ok i = true) (reps : List G)
    (hreps : ∀ r ∈ reps, ElG r) (hcomplete : ∀ g, ElG g → ∃ r ∈ reps, ∃ h, ElH h ∧ g = mulG r (parent h))
    (orders : Option (ℕ × ℕ)) (taken : List String) (name : String) (nl : Finset String) (r : Rep G Id)
    (hr : inducedRep TG (fun i => diracKernelFT TH typH psi (rhoH i) (sel i)) (TH.size psi) orders (sameCoset mulG invG child) reps ids
      taken name nl = .ok r) :
    r.WF TG ElG ∧ r.size = reps.length * TH.size psi ∧ LinRep ElG mulG oneG (reps.length * TH.size psi) r.mat ∧
      ∀ g, ElG g → IsInducedAction mulG ElH parent (TH.mat psi) (TH.size psi) reps g (r.mat g) := by
  have hGp := hD.incl.groupG
  have hd : 0 < TH.size psi := by
    have := (hD.endoH psi hpsi).1
    unfold IrrType.sizeOk at this
    split at this <;> omega
  have hn : 0 < reps.length := by
    obtain ⟨r, hr, _⟩ := hcomplete oneG hGp.one_mem
    exact List.length_pos_of_mem hr
  set d := TH.size psi with hdd
  unfold inducedRep at hr
  split at hr
  · simp at hr
  rename_i irr cob ci hb
  obtain ⟨ht, hinv⟩ := mkRep_ok_inv hr
  unfold buildInduced at hb
  split at hb
  · simp at hb
  split at hb
  · simp at hb
  split at hb
  · simp at hb
  · simp at hb
  rename_i blocks hne hblocks
  simp only at hb
  split_ifs at hb with h1 h2
  cases hb
  have bl : ∀ ib ∈ blocks, TG.ok ib.1 = true ∧ (ib.2.rows = TG.size ib.1 ∧ ib.2.cols = d) ∧
      ∀ h, ElH h → mul (TG.mat ib.1 (parent h)) ib.2 ≈ mul ib.2 (TH.mat psi h) := by
    intro ib hib
    obtain ⟨hi, L, hL, hBL⟩ := mem_inducedBlocks hblocks hib
    have oki := hok _ hi
    obtain ⟨hwf, hsz, hmat⟩ := hD.restr _ oki
    obtain ⟨b1, b2, b3⟩ := dirac_intertwines hD.validH hD.endoH hpsi hwf (hsel ib.1) hL hBL
    refine ⟨oki, ⟨b1.trans hsz, b2⟩, fun h hh => (mul_congr_left _ (hmat h hh).symm ?_).trans (b3 h hh)⟩
    rw [((hD.validG _ oki)).cols _ (hD.incl.mem h hh), b1, hsz]
  have hirrok : ∀ i ∈ blocks.map Prod.fst, TG.ok i = true := by
    intro i hi; obtain ⟨ib, hib, rfl⟩ := List.mem_map.1 hi; exact (bl ib hib).1
  have hsz : ((blocks.map Prod.fst).map TG.size).sum = reps.length * d := by
    rw [not_not] at h1
    rw [show reps.length * d = (inducedCob TG d blocks reps).rows from rfl, h1, List.map_map]; rfl
  obtain ⟨r', hr', hwf, _, hirr, hcob, hci, _⟩ := C14_constructor hD.validG taken name (blocks.map Prod.fst) _ _ nl ht
    (show 0 < (inducedCob TG d blocks reps).rows from Nat.mul_pos hn hd) hinv hirrok hsz true
  rw [show (if true = true then some (transpose (inducedCob TG d blocks reps)) else none) =
    some (transpose (inducedCob TG d blocks reps)) from rfl, hr] at hr'
  cases hr'
  have hsize : r.size = reps.length * d := by rw [Rep.size, hcob]; rfl
  refine ⟨hwf, hsize, hsize ▸ C14_wf_is_representation hD.validG hGp.one_mem hGp.mul_mem r hwf, fun g hg => ?_⟩
  -- the entries
  have ent : ∀ (g : G), ElG g → ∀ (i j p q : ℕ) (hi : i < reps.length) (hj : j < reps.length), p < d → q < d →
      (r.mat g).get (i * d + p) (j * d + q) = indK TG reps.length d blocks (mulG (invG reps[i]) (mulG g reps[j])) p q := by
    intro g hg i j p q hi hj hp hq
    rw [← inducedCob_entry hGp hD.validG hd (fun ib hib => (bl ib hib).1) (fun ib hib => (bl ib hib).2.1) hreps hg hi hj hp hq]
    have key : r.mat g ≈ mul (mul (inducedCob TG d blocks reps) (irrepsBlock TG (blocks.map Prod.fst) g))
        (transpose (inducedCob TG d blocks reps)) := by
      refine (hwf.mat g hg).trans ?_
      rw [hirr, hcob]
      refine mul_congr_right _ hci ?_
      rw [mul_cols, hwf.inv_rows, hsize]
      exact (irrepsBlock_cols hD.validG hirrok hg).trans hsz
    refine key.2.2 _ _ ?_ ?_
    · rw [hwf.rows hg, hsize]
      calc i * d + p < i * d + d := by omega
        _ = (i + 1) * d := by ring
        _ ≤ reps.length * d := Nat.mul_le_mul_right _ (by omega)
    · rw [hwf.cols hg, hsize]
      calc j * d + q < j * d + d := by omega
        _ = (j + 1) * d := by ring
        _ ≤ reps.length * d := Nat.mul_le_mul_right _ (by omega)
  have hlin := C14_wf_is_representation hD.validG hGp.one_mem hGp.mul_mem r hwf
  have delta : ∀ (i k p q : ℕ) (hi : i < reps.length) (hk : k < reps.length), p < d → q < d →
      indK TG reps.length d blocks (mulG (invG reps[i]) reps[k]) p q = if i = k ∧ p = q then 1 else 0 := by
    intro i k p q hi hk hp hq
    have e := ent oneG hGp.one_mem i k p q hi hk hp hq
    rw [hGp.one_mul _ (hreps _ (List.getElem_mem hk))] at e
    rw [← e, hlin.map_one.2.2 _ _ ?_ ?_]
    · show (if i * d + p = k * d + q then (1 : ℝ) else 0) = _
      congr 1
      refine propext ⟨fun h => ?_, fun ⟨h1, h2⟩ => by rw [h1, h2]⟩
      have a1 : (i * d + p) / d = i := by rw [mul_comm, Nat.mul_add_div hd, Nat.div_eq_of_lt hp, add_zero]
      have a2 : (k * d + q) / d = k := by rw [mul_comm, Nat.mul_add_div hd, Nat.div_eq_of_lt hq, add_zero]
      have b1 : (i * d + p) % d = p := by rw [mul_comm, Nat.mul_add_mod, Nat.mod_eq_of_lt hp]
      have b2 : (k * d + q) % d = q := by rw [mul_comm, Nat.mul_add_mod, Nat.mod_eq_of_lt hq]
      rw [h] at a1 b1
      exact ⟨a1.symm.trans a2, b1.symm.trans b2⟩
    · rw [hwf.rows hGp.one_mem, hsize]
      calc i * d + p < i * d + d := by omega
        _ = (i + 1) * d := by ring
        _ ≤ reps.length * d := Nat.mul_le_mul_right _ (by omega)
    · rw [hwf.cols hGp.one_mem, hsize]
      calc k * d + q < k * d + d := by omega
        _ = (k + 1) * d := by ring
        _ ≤ reps.length * d := Nat.mul_le_mul_right _ (by omega)
  have hpsiS : ∀ h, ElH h → (TH.mat psi h).rows = d ∧ (TH.mat psi h).cols = d :=
    fun h hh => ⟨(hD.validH psi hpsi).rows h hh, (hD.validH psi hpsi).cols h hh⟩
  have step : ∀ (i j k p q : ℕ) (hi : i < reps.length) (hj : j < reps.length) (hk : k < reps.length), p < d → q < d →
      ∀ h, ElH h → mulG g reps[j] = mulG reps[k] (parent h) →
      (r.mat g).get (i * d + p) (j * d + q) = if i = k then (TH.mat psi h).get p q else 0 := by
    intro i j k p q hi hj hk hp hq h hh e
    have hri := hreps _ (List.getElem_mem hi)
    have hrk := hreps _ (List.getElem_mem hk)
    rw [ent g hg i j p q hi hj hp hq, e, ← hGp.assoc _ _ _ (hGp.inv_mem _ hri) hrk (hD.incl.mem h hh),
      indK_mul hGp hD.validG (fun ib hib => (bl ib hib).1) (fun ib hib => (bl ib hib).2.1) hD.incl.mem hpsiS
        (fun ib hib => (bl ib hib).2.2) (hGp.mul_mem _ _ (hGp.inv_mem _ hri) hrk) hh hp hq]
    rw [Finset.sum_congr rfl fun s hs => by
      rw [delta i k p s hi hk hp (Finset.mem_range.1 hs)]]
    by_cases hik : i = k
    · simp [hik, hp]
    · simp [hik]
  refine ⟨(hwf.rows hg).trans hsize, (hwf.cols hg).trans hsize, fun i j p q hi hj hp hq => ⟨fun h hh e => ?_, fun hno => ?_⟩⟩
  · rw [step i j i p q hi hj hi hp hq h hh e, if_pos rfl]
  · obtain ⟨x, hx, h, hh, e⟩ := hcomplete (mulG g reps[j]) (hGp.mul_mem _ _ hg (hreps _ (List.getElem_mem hj)))
    obtain ⟨k, hk, rfl⟩ := List.getElem_of_mem hx
    rw [step i j k p q hi hj hk hp hq h hh e, if_neg]
    rintro rfl
    exact hno h hh e

end

/-! ### completeness of the representatives for finite groups -/

section
variable {els : List G} {mulG : G → G → G} {invG : G → G} {oneG : G} {hels : List H} {mulH : H → H → H} {invH : H → H} {oneH : H}
  {parent : H → G} {child : G → Option H}

/-- `a` and `b` are in the same left coset. -/
def CosetRel (mulG : G → G → G) (ElH : H → Prop) (parent : H → G) (a b : G) : Prop := ∃ h, ElH h ∧ b = mulG a (parent h)

theorem sameCoset_iff {ElG : G → Prop} {ElH : H → Prop} (hI : Inclusion ElG mulG invG oneG ElH mulH invH oneH parent child) {a b : G} (ha : ElG a)
    (hb : ElG b) : sameCoset mulG invG child a b = true ↔ CosetRel mulG ElH parent a b := by
  have hG := hI.groupG
  have hab := hG.mul_mem _ _ (hG.inv_mem a ha) hb
  rw [sameCoset, Option.isSome_iff_exists]
  constructor
  · rintro ⟨h, e⟩
    obtain ⟨h1, h2⟩ := (hI.child_iff _ h hab).1 e
    exact ⟨h, h1, by rw [h2, hG.mul_inv_cancel_left ha hb]⟩
  · rintro ⟨h, h1, rfl⟩
    exact ⟨h, (hI.child_iff _ h hab).2 ⟨h1, (hG.inv_mul_cancel_left ha (hI.mem h h1)).symm⟩⟩

theorem cosetRel_symm {ElG : G → Prop} {ElH : H → Prop} (hI : Inclusion ElG mulG invG oneG ElH mulH invH oneH parent child) {a b : G} (ha : ElG a)
    (h : CosetRel mulG ElH parent a b) : CosetRel mulG ElH parent b a := by
  obtain ⟨h, hh, rfl⟩ := h
  refine ⟨invH h, hI.groupH.inv_mem h hh, ?_⟩
  rw [hI.groupG.assoc _ _ _ ha (hI.mem h hh) (hI.mem _ (hI.groupH.inv_mem h hh)), ← hI.map_mul _ _ hh (hI.groupH.inv_mem h hh),
    hI.groupH.mul_inv h hh, hI.map_one, hI.groupG.mul_one a ha]

theorem cosetRel_trans {ElG : G → Prop} {ElH : H → Prop} (hI : Inclusion ElG mulG invG oneG ElH mulH invH oneH parent child) {a b c : G} (ha : ElG a)
    (h : CosetRel mulG ElH parent a b) (h' : CosetRel mulG ElH parent b c) : CosetRel mulG ElH parent a c := by
  obtain ⟨h, hh, rfl⟩ := h
  obtain ⟨k, hk, rfl⟩ := h'
  refine ⟨mulH h k, hI.groupH.mul_mem h k hh hk, ?_⟩
  rw [hI.groupG.assoc _ _ _ ha (hI.mem h hh) (hI.mem k hk), hI.map_mul _ _ hh hk]

/-- All the elements `r h`. -/
def cosetList (mulG : G → G → G) (parent : H → G) (hels : List H) (reps : List G) : List G :=
  reps.flatMap fun r => hels.map fun h => mulG r (parent h)

theorem cosetList_length (reps : List G) : (cosetList mulG parent hels reps).length = reps.length * hels.length := by
  induction reps with
  | nil => simp [cosetList]
  | cons r L ih =>
    have : cosetList mulG parent hels (r :: L) = hels.map (fun h => mulG r (parent h)) ++ cosetList mulG parent hels L := List.flatMap_cons
    rw [this, List.length_append, ih]; simp; ring

theorem cosetList_nodup (hH : hels.Nodup) (hI : Inclusion (· ∈ els) mulG invG oneG (· ∈ hels) mulH invH oneH parent child)
    {reps : List G} (hreps : ∀ r ∈ reps, r ∈ els) (hd : reps.Pairwise fun a b => ¬ CosetRel mulG (· ∈ hels) parent a b) :
    (cosetList mulG parent hels reps).Nodup := by
  unfold cosetList
  rw [List.nodup_flatMap]
  constructor
  · intro r hr
    refine hH.map_on fun a ha b hb e => hI.inj a b ha hb (hI.groupG.cancel_left (hreps r hr) (hI.mem a ha) (hI.mem b hb) e)
  · refine (List.Pairwise.and_mem.1 hd).imp ?_
    rintro a b ⟨ha, hb, hab⟩ x hx hy
    obtain ⟨h, hh, rfl⟩ := List.mem_map.1 hx
    obtain ⟨k, hk, e⟩ := List.mem_map.1 hy
    refine hab (cosetRel_trans hI (hreps a ha) (b := mulG a (parent h)) ⟨h, hh, rfl⟩ ?_)
    rw [← e]
    exact cosetRel_symm hI (hreps b hb) ⟨k, hk, rfl⟩

/-- Distinct cosets, as many as the index: every coset is met. -/
theorem reps_complete_of_count (hG : els.Nodup) (hH : hels.Nodup)
    (hI : Inclusion (· ∈ els) mulG invG oneG (· ∈ hels) mulH invH oneH parent child)
    {reps : List G} (hreps : ∀ r ∈ reps, r ∈ els) (hd : reps.Pairwise fun a b => ¬ CosetRel mulG (· ∈ hels) parent a b)
    (hn : els.length = reps.length * hels.length) : ∀ g ∈ els, ∃ r ∈ reps, ∃ h, h ∈ hels ∧ g = mulG r (parent h) := by
  have hsub : cosetList mulG parent hels reps ⊆ els := by
    intro x hx
    obtain ⟨r, hr, hx⟩ := List.mem_flatMap.1 hx
    obtain ⟨h, hh, rfl⟩ := List.mem_map.1 hx
    exact hI.groupG.mul_mem _ _ (hreps r hr) (hI.mem h hh)
  have hp : (cosetList mulG parent hels reps).Perm els :=
    ((cosetList_nodup hH hI hreps hd).subperm hsub).perm_of_length_le (by rw [cosetList_length, hn])
  intro g hg
  obtain ⟨r, hr, hx⟩ := List.mem_flatMap.1 (hp.mem_iff.2 hg)
  obtain ⟨h, hh, rfl⟩ := List.mem_map.1 hx
  exact ⟨r, hr, h, hh, rfl⟩

variable [DecidableEq G]

theorem defaultReps_spec (hI : Inclusion (· ∈ els) mulG invG oneG (· ∈ hels) mulH invH oneH parent child) (L : List G)
    (hL : ∀ e ∈ L, e ∈ els) (covered : List G)
    (hc : ∀ x ∈ covered, x ∈ els ∧ ∀ y, CosetRel mulG (· ∈ hels) parent x y → y ∈ covered) :
    (∀ r ∈ defaultReps mulG (hels.map parent) covered L, r ∈ L ∧ r ∉ covered) ∧
      (defaultReps mulG (hels.map parent) covered L).Pairwise (fun a b => ¬ CosetRel mulG (· ∈ hels) parent a b) ∧
      ∀ e ∈ L, e ∈ covered ∨ ∃ r ∈ defaultReps mulG (hels.map parent) covered L, ∃ h, h ∈ hels ∧ e = mulG r (parent h) := by
  induction L generalizing covered with
  | nil => simp [defaultReps]
  | cons e L ih =>
    have hL' : ∀ e ∈ L, e ∈ els := fun x hx => hL x (List.mem_cons_of_mem _ hx)
    have he := hL e (List.mem_cons_self ..)
    rw [defaultReps]
    split_ifs with hec
    · obtain ⟨h1, h2, h3⟩ := ih hL' covered hc
      refine ⟨fun r hr => ⟨List.mem_cons_of_mem _ (h1 r hr).1, (h1 r hr).2⟩, h2, fun x hx => ?_⟩
      rcases List.mem_cons.1 hx with rfl | hx
      · exact .inl hec
      · exact h3 x hx
    · have hmem : ∀ x, x ∈ covered ++ (hels.map parent).map (mulG e) ↔ x ∈ covered ∨ CosetRel mulG (· ∈ hels) parent e x := by
        intro x
        simp only [List.mem_append, List.map_map, List.mem_map, Function.comp, CosetRel]
        constructor
        · rintro (h | ⟨a, ha, rfl⟩)
          · exact .inl h
          · exact .inr ⟨a, ha, rfl⟩
        · rintro (h | ⟨a, ha, rfl⟩)
          · exact .inl h
          · exact .inr ⟨a, ha, rfl⟩
      obtain ⟨h1, h2, h3⟩ := ih hL' (covered ++ (hels.map parent).map (mulG e)) (by
        intro x hx
        rcases (hmem x).1 hx with hx | hx
        · exact ⟨(hc x hx).1, fun y hy => (hmem y).2 (.inl ((hc x hx).2 y hy))⟩
        · refine ⟨?_, fun y hy => (hmem y).2 (.inr (cosetRel_trans hI he hx hy))⟩
          obtain ⟨a, ha, rfl⟩ := hx
          exact hI.groupG.mul_mem _ _ he (hI.mem a ha))
      refine ⟨fun r hr => ?_, ?_, fun x hx => ?_⟩
      · rcases List.mem_cons.1 hr with rfl | hr
        · exact ⟨List.mem_cons_self .., hec⟩
        · exact ⟨List.mem_cons_of_mem _ (h1 r hr).1, fun h => (h1 r hr).2 ((hmem r).2 (.inl h))⟩
      · refine List.pairwise_cons.2 ⟨fun r hr h => (h1 r hr).2 ((hmem r).2 (.inr h)), h2⟩
      · have hee : CosetRel mulG (· ∈ hels) parent e e :=
          ⟨oneH, hI.groupH.one_mem, by rw [hI.map_one, hI.groupG.mul_one e he]⟩
        have use : ∀ y, CosetRel mulG (· ∈ hels) parent e y → ∃ r ∈ e :: defaultReps mulG (hels.map parent)
            (covered ++ (hels.map parent).map (mulG e)) L, ∃ h, h ∈ hels ∧ y = mulG r (parent h) := by
          rintro y ⟨a, ha, rfl⟩
          exact ⟨e, List.mem_cons_self .., a, ha, rfl⟩
        rcases List.mem_cons.1 hx with rfl | hx
        · exact .inr (use _ hee)
        · rcases h3 x hx with hx | ⟨r, hr, h⟩
          · rcases (hmem x).1 hx with hx | hx
            · exact .inl hx
            · exact .inr (use _ hx)
          · exact .inr ⟨r, List.mem_cons_of_mem _ hr, h⟩

/-- **C17** The default representatives are one element of every coset, and there are `|G| / |H|` of them, so that the assertions
of the construction on the representatives pass. -/
theorem C17_default_representatives (hG : els.Nodup) (hH : hels.Nodup)
    (hI : Inclusion (· ∈ els) mulG invG oneG (· ∈ hels) mulH invH oneH parent child) :
    (∀ r ∈ defaultReps mulG (hels.map parent) [] els, r ∈ els) ∧
    (∀ g ∈ els, ∃ r ∈ defaultReps mulG (hels.map parent) [] els, ∃ h, h ∈ hels ∧ g = mulG r (parent h)) ∧
    distinctCosets (sameCoset mulG invG child) (defaultReps mulG (hels.map parent) [] els) = true ∧
    els.length = (defaultReps mulG (hels.map parent) [] els).length * hels.length ∧
    countOk (some (els.length, hels.length)) (defaultReps mulG (hels.map parent) [] els).length = true := by
  obtain ⟨h1, h2, h3⟩ := defaultReps_spec hI els (fun e h => h) [] (by simp)
  set reps := defaultReps mulG (hels.map parent) [] els with hreps
  have hmem : ∀ r ∈ reps, r ∈ els := fun r hr => (h1 r hr).1
  have hcov : ∀ g ∈ els, ∃ r ∈ reps, ∃ h, h ∈ hels ∧ g = mulG r (parent h) := fun g hg => (h3 g hg).resolve_left (by simp)
  have hlen : els.length = reps.length * hels.length := by
    rw [← cosetList_length (mulG := mulG) (parent := parent)]
    refine le_antisymm (hG.subperm ?_).length_le ((cosetList_nodup hH hI hmem h2).subperm ?_).length_le
    · intro g hg
      obtain ⟨r, hr, h, hh, rfl⟩ := hcov g hg
      exact List.mem_flatMap.2 ⟨r, hr, List.mem_map.2 ⟨h, hh, rfl⟩⟩
    · intro x hx
      obtain ⟨r, hr, hx⟩ := List.mem_flatMap.1 hx
      obtain ⟨h, hh, rfl⟩ := List.mem_map.1 hx
      exact hI.groupG.mul_mem _ _ (hmem r hr) (hI.mem h hh)
  refine ⟨hmem, hcov, ?_, hlen, ?_⟩
  · unfold distinctCosets
    simp only [List.all_eq_true, List.mem_range]
    intro i hi j hj
    rw [List.getElem?_eq_getElem hi, List.getElem?_eq_getElem hj]
    simp only [Bool.or_eq_true, decide_eq_true_eq, Bool.not_eq_true']
    by_contra hne
    push Not at hne
    obtain ⟨hij, hs⟩ := hne
    have hs' : sameCoset mulG invG child reps[i] reps[j] = true := by simpa using hs
    rw [sameCoset_iff hI (hmem _ (List.getElem_mem hi)) (hmem _ (List.getElem_mem hj))] at hs'
    rcases Nat.lt_or_gt_of_ne hij with h | h
    · exact List.pairwise_iff_getElem.1 h2 i j hi hj h hs'
    · exact List.pairwise_iff_getElem.1 h2 j i hj hi h (cosetRel_symm hI (hmem _ (List.getElem_mem hi)) hs')
  · have hp : 0 < hels.length := List.length_pos_of_mem hI.groupH.one_mem
    rw [countOk, decide_eq_true_eq, hlen, Nat.mul_div_cancel _ hp]

omit [DecidableEq G] in
theorem distinct_pairwise (hI : Inclusion (· ∈ els) mulG invG oneG (· ∈ hels) mulH invH oneH parent child) {reps : List G}
    (hreps : ∀ r ∈ reps, r ∈ els) (h : distinctCosets (sameCoset mulG invG child) reps = true) :
    reps.Pairwise fun a b => ¬ CosetRel mulG (· ∈ hels) parent a b := by
  rw [List.pairwise_iff_getElem]
  intro i j hi hj hij hr
  unfold distinctCosets at h
  simp only [List.all_eq_true, List.mem_range] at h
  have := h i hi j hj
  rw [List.getElem?_eq_getElem hi, List.getElem?_eq_getElem hj] at this
  simp only [Bool.or_eq_true, decide_eq_true_eq, Bool.not_eq_true'] at this
  rcases this with e | e
  · omega
  · rw [(sameCoset_iff hI (hreps _ (List.getElem_mem hi)) (hreps _ (List.getElem_mem hj))).2 hr] at e
    cases e

end

section
variable [DecidableEq G] [DecidableEq Id'] {TG : IrrepTable G Id} {TH : IrrepTable H Id'} {typH : Id' → IrrType} {els : List G}
  {mulG : G → G → G} {invG : G → G} {oneG : G} {hels : List H} {mulH : H → H → H} {invH : H → H} {oneH : H} {parent : H → G}
  {child : G → Option H} {rhoH : Id → Rep H Id'}

/-- **C17** For every finite group, subgroup, irrep of the subgroup and *any* list of elements passed as representatives: if the
construction returns, the matrices are those of the induced representation in the basis of the given representatives.  The
assertions of the code on the representatives are enough: no completeness is assumed. -/
theorem C17_induced_finite (hG : els.Nodup) (hH : hels.Nodup)
    (hD : InducedData TG TH typH (· ∈ els) mulG invG oneG (· ∈ hels) mulH invH oneH parent child rhoH) {psi : Id'}
    (hpsi : TH.ok psi = true) {sel : Id → List (NpMat ℝ) → Except Err (List (NpMat ℝ))}
    (hsel : ∀ i L L', sel i L = .ok L' → ∀ B ∈ L', B ∈ L) (ids : List Id) (hok : ∀ i ∈ ids, TG.ok i = true) (reps : List G)
    (hreps : ∀ r ∈ reps, r ∈ els) (taken : List String) (name : String) (nl : Finset String) (r : Rep G Id)
    (hr : inducedRep TG (fun i => diracKernelFT TH typH psi (rhoH i) (sel i)) (TH.size psi) (some (els.length, hels.length))
      (sameCoset mulG invG child) reps ids taken name nl = .ok r) :
    r.WF TG (· ∈ els) ∧ r.size * hels.length = els.length * TH.size psi ∧
      LinRep (· ∈ els) mulG oneG (reps.length * TH.size psi) r.mat ∧
      ∀ g ∈ els, IsInducedAction mulG (· ∈ hels) parent (TH.mat psi) (TH.size psi) reps g (r.mat g) := by
  have h0 := hr
  unfold inducedRep at hr
  split at hr
  · simp at hr
  rename_i irr cob ci hb
  unfold buildInduced at hb
  split at hb
  · simp at hb
  rename_i hcount
  split at hb
  · simp at hb
  rename_i hdist
  have hdist' := distinct_pairwise hD.incl hreps (not_not.1 hdist)
  have hcount' : els.length / hels.length = reps.length := by
    rw [not_not] at hcount
    simpa [countOk] using hcount
  have hlag := (C17_default_representatives hG hH hD.incl).2.2.2.1
  have hlen : els.length = reps.length * hels.length := by
    have hp : 0 < hels.length := List.length_pos_of_mem hD.incl.groupH.one_mem
    rw [hlag, Nat.mul_div_cancel _ hp] at hcount'
    rw [hlag, hcount']
  obtain ⟨a, b, c, e⟩ := C17_induced_sound hD hpsi hsel ids hok reps hreps
    (reps_complete_of_count hG hH hD.incl hreps hdist' hlen) _ taken name nl r h0
  exact ⟨a, by rw [b, hlen]; ring, c, e⟩

end

/-- **C17** Induced from the trivial representation, the induced action is the permutation of the cosets: entry `(i, j)` is `1` if
`g r_j` is in the coset of `r_i` and `0` otherwise. -/
theorem C17_quotient_permutes {mulG : G → G → G} {ElH : H → Prop} {parent : H → G} {psi : H → NpMat ℝ}
    (htriv : ∀ h, ElH h → (psi h).get 0 0 = 1) {reps : List G} {g : G} {M : NpMat ℝ}
    (hM : IsInducedAction mulG ElH parent psi 1 reps g M) :
    M.rows = reps.length ∧ M.cols = reps.length ∧ ∀ (i j : ℕ) (hi : i < reps.length) (hj : j < reps.length),
      (CosetRel mulG ElH parent reps[i] (mulG g reps[j]) → M.get i j = 1) ∧
      (¬ CosetRel mulG ElH parent reps[i] (mulG g reps[j]) → M.get i j = 0) := by
  obtain ⟨h1, h2, h3⟩ := hM
  refine ⟨by simpa using h1, by simpa using h2, fun i j hi hj => ?_⟩
  obtain ⟨a, b⟩ := h3 i j 0 0 hi hj Nat.one_pos Nat.one_pos
  simp only [mul_one, add_zero] at a b
  exact ⟨fun ⟨h, hh, e⟩ => (a h hh e).trans (htriv h hh), fun hn => b fun h hh e => hn ⟨h, hh, e⟩⟩

/-! ### instances -/

/-- An irrep as a representation (identity change of basis). -/
theorem irrep_as_rep {T : IrrepTable G Id} {El : G → Prop} {op : G → G → G} {one : G} (hT : T.Valid El op one) {i : Id}
    (hi : T.ok i = true) (hs : 0 < T.size i) :
    ∃ r : Rep G Id, r.WF T El ∧ r.size = T.size i ∧ ∀ g, El g → r.mat g ≈ T.mat i g := by
  obtain ⟨r, _, hwf, _, hirr, hcob, hci, _⟩ := C14_constructor hT [] "r" [i] (eye (T.size i)) (eye (T.size i)) ∅ (by simp) hs
    ⟨rfl, rfl, rfl, eye_mul' _ rfl, eye_mul' _ rfl⟩ (by simpa using hi) (by simp) true
  have hsz : r.size = T.size i := by rw [Rep.size, hcob]; rfl
  refine ⟨r, hwf, hsz, fun g hg => (hwf.mat g hg).trans ?_⟩
  have hv := hT i hi
  have hb : blockDiag (r.irreps.map fun i => T.mat i g) ≈ T.mat i g := by rw [hirr]; exact blockDiag_single _
  have hb1 := hb.1.trans (hv.rows g hg)
  have hb2 := hb.2.1.trans (hv.cols g hg)
  rw [hcob]
  refine (mul_congr (eye_mul' _ hb1) hci ?_).trans ((mul_eye' _ hb2).trans hb)
  rw [NpMat.mul_cols, hb2, hwf.inv_rows, hsz]

namespace Cyclic

/-- **C17** `C_N` and its subgroup `C_M` satisfy the hypotheses of the theorems. -/
theorem inducedData (N M : ℕ) (hN : 0 < N) (hid : subgroupIdOk N M = true) :
    ∃ rhoH : ℕ → Rep ℤ ℕ, InducedData (table N) (table M) (irrepType M) (· ∈ elements N) (combine N) (inverse N) identity
      (· ∈ elements M) (combine M) (inverse M) identity (fun e => e * N / M)
      (fun g => match childMap N M g with | .ok o => o | .error _ => none) rhoH := by
  obtain ⟨hM, hdvd⟩ : 0 < M ∧ N % M = 0 := by simpa [subgroupIdOk] using hid
  have eN : ∀ e, e ∈ elements N ↔ isElement N e = true := (C01_cyclic_group_laws N hN).2.2.2.2.2.2.2.2
  have eM : ∀ e, e ∈ elements M ↔ isElement M e = true := (C01_cyclic_group_laws M hM).2.2.2.2.2.2.2.2
  have hsub := C05_cyclic_subgroup N M hN hid
  have par : ∀ h, h ∈ elements M → parentMap N M h = .ok (h * N / M) ∧ isElement N (h * N / M) = true := by
    intro h hh
    obtain ⟨g, hg, hg'⟩ := hsub.parent_ok h ((eM h).1 hh)
    obtain ⟨h1, h2⟩ := element_eq_ok_iff.1 hg
    exact ⟨by rw [hg, h2], h1⟩
  have hincl : Inclusion (· ∈ elements N) (combine N) (inverse N) identity (· ∈ elements M) (combine M) (inverse M) identity
      (fun e => e * N / M) (fun g => match childMap N M g with | .ok o => o | .error _ => none) := by
    refine ⟨(finGroup N hN).toPGroup, (finGroup M hM).toPGroup, fun h hh => (eN _).2 (par h hh).2, fun a b ha hb => ?_, by simp [identity],
      fun a b ha hb e => hsub.parent_inj a b ((eM a).1 ha) ((eM b).1 hb) ?_, fun g h hg => ⟨fun e => ?_, fun ⟨h1, h2⟩ => ?_⟩⟩
    · have := hsub.parent_mul a b _ _ ((eM a).1 ha) ((eM b).1 hb) (par a ha).1 (par b hb).1
      exact (element_eq_ok_iff.1 this).2
    · rw [(par a ha).1, (par b hb).1, e]
    · by_cases hex : ∃ h', isElement M h' = true ∧ parentMap N M h' = .ok g
      · obtain ⟨h', hh', hp⟩ := hex
        rw [hsub.child_parent h' g hh' hp] at e
        cases e
        exact ⟨(eM h).2 hh', (element_eq_ok_iff.1 hp).2⟩
      · rw [hsub.child_none g ((eN g).1 hg) fun h' hh' hp => hex ⟨h', hh', hp⟩] at e
        cases e
    · rw [hsub.child_parent h g ((eM h).1 h1) (by rw [(par h h1).1, h2])]
  have hpos : ∀ i, 0 < (table N).size i := by
    intro i; show 0 < irrepSize N i; unfold irrepSize; split_ifs <;> omega
  have hex : ∀ i, ∃ r : Rep ℤ ℕ, (table N).ok i = true → r.WF (table M) (· ∈ elements M) ∧ r.size = (table N).size i ∧
      ∀ h ∈ elements M, r.mat h ≈ (table N).mat i (h * N / M) := by
    intro i
    by_cases hi : (table N).ok i = true
    · obtain ⟨r, hwf, hsz, hmat⟩ := irrep_as_rep (table_valid N hN) hi (hpos i)
      obtain ⟨r', _, hwf', hs', _, hm'⟩ := C13_cyclic N M hN hid [] "g" r hwf (by simp)
      have e : (· ∈ elements M) = fun e => isElement M e = true := by funext e; exact propext (eM e)
      refine ⟨r', fun _ => ⟨e ▸ hwf', hs'.trans hsz, fun h hh => ?_⟩⟩
      exact (hm' h _ ((eM h).1 hh) (par h hh).1).trans (hmat _ (par h hh).2)
    · exact ⟨⟨"", [], eye 0, eye 0, fun _ => eye 0, ∅⟩, fun h => absurd h hi⟩
  choose rhoH hrho using hex
  have e : (· ∈ elements M) = fun e => isElement M e = true := by funext e; exact propext (eM e)
  exact ⟨rhoH, hincl, table_valid_mem N hN, table_valid_mem M hM, e ▸ (C18_cyclic M hM).1, hrho⟩

/-- `cyclic_group(2).quotient_representation(1, representatives=reps)`. -/
noncomputable def c2Quotient (reps : List ℤ) : Except Err (Rep ℤ ℕ) :=
  inducedRep (table 2) (fun _ => diracKernelFT (table 1) (irrepType 1) 0 ⟨"r", [0], eye 1, eye 1, fun _ => eye 1, ∅⟩ .ok) 1
    (some (2, 1)) (sameCoset (combine 2) (inverse 2) (fun g => match childMap 2 1 g with | .ok o => o | .error _ => none)) reps [0, 1]
    [] "quotient" ∅

/-- A concrete instance: the representation of `C_2` induced from the trivial representation of `C_1` is built without any
assertion failing. -/
theorem c2Quotient_ok : ∃ r, c2Quotient [0, 1] = .ok r := by
  have s0 : (table 1).size 0 = 1 := rfl
  have hE : endoBasis (irrepType 1 0) 1 = [eye 1] := by simp [irrepType, endoBasis]
  have hw : diracWeight [eye 1] 0 = 1 := by simp [diracWeight, eye]
  have hmask : diracMask [eye 1] 1 = [0] := by simp [diracMask, List.range_succ, hw]
  obtain ⟨B, hB, hB0, hBr, hBc⟩ : ∃ B, diracKernelFT (table 1) (irrepType 1) 0 ⟨"r", [0], eye 1, eye 1, fun _ => eye 1, ∅⟩ .ok = .ok [B] ∧
      B.get 0 0 = 1 ∧ B.rows = 1 ∧ B.cols = 1 := by
    unfold diracKernelFT
    simp only [s0, hE, hmask, diracLoop]
    rw [if_neg (by simp [irrepType, IrrType.sumsq])]
    refine ⟨_, rfl, ?_, rfl, rfl⟩
    simp [mul, eye, setBlock, diracColumn]
  have hcos : Real.cos (1 * radians 2 1) = -1 := by
    rw [show 1 * radians 2 1 = Real.pi by rw [radians]; push_cast; ring, Real.cos_pi]
  have g0 : ∀ e, (mul ((table 2).mat 0 e) B).get 0 0 = 1 := by
    intro e
    rw [show (table 2).mat 0 e = eye 1 from rfl]
    simp [mul, eye, hB0]
  have g1 : ∀ e, (mul ((table 2).mat 1 e) B).get 0 0 = Real.cos (1 * radians 2 e) := by
    intro e
    rw [show (table 2).mat 1 e = of1 (Real.cos ((1 : ℕ) * radians 2 e)) from rfl]
    simp [mul, of1, hB0]
  have c0 : Real.cos (1 * radians 2 0) = 1 := by simp [radians]
  have row : ∀ e, inducedRow (table 2) 2 1 [(0, B), (1, B)] e 0 =
      [1 / Real.sqrt 2, Real.cos (1 * radians 2 e) / Real.sqrt 2] := by
    intro e
    have t0 : (table 2).size 0 = 1 := rfl
    have t1 : (table 2).size 1 = 1 := rfl
    simp [inducedRow, t0, t1, List.range_succ, g0, g1]
  set cob := inducedCob (table 2) 1 [(0, B), (1, B)] [0, 1] with hcob
  have e00 : cob.get 0 0 = 1 / Real.sqrt 2 := by simp only [hcob, inducedCob]; simp [row]
  have e01 : cob.get 0 1 = 1 / Real.sqrt 2 := by simp only [hcob, inducedCob]; simp [row, c0, -one_mul]
  have e10 : cob.get 1 0 = 1 / Real.sqrt 2 := by simp only [hcob, inducedCob]; simp [row]
  have e11 : cob.get 1 1 = -1 / Real.sqrt 2 := by simp only [hcob, inducedCob]; simp [row, hcos, -one_mul]
  have hr : cob.rows = 2 := rfl
  have hc : cob.cols = 2 := rfl
  have q := Real.mul_self_sqrt (show (0 : ℝ) ≤ 2 by norm_num)
  have qn : Real.sqrt 2 ≠ 0 := by positivity
  have o1 : mul cob (transpose cob) ≈ eye (1 * [(0 : ℤ), 1].length) := by
    refine ⟨hr, hr, fun i j hi hj => ?_⟩
    have hi' : i < 2 := hi
    have hj' : j < 2 := hj
    interval_cases i <;> interval_cases j <;>
      simp only [mul, transpose, eye, hc, Finset.sum_range_succ, Finset.sum_range_zero, e00, e01, e10, e11] <;> norm_num <;> field_simp <;>
      nlinarith
  have o2 : mul (transpose cob) cob ≈ eye (1 * [(0 : ℤ), 1].length) := by
    refine ⟨hr, hr, fun i j hi hj => ?_⟩
    have hi' : i < 2 := hi
    have hj' : j < 2 := hj
    interval_cases i <;> interval_cases j <;>
      simp only [mul, transpose, eye, hr, Finset.sum_range_succ, Finset.sum_range_zero, e00, e01, e10, e11] <;> norm_num <;> field_simp <;>
      nlinarith
  have hb : inducedBlocks (fun _ => diracKernelFT (table 1) (irrepType 1) 0 ⟨"r", [0], eye 1, eye 1, fun _ => eye 1, ∅⟩ .ok) [0, 1] =
      .ok [(0, B), (1, B)] := by
    simp [inducedBlocks, hB]
  have hbuild : buildInduced (table 2) (fun _ => diracKernelFT (table 1) (irrepType 1) 0 ⟨"r", [0], eye 1, eye 1, fun _ => eye 1, ∅⟩ .ok) 1
      (some (2, 1)) (sameCoset (combine 2) (inverse 2) (fun g => match childMap 2 1 g with | .ok o => o | .error _ => none)) [0, 1] [0, 1] =
      .ok ([0, 1], cob, transpose cob) := by
    unfold buildInduced
    rw [if_neg (by simp [countOk]), if_neg (by rw [not_not]; decide +kernel), hb]
    simp only
    rw [← hcob, if_neg (by rw [hr, hc]; simp), if_neg (not_not.2 ⟨o1, o2⟩)]
    rfl
  unfold c2Quotient inducedRep
  rw [hbuild]
  obtain ⟨r, h, _⟩ := C14_constructor (table_valid 2 (by norm_num)) [] "quotient" [0, 1] cob (transpose cob) ∅ (by simp)
    (by rw [hr]; norm_num) ⟨rfl, rfl, rfl, o1, o2⟩ (by simp [table]) rfl true
  exact ⟨r, h⟩

end Cyclic

end Escnn
