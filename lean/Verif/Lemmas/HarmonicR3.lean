import Verif.Model.KernelsR3
import Verif.Props.C67_Tensor
import Verif.Props.C79_Irreps3

/-!
# Lemmas on the harmonic polynomials
-/

namespace Escnn

open NpMat Real

namespace TensorRep

variable {G Id : Type} [DecidableEq Id] {T : IrrepTable G Id} {El : G → Prop} {op : G → G → G} {one : G} {tens : Id → Id → List (Id × ℕ)} {cg : Id → Id → Id → CGArray}

theorem rowMat_ortho {i1 : Id} {L2 : List Id} (h : ∀ i2 ∈ L2, CGLaw El T.ok T.size T.mat tens cg i1 i2) : IsOrtho (rowMat T tens cg L2 i1) :=
  mul_isOrtho (permOf_ortho _ _ _) (blockDiag_isOrtho' _ _ fun i hi => pairMat_ortho (h i hi)) (by rw [(permOf_shape _ _ _).2, (pairs_shape h).1])

/-- The change of basis of a tensor product of more than one irrep is orthogonal when those of both factors are. -/
theorem tensor_ortho (hT : T.Valid El op one) (taken : List String) {r1 r2 : Rep G Id} (h1 : r1.WF T El) (h2 : r2.WF T El) (h : ∀ m ∈ r1.irreps, ∀ n ∈ r2.irreps, CGLaw El T.ok T.size T.mat tens cg m n)
    (hname : r1.name ++ " X " ++ r2.name ∉ taken) (o1 : IsOrtho r1.cob) (o2 : IsOrtho r2.cob)
    (hlen : 1 < (r1.irreps.flatMap fun m => r2.irreps.flatMap (pairIrreps tens m)).length) :
    ∃ r, tensor T tens cg taken r1 r2 = .ok r ∧ r.WF T El ∧ r.size = r1.size * r2.size ∧
      r.irreps = (r1.irreps.flatMap fun m => r2.irreps.flatMap fun n => (tens m n).flatMap fun e => List.replicate e.2 e.1) ∧ (∀ g, El g → r.mat g ≈ kron (r1.mat g) (r2.mat g)) ∧
      IsOrtho r.cob := by
  obtain ⟨r, hr, hwf, hs, hir, hm, -⟩ := C67_tensor hT taken h1 h2 h hname
  refine ⟨r, hr, hwf, hs, hir, hm, ?_⟩
  obtain ⟨P, q, hl⟩ := outerLoop_spec (T := T) (tens := tens) (cg := cg) (El := El) h2.size (r1.size * r2.size) r1.irreps (zeros 0 0) [] (zeros 0 0) 0 rfl h
  set W := frame (r1.size * r2.size) (diag2 (zeros 0 0) (blockDiag (r1.irreps.map (rowMat T tens cg r2.irreps)))) with hWd
  have hsz := irreps_size h1.size h2.size h
  have hBs : (blockDiag (r1.irreps.map (rowMat T tens cg r2.irreps))).rows = r1.size * r2.size ∧ (blockDiag (r1.irreps.map (rowMat T tens cg r2.irreps))).cols = r1.size * r2.size := by
    have := blockDiag_map_size (sz := fun m => T.size m * r2.size) (rs := r1.irreps) (ρ := rowMat T tens cg r2.irreps) fun m hm => by
      have := rowMat_shape (h m hm); rwa [h2.size] at this
    have e : (r1.irreps.map fun m => T.size m * r2.size).sum = r1.size * r2.size := by
      rw [← h1.size]
      generalize r1.irreps = L
      induction L with
      | nil => simp
      | cons a L ih => simp [ih, add_mul]
    rwa [e] at this
  have hW : W ≈ blockDiag (r1.irreps.map (rowMat T tens cg r2.irreps)) := by
    rw [hWd, frame_congr _ (diag2_empty_left _)]
    exact frame_self hBs.1 hBs.2
  have hWo : IsOrtho W := (blockDiag_isOrtho' _ _ fun m hm => rowMat_ortho (h m hm)).of_eqv hW.symm
  set C := mul (kron r1.cob r2.cob) W with hCd
  have hCo : IsOrtho C := mul_isOrtho (o1.kron o2) hWo (by rw [kron_cols, h1.cob_cols, h2.cob_cols, hW.1, hBs.1])
  set irr := r1.irreps.flatMap fun m => r2.irreps.flatMap (pairIrreps tens m) with hirr
  have hok : ∀ i ∈ irr, T.ok i = true := fun i hi => by
    obtain ⟨m, hm, hi⟩ := List.mem_flatMap.1 hi
    obtain ⟨n, hn, hi⟩ := List.mem_flatMap.1 hi
    exact pairIrreps_ok (h m hm n hn) i hi
  have hpos : 0 < r1.size * r2.size := Nat.mul_pos h1.pos h2.pos
  have hCr : C.rows = r1.size * r2.size := rfl
  have hten : tensor T tens cg taken r1 r2 = finish T taken (r1.name ++ " X " ++ r2.name) irr C (nonlin r1 r2) := by
    unfold tensor
    rw [← frame_zero]
    refine bind_eq hl ?_
    simp only [List.nil_append, zeros_rows, zero_add, h1.size]
    rw [if_neg (by rw [not_not]; exact hsz.symm), if_neg (by simp), if_neg (by rw [not_not]; exact hCr.symm), if_neg (by rw [not_not]; exact hCr.symm.trans hCo.1)]
  unfold finish at hten
  rw [if_pos hlen] at hten
  obtain ⟨r', e, -, -, -, hcob, -⟩ := C14_constructor hT taken (r1.name ++ " X " ++ r2.name) irr C _ (nonlin r1 r2) hname (by rw [hCr]; exact hpos) (IsInv.of_ortho hCo) hok (by rw [hsz, hCr]) false
  rw [hr] at hten
  obtain rfl := Except.ok.inj (hten.trans e)
  rw [hcob]
  exact hCo

end TensorRep

/-- The last rows of an intertwiner intertwine with the last block. -/
theorem lastRows_intertwines {A K U V : NpMat ℝ} {m d : ℕ} (hU : U.rows = m ∧ U.cols = m) (hV : V.rows = d ∧ V.cols = d) (hA : A.rows = m + d) (hAc : A.cols = K.rows)
    (h : mul A K ≈ mul (diag2 U V) A) : mul (lastRows A d) K ≈ mul V (lastRows A d) := by
  refine ⟨hV.1.symm, h.2.1, fun i j hi hj => ?_⟩
  have hi : i < d := hi
  have hj : j < K.cols := hj
  have key := h.2.2 (m + i) j (by show m + i < A.rows; omega) hj
  have hm : A.rows - d = m := by omega
  show ∑ k ∈ Finset.range A.cols, A.get (A.rows - d + i) k * K.get k j = ∑ k ∈ Finset.range V.cols, V.get i k * A.get (A.rows - d + k) j
  rw [hm]
  refine key.trans ?_
  show ∑ k ∈ Finset.range (U.cols + V.cols), _ * A.get k j = _
  rw [Finset.sum_range_add, hU.2]
  rw [Finset.sum_eq_zero, zero_add]
  · refine Finset.sum_congr rfl fun k _ => ?_
    simp only [diag2]
    rw [if_neg (by omega), if_neg (by omega), hU.1, hU.2]
    simp
  · intro k hk
    rw [Finset.mem_range] at hk
    simp only [diag2]
    rw [if_neg (by omega), if_pos (by omega), zero_mul]

/-- Rows of an orthogonal matrix are orthonormal. -/
theorem lastRows_orthonormal {A : NpMat ℝ} {d : ℕ} (hA : IsOrtho A) (hd : d ≤ A.rows) : mul (lastRows A d) (transpose (lastRows A d)) ≈ eye d := by
  refine ⟨rfl, rfl, fun i j hi hj => ?_⟩
  have hi : i < d := hi
  have hj : j < d := hj
  refine (hA.2.1.2.2 (A.rows - d + i) (A.rows - d + j) (by show _ < A.rows; omega) (by show _ < A.rows; omega)).trans ?_
  simp only [eye]
  by_cases h : i = j
  · rw [if_pos h, if_pos (by omega)]
  · rw [if_neg h, if_neg (by omega)]

namespace O3

variable {W : ℕ → UQuat → NpMat ℝ} {M : ℕ} {cg : ℕ × ℕ → ℕ × ℕ → ℕ × ℕ → CGArray}

theorem table_valid (hW : ∀ l, l ≠ 0 → l ≤ M → Wigner l (W l)) : (table W M).Valid O3El (combine fun q => q) identity := by
  intro i hi
  have hi' : i.1 ≤ 1 ∧ i.2 ≤ M := of_decide_eq_true hi
  obtain ⟨hs, hR⟩ := C79_o3_rep (j := i.1) fun h => hW i.2 h hi'.2
  have hsz : (table W M).size i = 2 * i.2 + 1 := hs
  rw [hsz]
  exact ⟨hR.rows, hR.cols, hR.one _ identity_el identity_act, fun g h hg hh => hR.hom g h _ hg hh (combine_el id_asQuat hg hh) (combine_act id_asQuat hg hh), hR.ortho⟩

theorem table_size (i : ℕ × ℕ) : (table W M).size i = 2 * i.2 + 1 := by
  show irrepSize i.2 = _
  unfold irrepSize
  split_ifs with h <;> omega

theorem table_ok {i : ℕ × ℕ} (h1 : i.1 ≤ 1) (h2 : i.2 ≤ M) : (table W M).ok i = true := decide_eq_true ⟨h1, h2⟩

theorem tensor_harmonic (k : ℕ) : tensorIrreps ((k + 1) % 2, k + 1) (1, 1) = [((k % 2, k), 1), ((k % 2, k + 1), 1), ((k % 2, k + 2), 1)] := by
  have h1 : ((((k + 1 : ℕ) : ℤ)) - ((1 : ℕ) : ℤ)).natAbs = k := by omega
  have h2 : k + 1 + 1 + 1 - k = 3 := by omega
  have h3 : ((k + 1) % 2 + 1) % 2 = k % 2 := by omega
  simp only [tensorIrreps, h1, h2, h3]
  simp [List.range'_succ]

end O3

variable {W : ℕ → UQuat → NpMat ℝ} {M : ℕ} {cg : ℕ × ℕ → ℕ × ℕ → ℕ × ℕ → CGArray}

/-- What is needed of the coefficients: those of the frequency `l - 1` with the frequency one. -/
abbrev HarmonicLaw (W : ℕ → UQuat → NpMat ℝ) (M : ℕ) (cg : ℕ × ℕ → ℕ × ℕ → ℕ × ℕ → CGArray) (k : ℕ) : Prop :=
  CGLaw O3El (O3.table W M).ok (O3.table W M).size (O3.table W M).mat O3.tensorIrreps cg ((k + 1) % 2, k + 1) (1, 1)

theorem harmonicCob_spec (hW : ∀ l, l ≠ 0 → l ≤ M → Wigner l (W l)) {k : ℕ} (hk : k + 2 ≤ M) (hcg : HarmonicLaw W M cg k) :
    ∃ A : NpMat ℝ, harmonicCob W M cg (k + 2) = .ok ⟨A.rows, A.cols, fun i j => √((2 * (k + 2 : ℕ) - 1) / (k + 2 : ℕ)) * A.get i j⟩ ∧
      A.rows = 2 * (k + 2) + 1 ∧ A.cols = (2 * (k + 1) + 1) * 3 ∧ mul A (transpose A) ≈ eye (2 * (k + 2) + 1) ∧
      ∀ g, O3El g → mul A (kron (O3.irrepMat W ((k + 1) % 2) (k + 1) g) (O3.irrepMat W 1 1 g)) ≈ mul (O3.irrepMat W ((k + 2) % 2) (k + 2) g) A := by
  have hT := O3.table_valid hW
  set T := O3.table W M with hTd
  have hok1 : T.ok ((k + 1) % 2, k + 1) = true := O3.table_ok (by show (k + 1) % 2 ≤ 1; omega) (by show k + 1 ≤ M; omega)
  have hok2 : T.ok (1, 1) = true := O3.table_ok le_rfl (by show 1 ≤ M; omega)
  have w1 := irrepRep_wf hT hok1 (by rw [O3.table_size]; omega) "irrep" ∅
  have w2 := irrepRep_wf hT hok2 (by rw [O3.table_size]; omega) "irrep" ∅
  have hir : ((irrepRep T "irrep" ∅ ((k + 1) % 2, k + 1)).irreps.flatMap fun m => (irrepRep T "irrep" ∅ (1, 1)).irreps.flatMap (TensorRep.pairIrreps O3.tensorIrreps m)) =
      [(k % 2, k), (k % 2, k + 1), (k % 2, k + 2)] := by
    simp [irrepRep, TensorRep.pairIrreps, O3.tensor_harmonic]
  obtain ⟨r, h1, h2, h3, h4, h5, h6⟩ := TensorRep.tensor_ortho (tens := O3.tensorIrreps) (cg := cg) hT [] w1 w2
    (fun m hm n hn => by rw [List.mem_singleton.1 hm, List.mem_singleton.1 hn]; exact hcg) (by simp) (eye_isOrtho _) (eye_isOrtho _) (by rw [hir]; simp)
  have h4 : r.irreps = [(k % 2, k), (k % 2, k + 1), (k % 2, k + 2)] := h4.trans hir
  have hsz : r.size = (2 * (k + 1) + 1) * 3 := by
    rw [h3]
    show T.size ((k + 1) % 2, k + 1) * T.size (1, 1) = _
    rw [O3.table_size, O3.table_size]
    rfl
  have hinv : r.cobInv ≈ transpose r.cob := ortho_inv_unique h6 rfl h2.inv_rows h2.inv.2.2.2.1
  have hio : IsOrtho r.cobInv := (isOrtho_transpose' h6).of_eqv hinv.symm
  have hir' : r.cobInv.rows = (2 * (k + 1) + 1) * 3 := h2.inv_rows.trans hsz
  refine ⟨lastRows r.cobInv (2 * (k + 2) + 1), ?_, rfl, ?_, lastRows_orthonormal hio (by omega), fun g hg => ?_⟩
  · unfold harmonicCob
    rw [if_neg (by omega)]
    refine bind_eq h1 ?_
    simp only
    rw [if_neg (not_not.2 (lastRows_orthonormal hio (by omega)))]
  · show r.cobInv.cols = _
    rw [← hio.1, hir']
  · have hs : ∀ j l, j ≤ 1 → l ≤ M → (O3.irrepMat W j l g).rows = 2 * l + 1 ∧ (O3.irrepMat W j l g).cols = 2 * l + 1 := fun j l hj hl => by
      have := hT (j, l) (O3.table_ok hj hl)
      have e1 := this.rows g hg
      have e2 := this.cols g hg
      rw [O3.table_size] at e1 e2
      exact ⟨e1, e2⟩
    have hk2 : (k + 2) % 2 = k % 2 := by omega
    rw [hk2]
    have sU := hs (k % 2) k (by omega) (by omega)
    have sU' := hs (k % 2) (k + 1) (by omega) (by omega)
    have sV := hs (k % 2) (k + 2) (by omega) (by omega)
    set K := kron (O3.irrepMat W ((k + 1) % 2) (k + 1) g) (O3.irrepMat W 1 1 g) with hK
    have hm : r.mat g ≈ K := h5 g hg
    have sK : K.rows = (2 * (k + 1) + 1) * 3 ∧ K.cols = (2 * (k + 1) + 1) * 3 := by
      have a := hs ((k + 1) % 2) (k + 1) (by omega) (by omega)
      have b := hs 1 1 le_rfl (by omega)
      exact ⟨by rw [hK, kron_rows, a.1, b.1], by rw [hK, kron_cols, a.2, b.2]⟩
    have hmat := h2.mat g hg
    rw [h4] at hmat
    have hbd : blockDiag ([(k % 2, k), (k % 2, k + 1), (k % 2, k + 2)].map fun i => T.mat i g) ≈
        diag2 (diag2 (O3.irrepMat W (k % 2) k g) (O3.irrepMat W (k % 2) (k + 1) g)) (O3.irrepMat W (k % 2) (k + 2) g) := by
      have e := blockDiag_append [O3.irrepMat W (k % 2) k g, O3.irrepMat W (k % 2) (k + 1) g] [O3.irrepMat W (k % 2) (k + 2) g]
      exact e.trans (diag2_congr (diag2_congr (Eqv.refl _) (diag2_empty_right _)) (diag2_empty_right _))
    set Φ := diag2 (diag2 (O3.irrepMat W (k % 2) k g) (O3.irrepMat W (k % 2) (k + 1) g)) (O3.irrepMat W (k % 2) (k + 2) g) with hΦ
    have sΦ : Φ.rows = (2 * (k + 1) + 1) * 3 ∧ Φ.cols = (2 * (k + 1) + 1) * 3 := by
      constructor
      · show (_ + _) + _ = _
        rw [sU.1, sU'.1, sV.1]; ring
      · show (_ + _) + _ = _
        rw [sU.2, sU'.2, sV.2]; ring
    have hmat' : K ≈ mul (mul r.cob Φ) r.cobInv := by
      refine hm.symm.trans (hmat.trans ?_)
      refine mul_congr_left _ (mul_congr_right _ hbd ?_) ?_
      · rw [h2.cob_cols, hsz, hbd.1, sΦ.1]
      · rw [mul_cols, hbd.2.1, sΦ.2, hir']
    have hint : mul r.cobInv K ≈ mul Φ r.cobInv := by
      refine (mul_congr_right _ hmat' (by rw [← hio.1, hir', sK.1])).trans ?_
      refine (mul_congr_right _ (mul_assoc' _ _ _) (by rw [← hio.1, hir', mul_rows, mul_rows]; exact hsz.symm)).trans ?_
      refine (mul_assoc' _ _ _).symm.trans ?_
      refine (mul_congr_left _ h2.inv.2.2.2.2 (by rw [mul_cols, h2.cob_cols, hsz, mul_rows, sΦ.1])).trans ?_
      exact eye_mul' _ (by rw [mul_rows, sΦ.1]; exact hsz.symm)
    refine lastRows_intertwines (m := (2 * k + 1) + (2 * (k + 1) + 1)) ⟨?_, ?_⟩ sV ?_ (by rw [← hio.1, hir', sK.1]) hint
    · show _ + _ = _
      rw [sU.1, sU'.1]
    · show _ + _ = _
      rw [sU.2, sU'.2]
    · rw [hir']; ring

/-! ### the polynomials -/

/-- The polynomials of degree one. -/
noncomputable def harm1 (C : ℕ → NpMat ℝ) (p : Fin 3 → ℝ) (j : ℕ) : ℝ := ∑ i ∈ Finset.range 3, p (Fin.ofNat 3 i) * (C 1).get j i

/-- The polynomials of degree `l`. -/
noncomputable def harmY (C : ℕ → NpMat ℝ) (p : Fin 3 → ℝ) : ℕ → ℕ → ℝ
  | 0 => fun _ => 1
  | 1 => harm1 C p
  | l + 2 => fun j => ∑ i ∈ Finset.range (C (l + 2)).cols, harmY C p (l + 1) (i / 3) * harm1 C p (i % 3) * (C (l + 2)).get j i

theorem harmonicLoop_spec (C : ℕ → NpMat ℝ) (p : Fin 3 → ℝ) : ∀ n k, (∀ i < n, (C (k + 2 + i)).rows = 2 * (k + 2 + i) + 1 ∧ (C (k + 2 + i)).cols = (2 * (k + 1 + i) + 1) * 3) →
    harmonicLoop (3, harm1 C p) (k + 2) (2 * (k + 1) + 1, harmY C p (k + 1)) ((List.range' (k + 2) n).map C) = .ok ((List.range' (k + 2) n).map fun l => (2 * l + 1, harmY C p l)) := by
  intro n
  induction n with
  | zero => intros; rfl
  | succ n ih =>
    intro k h
    obtain ⟨h1, h2⟩ := h 0 (by omega)
    rw [add_zero] at h1 h2
    rw [add_zero] at h2
    rw [List.range'_succ, List.map_cons, List.map_cons, harmonicLoop]
    rw [if_neg (by show ¬ (2 * (k + 1) + 1) * 3 ≠ 3 * (2 * (k + 2) - 1); omega), if_neg (by show ¬ (C (k + 2)).cols ≠ (2 * (k + 1) + 1) * 3; omega), if_neg (by omega)]
    have := ih (k + 1) fun i hi => by
      have := h (i + 1) (by omega)
      rw [show k + 1 + 2 + i = k + 2 + (i + 1) by ring, show k + 1 + 1 + i = k + 1 + (i + 1) by ring]
      exact this
    simp only
    rw [h1]
    exact bind_eq this rfl

theorem catFeatures_spec (f : ℕ → ℕ → ℝ) : ∀ n a j c, a ≤ j → j < a + n → c < 2 * j + 1 →
    catFeatures ((List.range' a n).map fun l => (2 * l + 1, f l)) (j ^ 2 - a ^ 2 + c) = f j c := by
  intro n
  induction n with
  | zero => intros; omega
  | succ n ih =>
    intro a j c h1 h2 h3
    rw [List.range'_succ, List.map_cons, catFeatures]
    by_cases h : a = j
    · subst h
      rw [Nat.sub_self, zero_add, if_pos h3]
    · have hle : (a + 1) ^ 2 ≤ j ^ 2 := Nat.pow_le_pow_left (by omega) 2
      have he : (a + 1) ^ 2 = a ^ 2 + (2 * a + 1) := by ring
      rw [if_neg (by simp only; omega)]
      have := ih (a + 1) j c (by omega) (by omega) h3
      rw [show j ^ 2 - a ^ 2 + c - (2 * a + 1) = j ^ 2 - (a + 1) ^ 2 + c by omega]
      exact this

/-- `forward` returns the polynomials one degree after the other. -/
theorem harmonics_spec (C : ℕ → NpMat ℝ) (L : ℕ) (p : Fin 3 → ℝ) (h1 : (C 1).rows = 3)
    (h : ∀ k, k + 2 ≤ L → (C (k + 2)).rows = 2 * (k + 2) + 1 ∧ (C (k + 2)).cols = (2 * (k + 1) + 1) * 3) :
    ∃ y, harmonics ((List.range' 1 L).map C) p = .ok y ∧ ∀ j ≤ L, ∀ c < 2 * j + 1, y (j ^ 2 + c) = harmY C p j c := by
  refine ⟨catFeatures ((List.range' 0 (L + 1)).map fun l => (2 * l + 1, harmY C p l)), ?_, fun j hj c hc => by simpa using catFeatures_spec (harmY C p) (L + 1) 0 j c (by omega) (by omega) hc⟩
  rcases L with _ | L
  · rfl
  · have hloop := harmonicLoop_spec C p L 0 fun i hi => by
      have := h i (by omega)
      rw [show 0 + 2 + i = i + 2 by ring, show 0 + 1 + i = i + 1 by ring]
      exact this
    rw [List.range'_succ, List.map_cons, harmonics, h1]
    exact bind_eq hloop rfl

/-! ### equivariance and size -/

/-- Rows which are orthonormal do not enlarge a vector. -/
theorem orthonormal_rows_le {A : NpMat ℝ} (h : mul A (transpose A) ≈ eye A.rows) (x : ℕ → ℝ) :
    ∑ i ∈ Finset.range A.rows, (∑ k ∈ Finset.range A.cols, x k * A.get i k) ^ 2 ≤ ∑ k ∈ Finset.range A.cols, x k ^ 2 := by
  set y : ℕ → ℝ := fun i => ∑ k ∈ Finset.range A.cols, x k * A.get i k with hy
  have h0 : 0 ≤ ∑ k ∈ Finset.range A.cols, (x k - ∑ i ∈ Finset.range A.rows, y i * A.get i k) ^ 2 := Finset.sum_nonneg fun _ _ => sq_nonneg _
  have e1 : ∑ k ∈ Finset.range A.cols, x k * ∑ i ∈ Finset.range A.rows, y i * A.get i k = ∑ i ∈ Finset.range A.rows, y i ^ 2 := by
    simp only [Finset.mul_sum]
    rw [Finset.sum_comm]
    refine Finset.sum_congr rfl fun i _ => ?_
    rw [sq]
    nth_rewrite 2 [hy]
    simp only
    rw [Finset.mul_sum]
    exact Finset.sum_congr rfl fun k _ => by ring
  have e2 : ∑ k ∈ Finset.range A.cols, (∑ i ∈ Finset.range A.rows, y i * A.get i k) ^ 2 = ∑ i ∈ Finset.range A.rows, y i ^ 2 := by
    have : ∀ k, (∑ i ∈ Finset.range A.rows, y i * A.get i k) ^ 2 = ∑ i ∈ Finset.range A.rows, ∑ j ∈ Finset.range A.rows, y i * y j * (A.get i k * A.get j k) := fun k => by
      rw [sq, Finset.sum_mul_sum]
      exact Finset.sum_congr rfl fun i _ => Finset.sum_congr rfl fun j _ => by ring
    simp only [this]
    rw [Finset.sum_comm]
    refine Finset.sum_congr rfl fun i hi => ?_
    rw [Finset.sum_comm]
    rw [Finset.mem_range] at hi
    have e : ∀ j ∈ Finset.range A.rows, ∑ k ∈ Finset.range A.cols, y i * y j * (A.get i k * A.get j k) = if i = j then y i ^ 2 else 0 := fun j hj => by
      rw [Finset.mem_range] at hj
      rw [← Finset.mul_sum]
      have := h.2.2 i j hi hj
      simp only [mul, transpose, eye] at this
      rw [this]
      split_ifs with hij
      · rw [← hij]; ring
      · ring
    rw [Finset.sum_congr rfl e, Finset.sum_ite_eq, if_pos (Finset.mem_range.2 hi)]
  have e3 : ∑ k ∈ Finset.range A.cols, (x k - ∑ i ∈ Finset.range A.rows, y i * A.get i k) ^ 2 =
      ∑ k ∈ Finset.range A.cols, x k ^ 2 - 2 * ∑ k ∈ Finset.range A.cols, x k * ∑ i ∈ Finset.range A.rows, y i * A.get i k + ∑ k ∈ Finset.range A.cols, (∑ i ∈ Finset.range A.rows, y i * A.get i k) ^ 2 := by
    rw [Finset.mul_sum, ← Finset.sum_sub_distrib, ← Finset.sum_add_distrib]
    exact Finset.sum_congr rfl fun k _ => by ring
  rw [e3, e1, e2] at h0
  linarith

/-- What the buffers satisfy. -/
structure HarmonicCobs (W : ℕ → UQuat → NpMat ℝ) (L : ℕ) (C : ℕ → NpMat ℝ) : Prop where
  first : C 1 = transpose SO3.standardCob
  rest : ∀ k, k + 2 ≤ L → ∃ A : NpMat ℝ, C (k + 2) = ⟨A.rows, A.cols, fun i j => √((2 * (k + 2 : ℕ) - 1) / (k + 2 : ℕ)) * A.get i j⟩ ∧
      A.rows = 2 * (k + 2) + 1 ∧ A.cols = (2 * (k + 1) + 1) * 3 ∧ mul A (transpose A) ≈ eye (2 * (k + 2) + 1) ∧
      ∀ g, O3El g → mul A (kron (O3.irrepMat W ((k + 1) % 2) (k + 1) g) (O3.irrepMat W 1 1 g)) ≈ mul (O3.irrepMat W ((k + 2) % 2) (k + 2) g) A

theorem harmonicCobs_spec (hW : ∀ l, l ≠ 0 → l ≤ M → Wigner l (W l)) {L : ℕ} (hL : L ≤ M) (hcg : ∀ k, k + 2 ≤ L → HarmonicLaw W M cg k) :
    ∃ C, harmonicCobs W M cg L = .ok ((List.range' 1 L).map C) ∧ HarmonicCobs W L C := by
  haveI : Nonempty (NpMat ℝ) := ⟨eye 0⟩
  choose! A hA using fun k (hk : k + 2 ≤ L) => harmonicCob_spec (cg := cg) hW (k := k) (by omega) (hcg k hk)
  refine ⟨fun l => if l = 1 then transpose SO3.standardCob else ⟨(A (l - 2)).rows, (A (l - 2)).cols, fun i j => √((2 * l - 1) / l) * (A (l - 2)).get i j⟩, ?_, ?_⟩
  · refine mapM_map_ok _ fun l hl => ?_
    rw [List.mem_range'_1] at hl
    by_cases h1 : l = 1
    · unfold harmonicCob
      rw [if_pos h1, if_pos h1]
    · obtain ⟨k, rfl⟩ : ∃ k, l = k + 2 := ⟨l - 2, by omega⟩
      rw [if_neg h1]
      exact (hA k (by omega)).1
  · refine ⟨if_pos rfl, fun k hk => ⟨A k, ?_, (hA k hk).2⟩⟩
    rw [if_neg (by omega)]
    rfl

variable {L : ℕ} {C : ℕ → NpMat ℝ}

theorem harm1_eq (hC : HarmonicCobs W L C) (p : Fin 3 → ℝ) {j : ℕ} (hj : j < 3) : harm1 C p j = p (harmonicAxis j) := by
  unfold harm1
  rw [hC.first]
  interval_cases j <;> simp [Finset.sum_range_succ, transpose, SO3.standardCob, harmonicAxis, Fin.ofNat]

theorem irrep_one (hW : Wigner 1 (W 1)) {e : O3.Elem} (he : O3El e) : O3.irrepMat W 1 1 e ≈ ⟨3, 3, fun i k => act3 e (harmonicAxis i) (harmonicAxis k)⟩ := by
  have hs : O3.invAction 1 e = (-1 : ℝ) ^ e.1.toNat := by
    rcases he.1 with h | h
    · rw [O3.invAction_zero h, h]; simp
    · rw [O3.invAction_one h, h]; simp
  have h0 := hW.one rfl e.2 he.2
  refine (O3.irrepMat_eq (fun _ => hW) he).trans ⟨rfl, rfl, fun a b ha hb => ?_⟩
  change _ * _ = _
  rw [SO3.irrepMat, if_neg one_ne_zero, h0.2.2 a b (by rw [hW.rows _ he.2]; exact ha) (by rw [hW.cols _ he.2]; exact hb), hs, act3]
  simp [mul_comm]

/-- The polynomials of a moved point. -/
theorem harmY_equiv (hW : ∀ l, l ≠ 0 → l ≤ L → Wigner l (W l)) (hC : HarmonicCobs W L C) {g : O3.Elem} (hg : O3El g) (p : Fin 3 → ℝ) :
    ∀ l ≤ L, ∀ c < 2 * l + 1, harmY C (Matrix.mulVec (act3 g) p) l c = ∑ c' ∈ Finset.range (2 * l + 1), (O3.irrepMat W (l % 2) l g).get c c' * harmY C p l c' := by
  have one : 1 ≤ L → ∀ c < 3, harm1 C (Matrix.mulVec (act3 g) p) c = ∑ c' ∈ Finset.range 3, (O3.irrepMat W 1 1 g).get c c' * harm1 C p c' := by
    intro hl c hc
    have h := irrep_one (hW 1 one_ne_zero hl) hg
    rw [harm1_eq hC _ hc, Finset.sum_congr rfl fun c' hc' => by
      rw [harm1_eq hC p (Finset.mem_range.1 hc'), h.2.2 c c' (by rw [h.1]; exact hc) (by rw [h.2.1]; exact Finset.mem_range.1 hc')]]
    simp only [Matrix.mulVec, dotProduct, Fin.sum_univ_three, Finset.sum_range_succ, Finset.sum_range_zero, zero_add]
    simp only [show harmonicAxis 0 = 1 from rfl, show harmonicAxis 1 = 2 from rfl, show harmonicAxis 2 = 0 from rfl]
    ring
  intro l
  induction l using Nat.strong_induction_on with
  | _ l ih =>
    intro hl c hc
    match l, ih, hl, hc with
    | 0, _, _, hc =>
      obtain rfl : c = 0 := by omega
      simp [harmY, O3.irrepMat, eye]
    | 1, _, hl, hc => exact one hl c hc
    | k + 2, ih, hl, hc =>
      obtain ⟨A, h1, h2, h3, -, h5⟩ := hC.rest k hl
      have ihk := ih (k + 1) (by omega) (by omega)
      have hr : ∀ j l, l ≤ L → (O3.irrepMat W j l g).rows = 2 * l + 1 ∧ (O3.irrepMat W j l g).cols = 2 * l + 1 := fun j l hl => by
        have := (O3.C79_o3_rep (j := j) fun h => hW l h hl).2
        exact ⟨this.rows g hg, this.cols g hg⟩
      set D := O3.irrepMat W ((k + 1) % 2) (k + 1) g with hD
      set E := O3.irrepMat W 1 1 g with hE
      set V := O3.irrepMat W ((k + 2) % 2) (k + 2) g with hV
      have sD := hr ((k + 1) % 2) (k + 1) (by omega)
      have sE := hr 1 1 (by omega)
      have sV := hr ((k + 2) % 2) (k + 2) hl
      rw [← hD] at sD
      rw [← hE] at sE
      rw [← hV] at sV
      set s : ℝ := √((2 * (k + 2 : ℕ) - 1) / (k + 2 : ℕ)) with hs
      have hcols : (C (k + 2)).cols = (2 * (k + 1) + 1) * 3 := by rw [h1]; exact h3
      have hget : ∀ i j, (C (k + 2)).get i j = s * A.get i j := fun i j => by rw [h1]
      simp only [harmY, hcols, hget]
      -- the products of the moved point
      have hx : ∀ i, i < (2 * (k + 1) + 1) * 3 → harmY C (Matrix.mulVec (act3 g) p) (k + 1) (i / 3) * harm1 C (Matrix.mulVec (act3 g) p) (i % 3) =
          ∑ i' ∈ Finset.range ((2 * (k + 1) + 1) * 3), (kron D E).get i i' * (harmY C p (k + 1) (i' / 3) * harm1 C p (i' % 3)) := fun i hi => by
        rw [ihk (i / 3) (by omega), one (by omega) (i % 3) (by omega), Finset.sum_mul_sum,
          ← sum_range_mul' (2 * (k + 1) + 1) 3 fun a b => D.get (i / 3) a * harmY C p (k + 1) a * (E.get (i % 3) b * harm1 C p b)]
        refine Finset.sum_congr rfl fun i' _ => ?_
        simp only [kron, sE.1, sE.2]
        ring
      have hl : ∀ i ∈ Finset.range ((2 * (k + 1) + 1) * 3), harmY C (Matrix.mulVec (act3 g) p) (k + 1) (i / 3) * harm1 C (Matrix.mulVec (act3 g) p) (i % 3) * (s * A.get c i) =
          ∑ i' ∈ Finset.range ((2 * (k + 1) + 1) * 3), s * (A.get c i * (kron D E).get i i') * (harmY C p (k + 1) (i' / 3) * harm1 C p (i' % 3)) := fun i hi => by
        rw [hx i (Finset.mem_range.1 hi), Finset.sum_mul]
        exact Finset.sum_congr rfl fun _ _ => by ring
      rw [Finset.sum_congr rfl hl, Finset.sum_comm]
      have hr : ∀ c' ∈ Finset.range (2 * (k + 2) + 1), V.get c c' * ∑ i ∈ Finset.range ((2 * (k + 1) + 1) * 3), harmY C p (k + 1) (i / 3) * harm1 C p (i % 3) * (s * A.get c' i) =
          ∑ i ∈ Finset.range ((2 * (k + 1) + 1) * 3), s * (V.get c c' * A.get c' i) * (harmY C p (k + 1) (i / 3) * harm1 C p (i % 3)) := fun c' _ => by
        rw [Finset.mul_sum]
        exact Finset.sum_congr rfl fun _ _ => by ring
      rw [Finset.sum_congr rfl hr]
      conv_rhs => rw [Finset.sum_comm]
      refine Finset.sum_congr rfl fun i' hi' => ?_
      rw [← Finset.sum_mul, ← Finset.sum_mul, ← Finset.mul_sum, ← Finset.mul_sum]
      have := (h5 g hg).2.2 c i' (by rw [mul_rows, h2]; exact hc) (by rw [mul_cols, kron_cols, sD.2, sE.2]; exact Finset.mem_range.1 hi')
      simp only [mul, h3] at this
      rw [this, show (O3.irrepMat W ((k + 2) % 2) (k + 2) g).cols = _ from sV.2]

/-- The polynomials of a short vector are small. -/
theorem harmY_le (hC : HarmonicCobs W L C) (p : Fin 3 → ℝ) : ∀ l ≤ L, ∑ c ∈ Finset.range (2 * l + 1), harmY C p l c ^ 2 ≤ (2 * (p 0 ^ 2 + p 1 ^ 2 + p 2 ^ 2)) ^ l := by
  have one : ∑ c ∈ Finset.range 3, harm1 C p c ^ 2 = p 0 ^ 2 + p 1 ^ 2 + p 2 ^ 2 := by
    rw [Finset.sum_congr rfl fun c hc => by rw [harm1_eq hC p (Finset.mem_range.1 hc)]]
    simp only [Finset.sum_range_succ, Finset.sum_range_zero, zero_add, show harmonicAxis 0 = 1 from rfl, show harmonicAxis 1 = 2 from rfl, show harmonicAxis 2 = 0 from rfl]
    ring
  set n := p 0 ^ 2 + p 1 ^ 2 + p 2 ^ 2 with hn
  have hn0 : 0 ≤ n := by positivity
  intro l
  induction l using Nat.strong_induction_on with
  | _ l ih =>
    intro hl
    match l, ih, hl with
    | 0, _, _ => simp [harmY]
    | 1, _, _ =>
      refine one.le.trans ?_
      rw [pow_one]; linarith
    | k + 2, ih, hl =>
      obtain ⟨A, h1, h2, h3, h4, -⟩ := hC.rest k hl
      have ihk := ih (k + 1) (by omega) (by omega)
      set s : ℝ := √((2 * (k + 2 : ℕ) - 1) / (k + 2 : ℕ)) with hs
      have hs2 : s ^ 2 ≤ 2 := by
        have hk : (0 : ℝ) < ((k + 2 : ℕ) : ℝ) := by positivity
        have hk1 : (1 : ℝ) ≤ ((k + 2 : ℕ) : ℝ) := by exact_mod_cast (by omega : 1 ≤ k + 2)
        rw [hs, sq_sqrt (div_nonneg (by linarith) hk.le), div_le_iff₀ hk]
        linarith
      have hcols : (C (k + 2)).cols = (2 * (k + 1) + 1) * 3 := by rw [h1]; exact h3
      have hget : ∀ i j, (C (k + 2)).get i j = s * A.get i j := fun i j => by rw [h1]
      simp only [harmY, hcols, hget]
      have e : ∀ c, ∑ i ∈ Finset.range ((2 * (k + 1) + 1) * 3), harmY C p (k + 1) (i / 3) * harm1 C p (i % 3) * (s * A.get c i) =
          s * ∑ i ∈ Finset.range A.cols, (harmY C p (k + 1) (i / 3) * harm1 C p (i % 3)) * A.get c i := fun c => by
        rw [h3, Finset.mul_sum]
        exact Finset.sum_congr rfl fun _ _ => by ring
      simp only [e, mul_pow s, ← Finset.mul_sum]
      have hle := orthonormal_rows_le (A := A) (by rw [h2]; exact h4) fun i => harmY C p (k + 1) (i / 3) * harm1 C p (i % 3)
      rw [h2, h3] at hle
      have e2 : ∑ i ∈ Finset.range ((2 * (k + 1) + 1) * 3), (harmY C p (k + 1) (i / 3) * harm1 C p (i % 3)) ^ 2 = (∑ c ∈ Finset.range (2 * (k + 1) + 1), harmY C p (k + 1) c ^ 2) * n := by
        rw [← one, Finset.sum_mul_sum, ← sum_range_mul' (2 * (k + 1) + 1) 3 fun a b => harmY C p (k + 1) a ^ 2 * harm1 C p b ^ 2]
        exact Finset.sum_congr rfl fun _ _ => by ring
      rw [e2] at hle
      rw [h3]
      have hp : 0 ≤ ∑ c ∈ Finset.range (2 * (k + 1) + 1), harmY C p (k + 1) c ^ 2 := Finset.sum_nonneg fun _ _ => sq_nonneg _
      calc s ^ 2 * _ ≤ 2 * ((∑ c ∈ Finset.range (2 * (k + 1) + 1), harmY C p (k + 1) c ^ 2) * n) :=
            mul_le_mul hs2 hle (Finset.sum_nonneg fun _ _ => sq_nonneg _) (by norm_num)
        _ ≤ 2 * ((2 * n) ^ (k + 1) * n) := by
            have := mul_le_mul_of_nonneg_right ihk hn0
            linarith
        _ = (2 * n) ^ (k + 2) := by ring

end Escnn
