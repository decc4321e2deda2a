import Verif.Model.SteerableBasis
import Verif.Lemmas.Kernels
import Verif.Lemmas.Locate
import Verif.Lemmas.BlockRows
import Verif.Lemmas.Fields
import Verif.Props.C14_DirectSum

/-!
# The loops of SteerableKernelBasis
-/

namespace Escnn

open NpMat

namespace SKB

variable {G J J' P A : Type} [DecidableEq J]

/-- The generator returns a basis or raises `EmptyBasisException` for these irreps. -/
def GenTotal (gen : J' → J' → Except Err (IBasis J J' A)) (L M : List J') : Prop :=
  ∀ i ∈ L, ∀ o ∈ M, gen i o = .error .emptyBasis ∨ ∃ b, gen i o = .ok b

/-- A weight of the generated basis, zero if it is empty. -/
def genW (w : IBasis J J' A → ℕ) (r : Except Err (IBasis J J' A)) : ℕ :=
  match r with
  | .ok b => w b
  | .error _ => 0

/-- What is known about a cell. -/
structure CellOk (size : J' → ℕ) (gen : J' → J' → Except Err (IBasis J J' A)) (L M : List J') (c : Cell J J' A) : Prop where
  ex : ∃ i o, L[c.ii]? = some i ∧ M[c.oo]? = some o ∧ gen i o = .ok c.basis ∧ c.iSize = size i ∧ c.oSize = size o
  iPos : c.iPos = chanOffset size L c.ii
  oPos : c.oPos = chanOffset size M c.oo

theorem cellsOut_spec (size : J' → ℕ) (gen : J' → J' → Except Err (IBasis J J' A)) (ii iPos : ℕ) (i : J') : ∀ (M : List J') (oo oPos : ℕ),
    (∀ o ∈ M, gen i o = .error .emptyBasis ∨ ∃ b, gen i o = .ok b) →
    ∃ cs, cellsOut size gen ii iPos i oo oPos M = .ok cs ∧
      (∀ c ∈ cs, c.ii = ii ∧ c.iPos = iPos ∧ c.iSize = size i ∧ ∃ k o, c.oo = oo + k ∧ M[k]? = some o ∧ gen i o = .ok c.basis ∧ c.oSize = size o ∧ c.oPos = oPos + chanOffset size M k) ∧
      (∀ k o b, M[k]? = some o → gen i o = .ok b → ∃ c ∈ cs, c.oo = oo + k) ∧
      (cs.map fun c => c.oo).Nodup ∧
      ∀ w : IBasis J J' A → ℕ, (cs.map fun c => w c.basis).sum = (M.map fun o => genW w (gen i o)).sum
  | [], oo, oPos, _ => ⟨[], rfl, by simp, by simp, by simp, by simp⟩
  | o :: M, oo, oPos, h => by
    obtain ⟨cs, h1, h2, h3, h4, h5⟩ := cellsOut_spec size gen ii iPos i M (oo + 1) (oPos + size o) fun o ho => h o (by simp [ho])
    have hbig : ∀ c ∈ cs, oo < c.oo := fun c hc => by
      obtain ⟨-, -, -, k, o', e, -⟩ := h2 c hc
      omega
    have h2' : ∀ c ∈ cs, c.ii = ii ∧ c.iPos = iPos ∧ c.iSize = size i ∧ ∃ k o', c.oo = oo + k ∧ (o :: M)[k]? = some o' ∧ gen i o' = .ok c.basis ∧ c.oSize = size o' ∧
        c.oPos = oPos + chanOffset size (o :: M) k := fun c hc => by
      obtain ⟨a1, a2, a3, k, o', e, e1, e2, e3, e4⟩ := h2 c hc
      refine ⟨a1, a2, a3, k + 1, o', by omega, by simpa using e1, e2, e3, ?_⟩
      rw [chanOffset_cons_succ, e4]; omega
    rw [cellsOut]
    rcases h o (by simp) with hg | ⟨b, hg⟩
    · refine ⟨cs, ?_, h2', ?_, h4, fun w => ?_⟩
      · rw [hg]
        simp only [tryBasis, bind, Except.bind]
        rw [h1]
      · intro k o' b hk hb
        cases k with
        | zero => simp at hk; subst hk; rw [hg] at hb; simp at hb
        | succ k =>
          obtain ⟨c, hc, e⟩ := h3 k o' b (by simpa using hk) hb
          exact ⟨c, hc, by omega⟩
      · rw [h5 w, List.map_cons, List.sum_cons, hg]; simp [genW]
    · refine ⟨⟨ii, oo, iPos, size i, oPos, size o, b⟩ :: cs, ?_, ?_, ?_, ?_, fun w => ?_⟩
      · rw [hg]
        simp only [tryBasis, bind, Except.bind]
        rw [h1]
      · intro c hc
        rcases List.mem_cons.1 hc with rfl | hc
        · exact ⟨rfl, rfl, rfl, 0, o, rfl, rfl, hg, rfl, rfl⟩
        · exact h2' c hc
      · intro k o' b' hk hb
        cases k with
        | zero => exact ⟨_, List.mem_cons_self, rfl⟩
        | succ k =>
          obtain ⟨c, hc, e⟩ := h3 k o' b' (by simpa using hk) hb
          exact ⟨c, by simp [hc], by omega⟩
      · rw [List.map_cons, List.nodup_cons]
        refine ⟨fun hmem => ?_, h4⟩
        obtain ⟨c, hc, e⟩ := List.mem_map.1 hmem
        have := hbig c hc
        simp only at e
        omega
      · rw [List.map_cons, List.sum_cons, h5 w, List.map_cons, List.sum_cons, hg]; rfl

theorem cellsIn_spec (size : J' → ℕ) (gen : J' → J' → Except Err (IBasis J J' A)) (M : List J') : ∀ (L : List J') (ii iPos : ℕ), GenTotal gen L M →
    ∃ cs, cellsIn size gen M ii iPos L = .ok cs ∧
      (∀ c ∈ cs, ∃ k i o, c.ii = ii + k ∧ L[k]? = some i ∧ M[c.oo]? = some o ∧ gen i o = .ok c.basis ∧ c.iSize = size i ∧ c.oSize = size o ∧
        c.iPos = iPos + chanOffset size L k ∧ c.oPos = chanOffset size M c.oo) ∧
      (∀ k i l o b, L[k]? = some i → M[l]? = some o → gen i o = .ok b → ∃ c ∈ cs, c.ii = ii + k ∧ c.oo = l) ∧
      (cs.map fun c => (c.ii, c.oo)).Nodup ∧
      ∀ w : IBasis J J' A → ℕ, (cs.map fun c => w c.basis).sum = (L.map fun i => (M.map fun o => genW w (gen i o)).sum).sum
  | [], ii, iPos, _ => ⟨[], rfl, by simp, by simp, by simp, by simp⟩
  | i :: L, ii, iPos, h => by
    obtain ⟨cs, h1, h2, h3, h4, h5⟩ := cellsIn_spec size gen M L (ii + 1) (iPos + size i) fun i hi => h i (by simp [hi])
    obtain ⟨ds, g1, g2, g3, g4, g5⟩ := cellsOut_spec size gen ii iPos i M 0 0 (h i (by simp))
    refine ⟨ds ++ cs, ?_, ?_, ?_, ?_, fun w => ?_⟩
    · rw [cellsIn, g1]
      simp only [bind, Except.bind]
      rw [h1]
    · intro c hc
      rcases List.mem_append.1 hc with hc | hc
      · obtain ⟨a1, a2, a3, k, o, e, e1, e2, e3, e4⟩ := g2 c hc
        rw [zero_add] at e e4
        subst e
        exact ⟨0, i, o, a1, rfl, e1, e2, a3, e3, by simpa using a2, e4⟩
      · obtain ⟨k, i', o, e, e1, e2, e3, e4, e5, e6, e7⟩ := h2 c hc
        refine ⟨k + 1, i', o, by omega, by simpa using e1, e2, e3, e4, e5, ?_, e7⟩
        rw [chanOffset_cons_succ, e6]; omega
    · intro k i' l o b hk hl hb
      cases k with
      | zero =>
        simp at hk
        subst hk
        obtain ⟨c, hc, e⟩ := g3 l o b hl hb
        exact ⟨c, by simp [hc], (g2 c hc).1, by omega⟩
      | succ k =>
        obtain ⟨c, hc, e, e'⟩ := h3 k i' l o b (by simpa using hk) hl hb
        exact ⟨c, by simp [hc], by omega, e'⟩
    · rw [List.map_append, List.nodup_append]
      refine ⟨?_, h4, ?_⟩
      · refine List.Nodup.of_map Prod.snd ?_
        rw [List.map_map]; exact g4
      · intro a ha b hb hab
        obtain ⟨c, hc, rfl⟩ := List.mem_map.1 ha
        obtain ⟨c', hc', rfl⟩ := List.mem_map.1 hb
        obtain ⟨k, i', o, e, -⟩ := h2 c' hc'
        have := (g2 c hc).1
        have := (Prod.mk.inj hab).1
        omega
    · rw [List.map_append, List.sum_append, g5 w, h5 w, List.map_cons, List.sum_cons]

/-- The rows and columns of a cell. -/
def Inside (c : Cell J J' A) (o i : ℕ) : Prop := (c.oPos ≤ o ∧ o < c.oPos + c.oSize) ∧ (c.iPos ≤ i ∧ i < c.iPos + c.iSize)

instance (c : Cell J J' A) (o i : ℕ) : Decidable (Inside c o i) := by unfold Inside; infer_instance

theorem cellSlices_count (b : IBasis J J' A) : ∀ (L : List J) (count : J → ℕ), L.Nodup → ∀ j,
    (cellSlices b count L).2 j = count j + if j ∈ L then b.dimH j else 0
  | [], count, _, j => by simp [cellSlices]
  | j0 :: L, count, hL, j => by
    rw [List.nodup_cons] at hL
    rw [cellSlices]
    simp only
    rw [cellSlices_count b L _ hL.2 j]
    by_cases h : j = j0
    · subst h
      rw [Function.update_self, if_neg hL.1, if_pos (by simp)]; omega
    · rw [Function.update_of_ne h]
      simp [h]

theorem cellSlices_eq (b : IBasis J J' A) : ∀ (L : List J) (count : J → ℕ), L.Nodup → (cellSlices b count L).1 = L.map fun j => (j, count j, count j + b.dimH j)
  | [], count, _ => rfl
  | j0 :: L, count, hL => by
    rw [List.nodup_cons] at hL
    rw [cellSlices]
    simp only
    rw [cellSlices_eq b L _ hL.2, List.map_cons]
    congr 1
    refine List.map_congr_left fun j hj => ?_
    rw [Function.update_of_ne]
    rintro rfl
    exact hL.1 hj

theorem writeCell_spec (d : List (J × (ℕ → ℕ → ℝ))) (Y : J → ℕ → ℕ → ℝ) (c : Cell J J' A) (count : J → ℕ) : ∀ (L : List J) (out : J → ℕ → ℕ → ℕ → ℝ), L.Nodup →
    (∀ j ∈ L, dictGet d j = .ok (Y j)) →
    ∃ out', writeCell d c out (L.map fun j => (j, count j, count j + c.basis.dimH j)) = .ok out' ∧ ∀ j b o i, out' j b o i =
      if j ∈ L ∧ (count j ≤ b ∧ b < count j + c.basis.dimH j) ∧ Inside c o i then c.basis.block j (Y j) (b - count j) (o - c.oPos) (i - c.iPos) else out j b o i
  | [], out, _, _ => ⟨out, rfl, by simp⟩
  | j0 :: L, out, hL, hY => by
    rw [List.nodup_cons] at hL
    rw [List.map_cons, writeCell, hY j0 (by simp)]
    obtain ⟨out', h1, h2⟩ := writeCell_spec d Y c count L (writeBlock out c j0 (count j0) (count j0 + c.basis.dimH j0) (c.basis.block j0 (Y j0))) hL.2 fun j hj => hY j (by simp [hj])
    refine ⟨out', h1, fun j b o i => ?_⟩
    rw [h2, writeBlock]
    by_cases hj : j = j0
    · subst hj
      rw [if_neg fun h => hL.1 h.1]
      simp only [true_and, List.mem_cons, true_or, Inside]
    · simp [hj]

theorem slicesLoop_get : ∀ (cs : List (Cell J J' A)) (count : J → ℕ), (∀ c ∈ cs, c.basis.js.Nodup) → ∀ (k : ℕ) (c : Cell J J' A), cs[k]? = some c →
    (slicesLoop count cs)[k]? = some (c, c.basis.js.map fun j => (j, count j + dimHarm (cs.take k) j, count j + dimHarm (cs.take k) j + c.basis.dimH j))
  | [], _, _, _, _, h => by simp at h
  | c0 :: cs, count, hn, k, c, h => by
    rw [slicesLoop]
    cases k with
    | zero =>
      simp only [List.getElem?_cons_zero, Option.some.injEq] at h ⊢
      subst h
      rw [cellSlices_eq _ _ _ (hn c0 (by simp))]
      simp [dimHarm]
    | succ k =>
      rw [List.getElem?_cons_succ] at h ⊢
      rw [slicesLoop_get cs _ (fun c hc => hn c (by simp [hc])) k c h]
      simp only [cellSlices_count c0.basis c0.basis.js count (hn c0 (by simp)), List.take_succ_cons, dimHarm, List.map_cons, List.sum_cons, add_assoc]

theorem slicesLoop_length : ∀ (cs : List (Cell J J' A)) (count : J → ℕ), (slicesLoop count cs).length = cs.length
  | [], _ => rfl
  | c :: cs, count => by
    rw [slicesLoop]
    simp only [List.length_cons]
    rw [slicesLoop_length cs]

/-- The weight of a cell for the harmonic `j`. -/
def cw (j : J) (c : Cell J J' A) : ℕ := if j ∈ c.basis.js then c.basis.dimH j else 0

theorem directSum_spec (d : List (J × (ℕ → ℕ → ℝ))) (Y : J → ℕ → ℕ → ℝ) : ∀ (cs : List (Cell J J' A)) (count : J → ℕ) (out : J → ℕ → ℕ → ℕ → ℝ),
    (∀ c ∈ cs, c.basis.js.Nodup) → (∀ c ∈ cs, ∀ j ∈ c.basis.js, dictGet d j = .ok (Y j)) →
    ∃ out', directSum d out (slicesLoop count cs) = .ok out' ∧ (∀ j b o i, b < count j → out' j b o i = out j b o i) ∧
      ∀ j b c b', IBasis.locate (cw j) cs b = some (c, b') → ∀ o i, out' j (count j + b) o i =
        if Inside c o i then c.basis.block j (Y j) b' (o - c.oPos) (i - c.iPos) else out j (count j + b) o i
  | [], count, out, _, _ => ⟨out, rfl, by simp, by simp [IBasis.locate]⟩
  | c0 :: cs, count, out, hn, hY => by
    rw [slicesLoop]
    rw [directSum, cellSlices_eq _ _ _ (hn c0 (by simp))]
    obtain ⟨o1, e1, h1⟩ := writeCell_spec d Y c0 count c0.basis.js out (hn c0 (by simp)) (hY c0 (by simp))
    rw [e1]
    simp only [bind, Except.bind]
    have hcount : (cellSlices c0.basis count c0.basis.js).2 = fun j => count j + cw j c0 := by
      funext j
      rw [cellSlices_count _ _ _ (hn c0 (by simp))]; rfl
    rw [hcount]
    obtain ⟨o2, e2, h2, h3⟩ := directSum_spec d Y cs (fun j => count j + cw j c0) o1 (fun c hc => hn c (by simp [hc])) (fun c hc => hY c (by simp [hc]))
    refine ⟨o2, e2, fun j b o i hb => ?_, fun j b c b' hloc o i => ?_⟩
    · rw [h2 j b o i (by show b < count j + cw j c0; omega), h1, if_neg (by intro h; omega)]
    · rw [IBasis.locate] at hloc
      by_cases hlt : b < cw j c0
      · rw [if_pos hlt] at hloc
        obtain ⟨rfl, rfl⟩ := Prod.mk.inj (Option.some.inj hloc)
        rw [h2 j _ o i (by show count j + b < count j + cw j c0; omega), h1]
        have hj : j ∈ c0.basis.js := by
          by_contra hj
          rw [cw, if_neg hj] at hlt
          omega
        rw [cw, if_pos hj] at hlt
        rw [Nat.add_sub_cancel_left]
        by_cases hin : Inside c0 o i
        · rw [if_pos ⟨hj, by omega, hin⟩, if_pos hin]
        · rw [if_neg (fun h => hin h.2.2), if_neg hin]
      · rw [if_neg hlt] at hloc
        have := h3 j (b - cw j c0) c b' hloc o i
        rw [show count j + cw j c0 + (b - cw j c0) = count j + b by omega] at this
        rw [this, h1, if_neg (c := j ∈ c0.basis.js ∧ _)]
        rintro ⟨hj, hb, -⟩
        rw [cw, if_pos hj] at hlt
        omega

theorem entry_eq (dimH : J → ℕ) : ∀ (L : List J) (e : ℕ) (r : J × ℕ), IBasis.locate dimH L e = some r → entry dimH L e = .ok r
  | [], _, _, h => by simp [IBasis.locate] at h
  | j :: L, e, r, h => by
    rw [IBasis.locate] at h
    rw [entry]
    split_ifs at h ⊢
    · exact congrArg _ (Option.some.inj h)
    · exact entry_eq dimH L _ r h

theorem orderJs_perm (triv : J) (L : List J) : (orderJs triv L).Perm L := by
  rw [orderJs]
  split_ifs with h
  · exact (List.perm_cons_erase h).symm
  · exact List.Perm.refl _

/-- The dimensions of the harmonics sum to the dimension of the basis. -/
theorem sum_dimHarm (Js : List J) (hJs : Js.Nodup) : ∀ (cs : List (Cell J J' A)), (∀ c ∈ cs, c.basis.js.Nodup ∧ c.basis.dim = (c.basis.js.map c.basis.dimH).sum ∧ ∀ j ∈ c.basis.js, j ∈ Js) →
    (Js.map (dimHarm cs)).sum = (cs.map fun c => c.basis.dim).sum
  | [], _ => by
    have : dimHarm ([] : List (Cell J J' A)) = fun _ : J => 0 := rfl
    rw [this]; simp
  | c :: cs, h => by
    obtain ⟨h1, h2, h3⟩ := h c (by simp)
    have e : ∀ j, dimHarm (c :: cs) j = (if j ∈ c.basis.js then c.basis.dimH j else 0) + dimHarm cs j := fun j => by
      rw [dimHarm, List.map_cons, List.sum_cons]; rfl
    rw [show dimHarm (c :: cs) = fun j => (if j ∈ c.basis.js then c.basis.dimH j else 0) + dimHarm cs j from funext e, List.sum_map_add, sum_dimHarm Js hJs cs fun c hc => h c (by simp [hc]), List.map_cons, List.sum_cons, h2]
    congr 1
    have hp : (Js.filter (· ∈ c.basis.js)).Perm c.basis.js := by
      rw [List.perm_ext_iff_of_nodup (hJs.filter _) h1]
      intro j
      rw [List.mem_filter, decide_eq_true_eq]
      exact ⟨fun h => h.2, fun h => ⟨h3 j h, h⟩⟩
    rw [← (hp.map c.basis.dimH).sum_eq]
    clear e hp h3 h h1 h2 hJs
    induction Js with
    | nil => rfl
    | cons j L ih =>
      rw [List.map_cons, List.sum_cons, ih, List.filter_cons]
      by_cases hj : j ∈ c.basis.js
      · simp [hj]
      · simp [hj]

/-- The change of basis multiplies by both matrices. -/
theorem cobApply_eqv {Ainv B K : NpMat ℝ} (hB : B.rows = B.cols) (hA : Ainv.rows = Ainv.cols) (hBK : B.cols = K.rows) (hKA : K.cols = Ainv.rows) :
    cobApply Ainv B K ≈ mul (mul B K) Ainv := by
  have hl : B ≈ eye B.rows → mul B K ≈ K := fun h => (mul_congr_left K h hBK).trans (eye_mul' K (by omega))
  rw [cobApply]
  have hr : Ainv ≈ eye Ainv.rows → mul (mul B K) Ainv ≈ mul B K := fun h => (mul_congr_right (mul B K) h hKA).trans (mul_eye' _ (by rw [mul_cols, hKA]))
  by_cases ha : Ainv ≈ eye Ainv.rows
  · by_cases hb : B ≈ eye B.rows
    · rw [if_neg (by tauto), if_neg (by tauto), if_neg (by tauto)]
      exact (hl hb).symm.trans (hr ha).symm
    · rw [if_neg (by tauto), if_neg (by tauto), if_pos hb]
      exact (hr ha).symm
  · by_cases hb : B ≈ eye B.rows
    · rw [if_neg (by tauto), if_pos ha]
      exact mul_congr_left Ainv (hl hb).symm hKA
    · rw [if_pos ⟨ha, hb⟩]

end SKB

end Escnn
