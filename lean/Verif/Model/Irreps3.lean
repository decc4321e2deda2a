import Verif.Model.O3
import Verif.Model.RestrictIrrep

/-!
# Irreps of SO(3) and O(3) and their restrictions

`W l q` is `_wigner_d_matrix(q, l)` (so3_utils.py L195-201), a call of `lie_learn`; `Verif.Spec.Wigner` states its contract.
The branches of `_restrict_irrep` which raise `NotImplementedError` and fall back to the numerical `restrict_irrep`
(so3group.py L662-663, o3group.py L1003-1004), and the groups of the solids, are not modelled here.
-/

namespace Escnn

open Real Quaternion NpMat

noncomputable section

/-- `A[a, b] = v`. -/
def setEntry (A : NpMat ℝ) (a b : ℕ) (v : ℝ) : NpMat ℝ := ⟨A.rows, A.cols, fun i j => if i = a ∧ j = b then v else A.get i j⟩

/-- `A[[r, s], c:c+2]`, so3group.py L603, o3group.py L983. -/
def getRows (A : NpMat ℝ) (r s c : ℕ) : NpMat ℝ := of2 (A.get r c) (A.get r (c + 1)) (A.get s c) (A.get s (c + 1))

/-- `A[[r, s], c:c+2] = B`, so3group.py L608, o3group.py L989 (`r ≠ s`). -/
def setRows (A : NpMat ℝ) (r s c : ℕ) (B : NpMat ℝ) : NpMat ℝ :=
  ⟨A.rows, A.cols, fun i j =>
    if c ≤ j ∧ j < c + 2 then (if i = r then B.get 0 (j - c) else if i = s then B.get 1 (j - c) else A.get i j)
    else A.get i j⟩

/-- The consecutive diagonal blocks `cob[p:p+size, p:p+size] = cob_sg` and the list `irreps += irr_sg`, so3group.py L619-627
L640-648, o3group.py L952-960. -/
def joinBlocks {I : Type} (L : List (NpMat ℝ × List I)) : NpMat ℝ × List I :=
  (blockDiag (L.map Prod.fst), (L.map Prod.snd).flatten)

/-- The quarter turn `np.asarray([[0., -1], [1., 0.]])`, so3group.py L604-607, o3group.py L984-987. -/
def quarterTurn : NpMat ℝ := of2 0 (-1) 1 0

namespace SO3

/-- `irrep(l)(e)`, so3group.py L847-868 L926-930: the trivial matrix for `l = 0`. -/
def irrepMat (W : ℕ → UQuat → NpMat ℝ) (l : ℕ) (e : UQuat) : NpMat ℝ := if l = 0 then eye 1 else W l e

/-- The size passed to `IrreducibleRepresentation`, so3group.py L854 L865. -/
def irrepSize (l : ℕ) : ℕ := if l = 0 then 1 else 2 * l + 1

/-- `_character(element, l)`, so3_utils.py L204-220; `np.isclose(sin, 0.)` is `|sin| <= 1e-8`. -/
def character (l : ℕ) (e : UQuat) : ℝ :=
  if l = 0 then 1
  else
    let θ := 2 * arctan2 (√(e.imI ^ 2 + e.imJ ^ 2 + e.imK ^ 2)) e.re
    let s := sin (1 / 2 * θ)
    if ¬ |s| ≤ 1 / 10 ^ 8 then sin ((l + 1 / 2) * θ) / sin (1 / 2 * θ) else 2 * l + 1

/-- The change of basis for SO(2), so3group.py L585-589. -/
def so2Cob (l : ℕ) : NpMat ℝ :=
  (List.range l).foldl (fun A f => setEntry (setEntry A (l + f + 1) (2 * f + 1) 1) (l - f - 1) (2 * f + 2) 1)
    (setEntry (zeros (2 * l + 1) (2 * l + 1)) l 0 1)

/-- The change of basis for O(2), so3group.py L595-608. -/
def o2Cob (l : ℕ) : NpMat ℝ :=
  (List.range l).foldl (fun A f =>
      let A := setEntry (setEntry A (l + f + 1) (2 * f + 1) 1) (l - f - 1) (2 * f + 2) 1
      if (l + f) % 2 = 0 then
        setRows A (l - f - 1) (l + f + 1) (2 * f + 1)
          (NpMat.mul (getRows A (l - f - 1) (l + f + 1) (2 * f + 1)) quarterTurn)
      else A)
    (setEntry (zeros (2 * l + 1) (2 * l + 1)) l 0 1)

/-- `self.irrep(*irrep)(adj).T @ change_of_basis`, so3group.py L665. -/
def withAdj (W : ℕ → UQuat → NpMat ℝ) (l : ℕ) (adj : UQuat) (Q : NpMat ℝ) : NpMat ℝ :=
  NpMat.mul (transpose (irrepMat W l adj)) Q

/-- `_restrict_irrep((l,), ('so3', adj))`, so3group.py L559-561 L665. -/
def restrictSelf (W : ℕ → UQuat → NpMat ℝ) (l : ℕ) (adj : UQuat) : NpMat ℝ × List ℕ :=
  (withAdj W l adj (eye (irrepSize l)), [l])

/-- `_restrict_irrep((l,), (False, -1, adj))`, so3group.py L582-589 L665. -/
def restrictSO2 (W : ℕ → UQuat → NpMat ℝ) (l : ℕ) (adj : UQuat) : NpMat ℝ × List ℕ :=
  (withAdj W l adj (so2Cob l), List.range (l + 1))

/-- `_restrict_irrep((l,), (True, -1, adj))`, so3group.py L591-608 L665. -/
def restrictO2 (W : ℕ → UQuat → NpMat ℝ) (l : ℕ) (adj : UQuat) : NpMat ℝ × List (ℕ × ℕ) :=
  (withAdj W l adj (o2Cob l), [(l % 2, 0)] ++ (List.range l).map fun f => (1, f + 1))

/-- `_restrict_irrep((l,), (False, n, adj))`, so3group.py L610-629 L665; the inner call has the identity as adjoint element. -/
def restrictCyc (W : ℕ → UQuat → NpMat ℝ) (l n : ℕ) (adj : UQuat) : Except Err (NpMat ℝ × List ℕ) := do
  let so2 := restrictSO2 W l identity
  let blocks ← so2.2.mapM fun k => SO2.restrictIrrep k n
  .ok (withAdj W l adj (NpMat.mul so2.1 (joinBlocks blocks).1), (joinBlocks blocks).2)

/-- `_restrict_irrep((l,), (True, n, adj))`, so3group.py L631-650 L665; the inner call has the identity as adjoint element and
the axis of `D_n` in O(2) is `0.`. -/
def restrictDih (W : ℕ → UQuat → NpMat ℝ) (l n : ℕ) (adj : UQuat) : NpMat ℝ × List (ℕ × ℕ) :=
  let o2 := restrictO2 W l identity
  let blocks := o2.2.map fun i => O2.restrictDih i.1 i.2 n 0
  (withAdj W l adj (NpMat.mul o2.1 (joinBlocks blocks).1), (joinBlocks blocks).2)

/-- The change of basis of `standard_representation()`, so3group.py L815-819. -/
def standardCob : NpMat ℝ := ⟨3, 3, fun i j => ![![0, 0, 1], ![1, 0, 0], ![0, 1, 0]] (Fin.ofNat 3 i) (Fin.ofNat 3 j)⟩

/-- `standard_representation()(e)`: the irrep of frequency one in another basis, so3group.py L821-826. -/
def standardMat (W : ℕ → UQuat → NpMat ℝ) (e : UQuat) : NpMat ℝ :=
  NpMat.mul (NpMat.mul standardCob (irrepMat W 1 e)) (transpose standardCob)

/-- `_tensor_product_irreps(J, l)`: the ids and multiplicities, so3group.py L880-886. -/
def tensorIrreps (J l : ℕ) : List (ℕ × ℕ) :=
  let a := ((J : ℤ) - l).natAbs
  (List.range' a (J + l + 1 - a)).map fun j => (j, 1)

/-- The irreps of `bl_regular_representation(L)`, so3group.py L704-707. -/
def blRegular (L : ℕ) : List ℕ := (List.range (L + 1)).flatMap fun l => List.replicate (2 * l + 1) l

end SO3

namespace O3

/-- `inv_action = (-1 if inversion else 1) ** j`, o3group.py L1241 L1256. -/
def invAction (j : ℕ) (e : Elem) : ℝ := (if e.1 ≠ 0 then -1 else 1) ^ j

/-- `irrep(j, l)(e)`, o3group.py L1146-1184 L1236-1248. -/
def irrepMat (W : ℕ → UQuat → NpMat ℝ) (j l : ℕ) (e : Elem) : NpMat ℝ :=
  if l = 0 ∧ j = 0 then eye 1
  else if l = 0 then of1 (invAction j e)
  else ⟨(W l e.2).rows, (W l e.2).cols, fun a b => (W l e.2).get a b * invAction j e⟩

/-- The size passed to `IrreducibleRepresentation`, o3group.py L1153 L1165 L1180. -/
def irrepSize (l : ℕ) : ℕ := if l = 0 then 1 else 2 * l + 1

/-- The character of `irrep(j, l)`, o3group.py L1151 L1251-1262. -/
def character (j l : ℕ) (e : Elem) : ℝ :=
  if l = 0 ∧ j = 0 then 1
  else if l = 0 then invAction j e
  else SO3.character l e.2 * invAction j e

/-- The change of basis for the cone, o3group.py L975-989. -/
def coneCob (j l : ℕ) : NpMat ℝ :=
  (List.range l).foldl (fun A f =>
      let A := setEntry (setEntry A (l + f + 1) (2 * f + 1) 1) (l - f - 1) (2 * f + 2) 1
      if (l + j) % 2 = 1 then
        setRows A (l - f - 1) (l + f + 1) (2 * f + 1)
          (NpMat.mul quarterTurn (getRows A (l - f - 1) (l + f + 1) (2 * f + 1)))
      else A)
    (setEntry (zeros (2 * l + 1) (2 * l + 1)) l 0 1)

/-- `self.irrep(*irrep)(adj).T @ change_of_basis`, o3group.py L1006. -/
def withAdj (W : ℕ → UQuat → NpMat ℝ) (j l : ℕ) (adj : Elem) (Q : NpMat ℝ) : NpMat ℝ :=
  NpMat.mul (transpose (irrepMat W j l adj)) Q

/-- `_restrict_irrep((j, l), (True, 'so3', adj))`, o3group.py L868-871 L1006. -/
def restrictSelf (W : ℕ → UQuat → NpMat ℝ) (j l : ℕ) (adj : Elem) : NpMat ℝ × List (ℕ × ℕ) :=
  (withAdj W j l adj (eye (2 * l + 1)), [(j, l)])

/-- `_restrict_irrep((j, l), (False, 'so3', adj))`, o3group.py L873-876 L1006. -/
def restrictSO3 (W : ℕ → UQuat → NpMat ℝ) (j l : ℕ) (adj : Elem) : NpMat ℝ × List ℕ :=
  (withAdj W j l adj (eye (2 * l + 1)), [l])

/-- `_restrict_irrep((j, l), (True, False, 1, adj))`, o3group.py L915-920 L1006. -/
def restrictInv (W : ℕ → UQuat → NpMat ℝ) (j l : ℕ) (adj : Elem) : NpMat ℝ × List ℕ :=
  (withAdj W j l adj (eye (2 * l + 1)), List.replicate (2 * l + 1) j)

/-- `_restrict_irrep((j, l), (False, *so3_sg_id, adj))` through SO(3), o3group.py L939-962 L1006; `sub` is
`so3._restrict_irrep(·, so3_sg_id)`, whose adjoint element is the identity of SO(3). -/
def restrictVia {I : Type} (W : ℕ → UQuat → NpMat ℝ) (j l : ℕ) (adj : Elem) (sub : ℕ → Except Err (NpMat ℝ × List I)) :
    Except Err (NpMat ℝ × List I) := do
  let so3 := restrictSO3 W j l identity
  let blocks ← so3.2.mapM sub
  .ok (withAdj W j l adj (NpMat.mul so3.1 (joinBlocks blocks).1), (joinBlocks blocks).2)

/-- `_restrict_irrep((j, l), (False, False, -1, adj))`, o3group.py L939-962. -/
def restrictSO2 (W : ℕ → UQuat → NpMat ℝ) (j l : ℕ) (adj : Elem) : Except Err (NpMat ℝ × List ℕ) :=
  restrictVia W j l adj fun l => .ok (SO3.restrictSO2 W l SO3.identity)

/-- `_restrict_irrep((j, l), (False, True, -1, adj))`, o3group.py L939-962. -/
def restrictO2 (W : ℕ → UQuat → NpMat ℝ) (j l : ℕ) (adj : Elem) : Except Err (NpMat ℝ × List (ℕ × ℕ)) :=
  restrictVia W j l adj fun l => .ok (SO3.restrictO2 W l SO3.identity)

/-- `_restrict_irrep((j, l), (False, False, n, adj))`, o3group.py L939-962. -/
def restrictCyc (W : ℕ → UQuat → NpMat ℝ) (j l n : ℕ) (adj : Elem) : Except Err (NpMat ℝ × List ℕ) :=
  restrictVia W j l adj fun l => SO3.restrictCyc W l n SO3.identity

/-- `_restrict_irrep((j, l), (False, True, n, adj))`, o3group.py L939-962. -/
def restrictDih (W : ℕ → UQuat → NpMat ℝ) (j l n : ℕ) (adj : Elem) : Except Err (NpMat ℝ × List (ℕ × ℕ)) :=
  restrictVia W j l adj fun l => .ok (SO3.restrictDih W l n SO3.identity)

/-- `_restrict_irrep((j, l), ('cone', -1, adj))`, o3group.py L971-989 L1006. -/
def restrictCone (W : ℕ → UQuat → NpMat ℝ) (j l : ℕ) (adj : Elem) : NpMat ℝ × List (ℕ × ℕ) :=
  (withAdj W j l adj (coneCob j l), [((l + j) % 2, 0)] ++ (List.range l).map fun f => (1, f + 1))

/-- `standard_representation()(e)`, o3group.py L1036-1047. -/
def standardMat (W : ℕ → UQuat → NpMat ℝ) (e : Elem) : NpMat ℝ :=
  NpMat.mul (NpMat.mul SO3.standardCob (irrepMat W 1 1 e)) (transpose SO3.standardCob)

/-- `_tensor_product_irreps(J, l)`, o3group.py L1188-1194. -/
def tensorIrreps (J l : ℕ × ℕ) : List ((ℕ × ℕ) × ℕ) :=
  let a := ((J.2 : ℤ) - l.2).natAbs
  (List.range' a (J.2 + l.2 + 1 - a)).map fun j => (((J.1 + l.1) % 2, j), 1)

/-- The irreps of `bl_regular_representation(L)`, o3group.py L1059-1063. -/
def blRegular (L : ℕ) : List (ℕ × ℕ) :=
  (List.range (L + 1)).flatMap fun l => (List.range 2).flatMap fun j => List.replicate (2 * l + 1) (j, l)

end O3

end

end Escnn
