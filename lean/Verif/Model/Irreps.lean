import Verif.Model.NpMat
import Verif.Model.Cyclic
import Verif.Model.Dihedral
import Mathlib.Analysis.SpecialFunctions.Trigonometric.Basic

/-!
# Irreps of C_N, D_N, SO(2) and O(2)

Models `escnn/group/utils.py` and the irrep/character builders of `cyclicgroup.py`, `dihedralgroup.py`,
`so2group.py`, `o2group.py`. Angles and matrix entries are exact reals.
-/

namespace Escnn

open Real NpMat

noncomputable section

/-- `psi(theta, k)`, group/utils.py L6-15 (`gamma = 0`, the only value used by the irreps). -/
def psi (θ : ℝ) (k : ℕ) : NpMat ℝ := of2 (cos (k * θ)) (-sin (k * θ)) (sin (k * θ)) (cos (k * θ))

/-- `(-1 if s else 1)` as a real number, group/utils.py L25, L45. -/
def sgnR (s : ℤ) : ℝ := if s ≠ 0 then -1 else 1

/-- `chi(s)`, group/utils.py L18-30 (the assertion `s in [0, 1]` is on the caller). -/
def chi (s : ℤ) : NpMat ℝ := of2 1 0 0 (sgnR s)

/-- `psichi(theta, s, k)`, group/utils.py L33-52 (`gamma = 0`). -/
def psichi (θ : ℝ) (s : ℤ) (k : ℕ) : NpMat ℝ :=
  of2 (cos (k * θ)) (-sgnR s * sin (k * θ)) (sin (k * θ)) (sgnR s * cos (k * θ))

namespace Cyclic

/-- `_change_param(e, 'int', 'radians')`, cyclicgroup.py L220-221. -/
def radians (N : ℕ) (e : ℤ) : ℝ := e * (2 * π) / N

/-- Declared size of `CyclicGroup.irrep(k)`, cyclicgroup.py L421-451. -/
def irrepSize (N k : ℕ) : ℕ := if k = 0 then 1 else if N % 2 = 0 ∧ k = N / 2 then 1 else 2

/-- `sum_of_squares_constituents` from the declared type: `'R'` gives 1 and `'C'` gives 2
(cyclicgroup.py L421-451, irrep.py L73-83). -/
def irrepSumSq (N k : ℕ) : ℕ := if k = 0 then 1 else if N % 2 = 0 ∧ k = N / 2 then 1 else 2

/-- `_build_irrep_cn(k)`, cyclicgroup.py L547-561. -/
def irrepMat (N k : ℕ) (e : ℤ) : NpMat ℝ :=
  if k = 0 then eye 1
  else if N % 2 = 0 ∧ k = N / 2 then of1 (cos (k * radians N e))
  else psi (radians N e) k

/-- `_build_char_cn(k)`, cyclicgroup.py L564-579. -/
def irrepChar (N k : ℕ) (e : ℤ) : ℝ :=
  if k = 0 then 1
  else if N % 2 = 0 ∧ k = N / 2 then cos (k * radians N e)
  else 2 * cos (k * radians N e)

/-- Irreps instantiated by `_build_representations`, cyclicgroup.py L374-375: `k = 0, …, N // 2`. -/
def irrepIds (N : ℕ) : List ℕ := List.range (N / 2 + 1)

end Cyclic

namespace Dihedral

/-- `_change_param(e, 'int', 'radians')[1]`, dihedralgroup.py L253-255. -/
def radians (N : ℕ) (e : Elem) : ℝ := e.2 * (2 * π) / N

/-- The ids accepted by `DihedralGroup.irrep(j, k)`, dihedralgroup.py L569-602: `j ∈ {0,1}`, `0 ≤ k ≤ N//2`, and for
`j = 0` only `k = 0` or (`N` even and `k = N/2`). -/
def irrepOk (N j k : ℕ) : Bool :=
  decide (j ≤ 1) && decide (k ≤ N / 2) && (decide (j = 1) || decide (k = 0) || (decide (N % 2 = 0) && decide (k = N / 2)))

/-- Declared size, dihedralgroup.py L579-634. -/
def irrepSize (N j k : ℕ) : ℕ :=
  if j = 0 then 1 else if k = 0 then 1 else if N % 2 = 0 ∧ 2 * k = N then 1 else 2

/-- `_build_irrep_dn(j, k)`, dihedralgroup.py L648-674 (the `raise` of L659 is excluded by `irrepOk`; the value there is
irrelevant and set to the empty array). `k == N / 2` on Python floats is `2 * k = N`. -/
def irrepMat (N j k : ℕ) (e : Elem) : NpMat ℝ :=
  if j = 0 then
    if k = 0 then eye 1
    else if N % 2 = 0 ∧ k = N / 2 then of1 (cos (k * radians N e))
    else zeros 0 0
  else
    if k = 0 then of1 (sgnR e.1)
    else if N % 2 = 0 ∧ 2 * k = N then of1 (cos (k * radians N e) * sgnR e.1)
    else psichi (radians N e) e.1 k

/-- `_build_char_dn(j, k)`, dihedralgroup.py L677-703. -/
def irrepChar (N j k : ℕ) (e : Elem) : ℝ :=
  if j = 0 then
    if k = 0 then 1
    else if N % 2 = 0 ∧ k = N / 2 then cos (k * radians N e)
    else 0
  else
    if k = 0 then sgnR e.1
    else if N % 2 = 0 ∧ 2 * k = N then cos (k * radians N e) * sgnR e.1
    else if e.1 ≠ 0 then 0 else 2 * cos (k * radians N e)

/-- Irreps instantiated by `_build_representations`, dihedralgroup.py L480-495: `(0,0)`, `(1,k)` for `k ≤ N//2` and, for
even `N`, `(0, N//2)`. -/
def irrepIds (N : ℕ) : List (ℕ × ℕ) :=
  [(0, 0)] ++ (List.range (N / 2 + 1)).map (fun k => (1, k)) ++ (if N % 2 = 0 then [(0, N / 2)] else [])

end Dihedral

namespace SO2

/-- `_build_irrep_so2(k)`, so2group.py L538-549. -/
def irrepMat (k : ℕ) (θ : ℝ) : NpMat ℝ := if k = 0 then eye 1 else psi θ k

/-- Declared size, so2group.py L449-465. -/
def irrepSize (k : ℕ) : ℕ := if k = 0 then 1 else 2

/-- `_build_char_so2(k)`, so2group.py L552-563. -/
def irrepChar (k : ℕ) (θ : ℝ) : ℝ := if k = 0 then 1 else 2 * cos (k * θ)

end SO2

namespace O2

/-- A raw element `(flip, angle)` in radians. -/
abbrev Elem := ℤ × ℝ

/-- Ids accepted by `O2.irrep`, o2group.py L647-669. -/
def irrepOk (j k : ℕ) : Bool := decide (j ≤ 1) && (decide (j = 1) || decide (k = 0))

/-- `_build_irrep_o2(j, k)`, o2group.py L724-745 (the `raise` at L735 is excluded by `irrepOk`). -/
def irrepMat (j k : ℕ) (e : Elem) : NpMat ℝ :=
  if j = 0 then (if k = 0 then eye 1 else zeros 0 0)
  else if k = 0 then of1 (sgnR e.1)
  else psichi e.2 e.1 k

/-- Declared size, o2group.py L657-689. -/
def irrepSize (j k : ℕ) : ℕ := if j = 0 then 1 else if k = 0 then 1 else 2

/-- `_build_char_o2(j, k)`, o2group.py L748-769. -/
def irrepChar (j k : ℕ) (e : Elem) : ℝ :=
  if j = 0 then (if k = 0 then 1 else 0)
  else if k = 0 then sgnR e.1
  else if e.1 ≠ 0 then 0 else 2 * cos (k * e.2)

end O2

end

end Escnn
