import Verif.Model.Irreps

/-!
# Clebsch–Gordan coefficients of C_N and SO(2)
-/

namespace Escnn

open Real NpMat

/-- The 4-d array returned by `_clebsh_gordan_coeff`: shape `(size_m, size_n, mult, size_j)`, entries `get a b s c`. -/
structure CGArray where
  mult : ℕ
  get : ℕ → ℕ → ℕ → ℕ → ℝ

noncomputable section

/-- The constant matrix `np.array([[1,0,1,0],[0,1,0,1],[0,-1,0,1],[1,0,-1,0]]) / np.sqrt(2)`, cyclicgroup.py L492-497,
so2group.py L484-489. -/
def cgTab (r t : ℕ) : ℝ :=
  (match r, t with
   | 0, 0 => 1 | 0, 1 => 0 | 0, 2 => 1 | 0, 3 => 0
   | 1, 0 => 0 | 1, 1 => 1 | 1, 2 => 0 | 1, 3 => 1
   | 2, 0 => 0 | 2, 1 => -1 | 2, 2 => 0 | 2, 3 => 1
   | 3, 0 => 1 | 3, 1 => 0 | 3, 2 => -1 | 3, 3 => 0
   | _, _ => 0) / √2

/-- `cg[:, 1] *= -1` applied to the two-column slice starting at column `t0`. -/
def cgCols (t0 : ℕ) (neg : Bool) (r t : ℕ) : ℝ := if neg ∧ t = 1 then -cgTab r (t0 + t) else cgTab r (t0 + t)

/-- `M.reshape(size_n, size_m, -1, size_j).transpose(1, 0, 2, 3)` of a two-column matrix, cyclicgroup.py L511,
so2group.py L500. -/
def reshapeT (sm sj : ℕ) (M : ℕ → ℕ → ℝ) : CGArray := ⟨2 / sj, fun a b s c => M (b * sm + a) (s * sj + c)⟩

/-- `np.eye(size_j)` (with column 1 negated if `neg`) reshaped to `(size_m, size_n, 1, size_j)`, cyclicgroup.py L474, L479-485. -/
def reshapeEye (sn sj : ℕ) (neg : Bool) : CGArray :=
  ⟨1, fun a b s c => (if a * sn + b = s * sj + c then 1 else 0) * (if neg ∧ s * sj + c = 1 then -1 else 1)⟩

/-- An array with multiplicity axis of length 0 (`np.zeros((.., .., 0, ..))`). -/
def emptyCG : CGArray := ⟨0, fun _ _ _ _ => 0⟩

/-- `CyclicGroup._clebsh_gordan_coeff`, cyclicgroup.py L463-507.  The test `j == m - n` on Python integers is `j + n = m`. -/
def Cyclic.cg (N m n j : ℕ) : CGArray :=
  if m = 0 ∨ n = 0 then
    if j = m + n then reshapeEye (irrepSize N n) (irrepSize N j) false else emptyCG
  else if N % 2 = 0 ∧ (m = N / 2 ∨ n = N / 2) then
    if j = m + n then reshapeEye (irrepSize N n) (irrepSize N j) false
    else if j + m + n = N then reshapeEye (irrepSize N n) (irrepSize N j) (decide (irrepSize N j > 1))
    else emptyCG
  else
    if j = m + n then reshapeT (irrepSize N m) (irrepSize N j) (cgCols 2 false)
    else if j + m + n = N then reshapeT (irrepSize N m) (irrepSize N j) (cgCols 2 true)
    else if j + n = m then reshapeT (irrepSize N m) (irrepSize N j) (cgCols 0 false)
    else if j + m = n then reshapeT (irrepSize N m) (irrepSize N j) (cgCols 0 true)
    else emptyCG

/-- `|l - J|` on natural numbers. -/
def natDist (a b : ℕ) : ℕ := if a ≤ b then b - a else a - b

/-- `(J + l) if (J+l <= N//2) else (N - J - l)`, cyclicgroup.py L518, L523, L530. -/
def Cyclic.foldSum (N J l : ℕ) : ℕ := if J + l ≤ N / 2 then J + l else N - J - l

/-- `CyclicGroup._tensor_product_irreps`, cyclicgroup.py L509-535 (`j < N/2` on floats is `2 * j < N`). -/
def Cyclic.tensorIrreps (N J l : ℕ) : List (ℕ × ℕ) :=
  if J = 0 ∨ l = 0 then [(l + J, 1)]
  else if N % 2 = 0 ∧ (J = N / 2 ∨ l = N / 2) then [(foldSum N J l, 1)]
  else if l = J then [(0, 2), (foldSum N J l, if 2 * foldSum N J l < N then 1 else 2)]
  else [(natDist l J, 1), (foldSum N J l, if 2 * foldSum N J l < N then 1 else 2)]

/-- `SO2._clebsh_gordan_coeff`, so2group.py L469-500. -/
def SO2.cg (m n j : ℕ) : CGArray :=
  if m = 0 ∨ n = 0 then
    if j = m + n then reshapeEye (irrepSize n) (irrepSize j) false else emptyCG
  else
    if j = m + n then reshapeT (irrepSize m) (irrepSize j) (cgCols 2 false)
    else if j + n = m then reshapeT (irrepSize m) (irrepSize j) (cgCols 0 false)
    else if j + m = n then reshapeT (irrepSize m) (irrepSize j) (cgCols 0 true)
    else emptyCG

/-- `SO2._tensor_product_irreps`, so2group.py L502-523. -/
def SO2.tensorIrreps (J l : ℕ) : List (ℕ × ℕ) :=
  if J = 0 then [(l, 1)] else if l = 0 then [(J, 1)]
  else if l = J then [(0, 2), (l + J, 1)] else [(natDist l J, 1), (l + J, 1)]

end

end Escnn
