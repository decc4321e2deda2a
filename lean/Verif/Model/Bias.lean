import Verif.Model.Tables

/-!
# Model of the bias of `Linear` and `_RdConv`

The same code stands in escnn/nn/modules/linear.py L119-160, L235-238 and in escnn/nn/modules/conv/rd_convolution.py L177-218, L275-278
(also conv/rd_transposed_convolution.py and pointconv/rd_point_convolution.py).  `triv` is the id of the trivial representation of the
group: `irrep(*irr).is_trivial()` tests `irr == trivial_representation.id` (representation.py L277-286).
-/

namespace Escnn

open NpMat

namespace Bias

variable {G Id : Type} [DecidableEq Id]

/-- The inner counting loop, linear.py L129-131. -/
def countIrreps (triv : Id) : ℕ → List Id → ℕ
  | n, [] => n
  | n, i :: L => countIrreps triv (if i = triv then n + 1 else n) L

/-- `trivials`, linear.py L127-131. -/
def trivials (triv : Id) : ℕ → List (Rep G Id) → ℕ
  | n, [] => n
  | n, r :: L => trivials triv (countIrreps triv n r.irreps) L

/-- `M[p:p+n, c] = v`, linear.py L147. -/
def setCol (M : NpMat ℝ) (p n c : ℕ) (v : ℕ → ℝ) : NpMat ℝ :=
  ⟨M.rows, M.cols, fun i j => if p ≤ i ∧ i < p + n ∧ j = c then v (i - p) else M.get i j⟩

/-- The loop over the irreps of a field, linear.py L143-149, with the counters `pi` and `c`. -/
def fieldLoop (size : Id → ℕ) (triv : Id) (r : Rep G Id) (p : ℕ) : ℕ → ℕ → NpMat ℝ → List Id → NpMat ℝ × ℕ
  | _, c, M, [] => (M, c)
  | pi, c, M, i :: L =>
    if i = triv then fieldLoop size triv r p (pi + size i) (c + 1) (setCol M p r.size c fun k => r.cob.get k pi) L
    else fieldLoop size triv r p (pi + size i) c M L

/-- The loop over the fields, linear.py L141-150. -/
def typeLoop (size : Id → ℕ) (triv : Id) : ℕ → ℕ → NpMat ℝ → List (Rep G Id) → NpMat ℝ
  | _, _, M, [] => M
  | p, c, M, r :: L =>
    let s := fieldLoop size triv r p 0 c M r.irreps
    typeLoop size triv (p + r.size) s.2 s.1 L

/-- `bias_expansion`, linear.py L119-160, for `bias=True`; `None` if there is no trivial irrep. -/
def expansion (size : Id → ℕ) (triv : Id) (L : List (Rep G Id)) : Option (NpMat ℝ) :=
  if 0 < trivials triv 0 L then some (typeLoop size triv 0 0 (zeros (L.map Rep.size).sum (trivials triv 0 L)) L) else none

/-- `self.bias_expansion @ self.bias`, linear.py L235-238. -/
noncomputable def expand (B : NpMat ℝ) (w : ℕ → ℝ) (i : ℕ) : ℝ := ∑ c ∈ Finset.range B.cols, B.get i c * w c

end Bias

end Escnn
