import Verif.Model.Grouped
import Verif.Model.Kernels
import Verif.Model.Pointwise
import Mathlib.Analysis.SpecialFunctions.Sqrt

/-!
# The tables shared by `FieldNorm` and the batch normalizations

escnn/nn/modules/normalization/fieldnorm.py L122-159 and escnn/nn/modules/batchnormalization/iid.py L107-151 contain the same code.  The attributes of the modules are keyed by the name of the representation; the
code also replaces '.' by '^' in it (`_escape_name`), which is left out here: two names which differ in these characters only are not confused in the model.
-/

namespace Escnn

open NpMat

variable {G Id : Type} [DecidableEq Id]

/-- The indices where the trivial irreps of a representation begin, fieldnorm.py L123-136. -/
def trivPos (size : Id → ℕ) (triv : Id) (r : Rep G Id) : List ℕ := RWE.idPos size triv 0 r.irreps

/-- What is stored for a representation: its size (L139), `trivials`, `P = change_of_basis @ S @ change_of_basis_inv` with `S` the diagonal matrix with a one at each trivial irrep (L127, L134, L146), and
`Q = change_of_basis[:, trivials]` (L149). -/
structure NormTab where
  size : ℕ
  trivials : List ℕ
  avg : NpMat ℝ
  Q : NpMat ℝ

/-- fieldnorm.py L122-150. -/
def NormTab.of (size : Id → ℕ) (triv : Id) (r : Rep G Id) : NormTab :=
  ⟨r.size, trivPos size triv r, mul (mul r.cob ⟨r.size, r.size, fun i j => if i = j ∧ i ∈ trivPos size triv r then 1 else 0⟩) r.cobInv,
    ⟨r.size, (trivPos size triv r).length, fun i c => r.cob.get i ((trivPos size triv r).getD c 0)⟩⟩

/-- `_has_trivial`, fieldnorm.py L141. -/
def NormTab.has (T : NormTab) : Bool := decide (0 < T.trivials.length)

/-- `einsum('ij,bcj...->bci...', P, v)` for one field, fieldnorm.py L181-185; `None` (no shift) without trivial irreps. -/
noncomputable def NormTab.mean (T : NormTab) (v : ℕ → ℝ) (o : ℕ) : ℝ := if T.has then ∑ j ∈ Finset.range T.avg.cols, T.avg.get o j * v j else 0

/-- `einsum('ij,cj->ci', Q, bias)` for one field, fieldnorm.py L257-264. -/
noncomputable def NormTab.shift (T : NormTab) (affine : Bool) (β : ℕ → ℝ) (o : ℕ) : ℝ := if affine ∧ T.has then ∑ c ∈ Finset.range T.Q.cols, T.Q.get o c * β c else 0

end Escnn
