import Verif.Model.Numerical
import Verif.Model.Kernels

/-!
# Model of group/_clebsh_gordan.py: the Clebsch–Gordan coefficients computed numerically

Random samples are arguments, the numerical routines are those of `Numerics`, `np.allclose` is equality; the results which joblib stores on disk are not modelled.
-/

namespace Escnn

open NpMat

noncomputable section

variable {G Id : Type}

/-- `D_Jl_g`, _clebsh_gordan.py L71. -/
def tensorMat (T : IrrepTable G Id) (J l : Id) (g : G) : NpMat ℝ := kron (T.mat J g) (T.mat l g)

/-- `basis`, _clebsh_gordan.py L94-98; `D` is the size of L61. -/
def cgBasis (N : Numerics) (T : IrrepTable G Id) (J l j : Id) (samples : List G) : Except Err (NpMat ℝ) :=
  match samples with
  | [] => .ok (eye (T.size J * T.size l * T.size j))
  | _ => findIntertwiner N (samples.map (tensorMat T J l)) (samples.map (T.mat j))

open Classical in
/-- The loop over the number of samples, _clebsh_gordan.py L88-119.  `gens` are the generators (none if they are infinitesimal, L80-81); an attempt consists of the additional random samples (L93)
and of the random samples of the check (L110).  When no attempt is left `UnderconstrainedCGSystem` is raised (`.runtime`); the retries after `LinAlgError` (L100-105) are not modelled.  `tensor @ basis`
raises `ValueError` for other shapes. -/
def cgLoop (N : Numerics) (T : IrrepTable G Id) (J l j : Id) (gens : List G) : List (List G × List G) → Except Err (NpMat ℝ)
  | [] => .error .runtime
  | (s, t) :: L => do
    let B ← cgBasis N T J l j (gens ++ s)
    let C ← buildSylvester ((gens ++ t).map (tensorMat T J l)) ((gens ++ t).map (T.mat j))
    if C.cols ≠ B.rows then .error .value
    else if mul C B ≈ zeros C.rows B.cols then .ok B else cgLoop N T J l j gens L

/-- `basis.reshape((psi_j.size, psi_J.size, psi_l.size, s)).transpose(1, 2, 3, 0)`, _clebsh_gordan.py L130. -/
def cgReshape (dJ dl : ℕ) (B : NpMat ℝ) : CGArray := ⟨B.cols, fun a b s c => B.get (c * (dJ * dl) + (a * dl + b)) s⟩

/-- `norm`, _clebsh_gordan.py L136: the mean is over the axis of the multiplicity, the result depends on the last axis only. -/
def cgNorm (dJ dl : ℕ) (A : CGArray) (c : ℕ) : ℝ :=
  √(∑ a ∈ Finset.range dJ, ∑ b ∈ Finset.range dl, (∑ s ∈ Finset.range A.mult, A.get a b s c ^ 2) / A.mult)

/-- `CG /= norm`, _clebsh_gordan.py L137. -/
def cgNormalize (dJ dl : ℕ) (A : CGArray) : CGArray := ⟨A.mult, fun a b s c => A.get a b s c / cgNorm dJ dl A c⟩

/-- `ortho` as a relation of columns, _clebsh_gordan.py L139-144. -/
def cgDepend (dJ dl dj : ℕ) (endo : List (NpMat ℝ)) (A : CGArray) (s t : ℕ) : Prop :=
  1e-9 < (endo.map fun E => (∑ a ∈ Finset.range dJ, ∑ b ∈ Finset.range dl, ∑ c ∈ Finset.range dj, ∑ d ∈ Finset.range dj, A.get a b s c * A.get a b t d * E.get c d) ^ 2).sum

/-- The connected components of the graph, _clebsh_gordan.py L147: two columns in the same component (`directed=False`). -/
def cgConnected (S : ℕ) (r : ℕ → ℕ → Prop) : ℕ → ℕ → Prop := Relation.EqvGen fun s t => s < S ∧ t < S ∧ r s t

open Classical in
/-- The selected columns, _clebsh_gordan.py L150-157: the first one of every component. -/
def cgSelected (S : ℕ) (r : ℕ → ℕ → Prop) : List ℕ := (List.range S).filter fun i => decide (∀ k < i, ¬ cgConnected S r k i)

open Classical in
/-- The selection of one column for every component and the final check, _clebsh_gordan.py L125-166, with the assertions L126, L145, L148, L153, L161 and L164. -/
def cgSelect (dJ dl dj : ℕ) (endo : List (NpMat ℝ)) (sumsq : ℕ) (B : NpMat ℝ) : Except Err CGArray :=
  if B.cols % sumsq ≠ 0 then .error .assertion
  else if B.cols = 0 then .ok (cgReshape dJ dl B)
  else
    let A := cgNormalize dJ dl (cgReshape dJ dl B)
    let r := cgDepend dJ dl dj endo A
    let sel := cgSelected A.mult r
    if (((Finset.range A.mult) ×ˢ (Finset.range A.mult)).filter fun p => r p.1 p.2).card ≠ A.mult * sumsq then .error .assertion
    else if sel.length * sumsq ≠ A.mult then .error .assertion
    else if ∃ i ∈ sel, ((Finset.range A.mult).filter fun k => cgConnected A.mult r i k).card ≠ sumsq then .error .assertion
    else if sel.length ≠ A.mult / sumsq then .error .assertion
    else
      let R : CGArray := ⟨sel.length, fun a b t c => A.get a b (sel.getD t 0) c⟩
      if ∀ s < R.mult, ∀ c < dj, ∀ s' < R.mult, ∀ c' < dj,
          (∑ a ∈ Finset.range dJ, ∑ b ∈ Finset.range dl, R.get a b s c * R.get a b s' c') = if s = s' ∧ c = c' then 1 else 0 then .ok R
      else .error .assertion

/-- `_clebsh_gordan_tensor`, _clebsh_gordan.py L53-166. -/
def cgTensor (N : Numerics) (T : IrrepTable G Id) (typ : Id → IrrType) (gens : List G) (tries : List (List G × List G)) (J l j : Id) : Except Err CGArray := do
  let B ← cgLoop N T J l j gens tries
  cgSelect (T.size J) (T.size l) (T.size j) (endoBasis (typ j) (T.size j)) (typ j).sumsq B

/-- The loop of `_find_tensor_decomposition`, _clebsh_gordan.py L179-190: the irreps with their multiplicities and the sum of the sizes. -/
def cgDecomposeLoop (size : Id → ℕ) (cg : Id → Except Err CGArray) : List Id → Except Err (List (Id × ℕ) × ℕ)
  | [] => .ok ([], 0)
  | j :: L => do
    let A ← cg j
    let r ← cgDecomposeLoop size cg L
    .ok (if 0 < A.mult then (j, A.mult) :: r.1 else r.1, size j * A.mult + r.2)

/-- `_find_tensor_decomposition`, _clebsh_gordan.py L173-209; `ids` are the ids of `G.irreps()` and `cg` is `G._clebsh_gordan_coeff(J, l, ·)` (group.py L749-754).  Too few irreps raise
`InsufficientIrrepsException` (`.runtime`). -/
def cgDecompose (size : Id → ℕ) (ids : List Id) (cg : Id → Except Err CGArray) (J l : Id) : Except Err (List (Id × ℕ)) := do
  let r ← cgDecomposeLoop size cg ids
  if r.2 < size J * size l then .error .runtime
  else if size J * size l < r.2 then .error .assertion
  else .ok r.1

/-- `Group._clebsh_gordan_coeff` and `Group._tensor_product_irreps`, group.py L749-760, as the solvers use them: the attempts for each triple of irreps are an argument.  A failing call has no array
here; the theorems state when the calls succeed. -/
def numKGroup (N : Numerics) (T : IrrepTable G Id) (typ : Id → IrrType) (gens : List G) (ids : List Id) (tries : Id → Id → Id → List (List G × List G)) : KGroup G Id where
  T := T
  typ := typ
  tensor J l := match cgDecompose T.size ids (fun j => cgTensor N T typ gens (tries J l j) J l j) J l with
    | .ok L => L
    | .error _ => []
  cg J l j := match cgTensor N T typ gens (tries J l j) J l j with
    | .ok A => A
    | .error _ => emptyCG

end

end Escnn
