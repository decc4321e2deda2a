import Verif.Model.Regular
import Verif.Model.DPIrrep
import Verif.Model.Endo
import Verif.Model.GTensor
import Verif.Model.Tables

/-!
# Model of the numerical decomposition of representations: group/_numerical.py, `irrep._restrict_irrep` and `build_from_discrete_group_representation`

The results of the singular value decomposition (`null`), of `scipy.linalg.orth` and of the optimiser are arguments (`Numerics`); random samples are arguments.  `np.allclose` is equality.
-/

namespace Escnn

open NpMat

noncomputable section

/-- The numerical routines: `null` (_numerical.py L45-79), `scipy.linalg.orth` and the point `Xopt.point` found by the optimiser for a basis and a shape (_numerical.py L160-194). -/
structure Numerics where
  null : NpMat ℝ → NpMat ℝ
  orth : NpMat ℝ → NpMat ℝ
  minimize : NpMat ℝ → ℕ → ℕ → ℕ → ℝ

/-- `-A.T` -/
def negT (A : NpMat ℝ) : NpMat ℝ := ⟨A.cols, A.rows, fun i j => -A.get j i⟩

/-- `scipy.sparse.kronsum(A, B)` of square arrays: `kron(I_n, A) + kron(B, I_m)` for `A` of size `m` and `B` of size `n`. -/
def kronsum (A B : NpMat ℝ) : NpMat ℝ := (kron (eye B.rows) A).add (kron B (eye A.rows))

/-- `scipy.sparse.vstack(blocks)` -/
def vstack : List (NpMat ℝ) → NpMat ℝ
  | [] => zeros 0 0
  | A :: L => ⟨A.rows + (vstack L).rows, A.cols, fun i j => if i < A.rows then A.get i j else (vstack L).get (i - A.rows) j⟩

open Classical in
/-- `build_sylvester_constraint`, _numerical.py L82-101. -/
def buildSylvester (rho₁ rho₂ : List (NpMat ℝ)) : Except Err (NpMat ℝ) :=
  match rho₁, rho₂ with
  | A :: L, B :: M =>
    if L.length ≠ M.length then .error .assertion
    else if ¬ ((∀ X ∈ A :: L, X.rows = A.rows ∧ X.cols = A.rows) ∧ ∀ Y ∈ B :: M, Y.rows = B.rows ∧ Y.cols = B.rows) then .error .assertion
    else .ok (vstack (List.zipWith (fun X Y => kronsum X (negT Y)) (A :: L) (B :: M)))
  | _, _ => .error .assertion

open Classical in
/-- `find_intertwiner_basis_sylvester`, _numerical.py L104-129. -/
def findIntertwiner (N : Numerics) (rho₁ rho₂ : List (NpMat ℝ)) : Except Err (NpMat ℝ) := do
  let C ← buildSylvester rho₁ rho₂
  if C.cols = 1 then
    if C ≈ zeros C.rows C.cols then .ok ⟨1, 1, fun _ _ => 1⟩ else .ok (zeros 1 0)
  else
    let basis := N.null C
    if mul C basis ≈ zeros C.rows basis.cols then .ok basis else .error .assertion

/-- `np.fliplr(A)` -/
def fliplr (A : NpMat ℝ) : NpMat ℝ := ⟨A.rows, A.cols, fun i j => A.get i (A.cols - 1 - j)⟩

/-- `A.reshape(-1, 1)` -/
def flatC (A : NpMat ℝ) : NpMat ℝ := ⟨A.rows * A.cols, 1, fun a _ => A.get (a / A.cols) (a % A.cols)⟩

/-- `v.reshape(r, c)` of a column -/
def unflatC (r c : ℕ) (v : NpMat ℝ) : NpMat ℝ := ⟨r, c, fun i j => v.get (i * c + j) 0⟩

/-- `v.reshape((r, c), order='F')` of a vector -/
def unflatF (r c : ℕ) (v : ℕ → ℝ) : NpMat ℝ := ⟨r, c, fun i j => v (j * r + i)⟩

open Classical in
/-- `find_orthogonal_matrix`, _numerical.py L132-206, with the optional packages installed.  The array `D` without the final cost.  The shapes of `basis` and `shape` must agree, else NumPy raises
`ValueError` in `basis.T @ eye` (L142) or `reshape` (L204). -/
def findOrthogonal (N : Numerics) (basis : NpMat ℝ) (r c : ℕ) : Except Err (NpMat ℝ) :=
  if basis.rows ≠ r * c then .error .value
  else
    let e := flatC (eye r)
    let f := flatC (fliplr (eye r))
    if r = c ∧ e ≈ mul basis (mul (transpose basis) e) then .ok (unflatC r c e)
    else if r = c ∧ f ≈ mul basis (mul (transpose basis) f) then .ok (unflatC r c f)
    else .ok (unflatF r c fun a => ∑ k ∈ Finset.range basis.cols, basis.get a k * N.minimize basis r c k)

variable {G Id : Type}

/-- `blocks` and `sparse.block_diag(blocks)`, _numerical.py L247-252, L305-311, L794-800: the list of the irreps with their multiplicities; `[irr_g] * m` is empty for a negative `m`. -/
def multList (ms : List (Id × ℤ)) : List Id := ms.flatMap fun im => List.replicate im.2.toNat im.1

open Classical in
/-- The loop which checks the change of basis, _numerical.py L302-318; `D @ P` raises `ValueError` for other shapes. -/
def checkCob (D Dinv : NpMat ℝ) : List (NpMat ℝ × NpMat ℝ) → Except Err Unit
  | [] => .ok ()
  | (rho, P) :: L =>
    if D.cols ≠ P.rows ∨ P.cols ≠ Dinv.rows then .error .value
    else if rho ≈ mul (mul D P) Dinv then checkCob D Dinv L else .error .assertion

/-- `compute_change_of_basis_finitegroup`, _numerical.py L220-320, for the elements `gens`. -/
def changeOfBasisFinite (N : Numerics) (T : IrrepTable G Id) (rho : G → NpMat ℝ) (gens : List G) (ms : List (Id × ℤ)) : Except Err (NpMat ℝ) := do
  let basis ← findIntertwiner N (gens.map rho) (gens.map (irrepsBlock T (multList ms)))
  match gens with
  | [] => .error .index
  | g :: _ =>
    let D ← findOrthogonal N (N.orth basis) (rho g).rows (rho g).cols
    let Dinv ← npInv D
    checkCob D Dinv (gens.map fun g => (rho g, irrepsBlock T (multList ms) g))
    .ok D

open Classical in
/-- `int(round(multiplicity))` after the assertion that it is an integer, _numerical.py L369-372. -/
def asInt (x : ℝ) : Except Err ℤ := if h : ∃ n : ℤ, x = n then .ok h.choose else .error .assertion

/-- `multiplicity`, _numerical.py L350-366. -/
def innerChar (els : List G) (inv : G → G) (rho : G → NpMat ℝ) (char : G → ℝ) (sumsq : ℕ) : ℝ :=
  (els.map fun e => trace (rho e) * char (inv e)).sum / (els.length * sumsq)

/-- `find_irreps_multiplicities_finitegroup`, _numerical.py L323-375.  `ids` are the ids of `group.irreps()`, `le` is the order of the ids, `els` are the keys of the dictionary; that they belong to
the group (L346-347) is typing here. -/
def multiplicitiesFinite (els : List G) (inv : G → G) (ids : List Id) (char : Id → G → ℝ) (sumsq : Id → ℕ) (le : Id → Id → Bool) (rho : G → NpMat ℝ) : Except Err (List (Id × ℤ)) := do
  let ms ← mapE (fun i => do
    let m ← asInt (innerChar els inv rho (char i) (sumsq i))
    .ok (i, m)) ids
  .ok (ms.mergeSort fun a b => le a.1 b.1)

/-- What the decomposition uses of a finite group: its irreps, elements, generators, inverses, the ids, characters and constants of `group.irreps()`, and the order of the ids. -/
structure FinData (G Id : Type) where
  T : IrrepTable G Id
  els : List G
  gens : List G
  inv : G → G
  ids : List Id
  char : Id → G → ℝ
  sumsq : Id → ℕ
  le : Id → Id → Bool

/-- `CyclicGroup(N)`: its elements, generators, inverses and irreps (cyclicgroup.py L64, L71-77, L101-121, L320-349); the ids are sorted as Python tuples `(k,)`. -/
def cyclicData (N : ℕ) : FinData ℤ ℕ :=
  ⟨Cyclic.table N, Cyclic.elements N, Cyclic.generators N, Cyclic.inverse N, Cyclic.irrepIds N, Cyclic.irrepChar N, Cyclic.irrepSumSq N, fun a b => decide (a ≤ b)⟩

/-- `DihedralGroup(N)`: its elements, generators, inverses and irreps, all of real type; the ids are sorted as Python tuples `(j, k)`. -/
def dihedralData (N : ℕ) : FinData Dihedral.Elem (ℕ × ℕ) :=
  ⟨Dihedral.table N, Dihedral.elements N, Dihedral.generators N, Dihedral.inverse N, Dihedral.irrepIds N, fun i => Dihedral.irrepChar N i.1 i.2, fun _ => 1,
    fun a b => decide (a.1 < b.1 ∨ a.1 = b.1 ∧ a.2 ≤ b.2)⟩

/-- `decompose_representation_finitegroup`, _numerical.py L378-422, for a dictionary whose keys are the elements of the group. -/
def decomposeFinite (N : Numerics) (F : FinData G Id) (rho : G → NpMat ℝ) : Except Err (NpMat ℝ × List (Id × ℤ)) := do
  let ms ← multiplicitiesFinite F.els F.inv F.ids F.char F.sumsq F.le rho
  let cob ← changeOfBasisFinite N F.T rho F.gens ms
  .ok (cob, ms)

open Classical in
/-- `build_from_discrete_group_representation`, representation.py L460-511, with the constructor (representation.py L152-207) for a dictionary.  `taken` are the names of the representations of the
group. -/
def buildFromDiscrete (N : Numerics) (F : FinData G Id) (taken : List String) (rho : G → NpMat ℝ) (name : String) (nonlin : Finset String) : Except Err (Rep G Id) := do
  let (cob, ms) ← decomposeFinite N F rho
  if name ∈ taken then .error .assertion
  else if ¬ (cob.rows = cob.cols ∧ 0 < cob.rows) then .error .assertion
  else do
    let inv ← npInv cob
    if (multList ms).length > 1 ∧ irrepsSize F.T (multList ms) ≠ cob.rows then .error .assertion
    else .ok ⟨name, multList ms, cob, inv, rho, nonlin⟩

/-! ### Groups which need not be finite -/

/-- One iteration of `_factor_out_endomorphisms`, _numerical.py L486-504: the chosen column and the remaining ones.  A column is a function of the index `i * rho + r`. -/
def factorStep (endo : List (NpMat ℝ)) (size rho : ℕ) (cols : List (ℕ → ℝ)) : Except Err ((ℕ → ℝ) × List (ℕ → ℝ)) :=
  match cols with
  | [] => .error .index
  | v :: _ =>
    let B : List (ℕ → ℝ) := endo.map fun E a => ∑ i ∈ Finset.range size, E.get (a / rho) i * v (i * rho + a % rho)
    let rest : List (ℕ → ℝ) := cols.map fun c a => c a - (B.map fun b => b a * ∑ x ∈ Finset.range (rho * size), b x * c x).sum
    let norm : (ℕ → ℝ) → ℝ := fun c => √(∑ x ∈ Finset.range (rho * size), c x ^ 2)
    open Classical in
    match rest with
    | [] => .error .index
    | c :: _ =>
      if 1e-7 < norm c then .error .assertion
      else .ok (v, (rest.filter fun c => decide (1e-7 < norm c)).map fun c a => c a / norm c)

/-- The loop over `N`, _numerical.py L486-507, with the final assertion that nothing is left. -/
def factorLoop (endo : List (NpMat ℝ)) (size rho : ℕ) : ℕ → List (ℕ → ℝ) → Except Err (List (ℕ → ℝ))
  | 0, cols => if cols.length ≠ 0 then .error .assertion else .ok []
  | n + 1, cols => do
    let r ← factorStep endo size rho cols
    let vs ← factorLoop endo size rho n r.2
    .ok (r.1 :: vs)

/-- `_factor_out_endomorphisms`, _numerical.py L465-516: the columns whose reshaped arrays are the embeddings, as the array `[r, i * N + k]`. -/
def factorOut (endo : List (NpMat ℝ)) (size : ℕ) (hom : NpMat ℝ) : Except Err (NpMat ℝ) :=
  if hom.cols % endo.length ≠ 0 then .error .assertion
  else
    let n := hom.cols / endo.length
    let rho := hom.rows / size
    if endo.length = 1 then .ok ⟨rho, n * size, fun r a => hom.get (a / n * rho + r) (a % n) * √size⟩
    else do
      let vs ← factorLoop endo size rho n ((List.range hom.cols).map fun k a => hom.get a k)
      .ok ⟨rho, n * size, fun r a => (vs.getD (a % n) fun _ => 0) (a / n * rho + r) * √size⟩

/-- An array of shape `(rho_size, irrep_size, m)`. -/
structure Emb where
  mult : ℕ
  get : ℕ → ℕ → ℕ → ℝ

/-- What the decomposition uses of an irrep: its id, size, constant, endomorphism basis and matrices. -/
structure IrrepData (G Id : Type) where
  id : Id
  size : ℕ
  sumsq : ℕ
  endo : List (NpMat ℝ)
  mat : G → NpMat ℝ

open Classical in
/-- `_compute_irrep_embeddings`, _numerical.py L519-612; `none` is the exception `UnderconstrainedIrrepDecompositionSystem`. -/
def irrepEmbeddings (N : Numerics) (psi : IrrepData G Id) (rho : G → NpMat ℝ) (samples : List G) : Except Err (Option Emb) :=
  match samples with
  | [] => .error .assertion
  | g :: _ => do
    let basis ← findIntertwiner N (samples.map rho) (samples.map psi.mat)
    let d := (rho g).rows
    let m := basis.cols / psi.sumsq
    if basis.rows ≠ d * psi.size then .error .assertion
    else if basis.cols % psi.sumsq ≠ 0 then .ok none
    else if d < psi.size * m then .ok none
    else if m = 0 then .ok (some ⟨0, fun _ _ _ => 0⟩)
    else do
      let D ← factorOut psi.endo psi.size (N.orth basis)
      if ¬ (D.rows = d ∧ D.cols = psi.size * m) then .error .assertion
      else if ¬ mul (transpose D) D ≈ eye (psi.size * m) then .ok none
      else .ok (some ⟨m, fun r i k => D.get r (i * m + k)⟩)

open Classical in
/-- The loop over the attempts, _numerical.py L657-716.  An attempt consists of the additional random samples and of the random samples of the check (which also contains the generators); the
retries after `LinAlgError` (L665-682) are not modelled.  When no attempt is left `UnderconstrainedIrrepDecompositionSystem` is raised (`.runtime`). -/
def embeddingsLoop (N : Numerics) (psi : IrrepData G Id) (rho : G → NpMat ℝ) (d : ℕ) (gens : List G) : List (List G × List G) → Except Err Emb
  | [] => .error .runtime
  | (s, t) :: L => do
    match ← irrepEmbeddings N psi rho (gens ++ s) with
    | none => embeddingsLoop N psi rho d gens L
    | some E =>
      if ∀ g ∈ gens ++ t, ∀ r < d, ∀ o < psi.size, ∀ k < E.mult,
          ∑ i ∈ Finset.range psi.size, E.get r i k * (psi.mat g).get i o = ∑ i ∈ Finset.range d, (rho g).get r i * E.get i o k then .ok E
      else embeddingsLoop N psi rho d gens L

/-- `compute_irrep_embeddings_general`, _numerical.py L615-716.  `gens` is `none` if the generators are infinitesimal; without generators the group is trivial (the assertions of L643-644 hold
for the only irrep of the trivial group). -/
def embeddingsGeneral (N : Numerics) (psi : IrrepData G Id) (rho : G → NpMat ℝ) (one : G) (gens : Option (List G)) (tries : List (List G × List G)) : Except Err Emb :=
  match gens with
  | some [] => .ok ⟨(rho one).rows, fun r _ k => if r = k then 1 else 0⟩
  | some gens => embeddingsLoop N psi rho (rho one).rows gens tries
  | none => embeddingsLoop N psi rho (rho one).rows [] tries

/-- The columns `end_psi.reshape(rho_size, psi.size, m).transpose(0, 2, 1).reshape(rho_size, psi.size*m)`, _numerical.py L771. -/
def Emb.columns (E : Emb) (size : ℕ) : List (ℕ → ℝ) := (List.range (E.mult * size)).map fun a r => E.get r (a % size) (a / size)

/-- The loop over the irreps, _numerical.py L759-774: the columns of the change of basis and the multiplicities.  Too many columns do not fit in the array (`ValueError`, or the assertion of L780). -/
def generalLoop (d : ℕ) (emb : IrrepData G Id → Except Err Emb) : List (IrrepData G Id) → List (ℕ → ℝ) → Except Err (List (ℕ → ℝ) × List (Id × ℤ))
  | [], cols => .ok (cols, [])
  | psi :: L, cols => do
    let E ← emb psi
    if d < cols.length + psi.size * E.mult then .error .value
    else do
      let r ← generalLoop d emb L (cols ++ E.columns psi.size)
      .ok (r.1, if 0 < E.mult then (psi.id, (E.mult : ℤ)) :: r.2 else r.2)

open Classical in
/-- `decompose_representation_general`, _numerical.py L719-806.  `tries` are the attempts for each irrep and `checks` the 10 random elements of the final check; too few columns raise
`InsufficientIrrepsException` (`.runtime`). -/
def decomposeGeneral (N : Numerics) (T : IrrepTable G Id) (rho : G → NpMat ℝ) (one : G) (gens : Option (List G)) (irreps : List (IrrepData G Id)) (tries : IrrepData G Id → List (List G × List G))
    (checks : List G) : Except Err (NpMat ℝ × List (Id × ℤ)) := do
  let d := (rho one).rows
  let r ← generalLoop d (fun psi => embeddingsGeneral N psi rho one gens (tries psi)) irreps []
  let Q : NpMat ℝ := ⟨d, d, fun i j => (r.1.getD j fun _ => 0) i⟩
  if r.1.length < d then .error .runtime
  else if ¬ (mul Q (transpose Q) ≈ eye d ∧ mul (transpose Q) Q ≈ eye d) then .error .assertion
  else do
    checkCob Q (transpose Q) (checks.map fun g => (rho g, irrepsBlock T (multList r.2) g))
    .ok (Q, r.2)

/-- `irrep._restrict_irrep`, irrep.py L234-276, for the subgroup with the given data: `order` is `subgroup.order()` (`-1` if it is infinite), `psi` the composition `irrep(parent(g))` and `size`
the size of the irrep. -/
def restrictIrrepNum (N : Numerics) (order : ℤ) (F : FinData G Id) (one : G) (trivial : Id) (irreps : List (IrrepData G Id)) (tries : IrrepData G Id → List (List G × List G)) (checks : List G)
    (size : ℕ) (psi : G → NpMat ℝ) : Except Err (NpMat ℝ × List Id) :=
  if order = 1 then .ok (eye size, List.replicate size trivial)
  else if order > 1 then do
    let r ← decomposeFinite N F psi
    .ok (r.1, multList r.2)
  else do
    let r ← decomposeGeneral N F.T psi one none irreps tries checks
    .ok (r.1, multList r.2)

end

end Escnn
