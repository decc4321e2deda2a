import Verif.Model.Endo
import Verif.Model.CG
import Verif.Model.Modules
import Verif.Model.Tables

/-!
# Model of escnn/kernels: basis.py, steerable_filters_basis.py, wignereckart_solver.py, steerable_basis.py

All the sampling functions act on each point separately (the first axis `p`, `q`, `s` of every `einsum` is carried along), so kernels are
modelled at one point.  Floating-point numbers are real numbers.
-/

namespace Escnn

open NpMat

/-- What the solvers use of a group: irreps with their endomorphism basis, `_tensor_product_irreps` and `_clebsh_gordan_coeff`. -/
structure KGroup (G J : Type) where
  T : IrrepTable G J
  typ : J → IrrType
  tensor : J → J → List (J × ℕ)
  cg : J → J → J → CGArray

/-- `irrep.endomorphism_basis()`. -/
def KGroup.endo {G J : Type} (K : KGroup G J) (j : J) : List (NpMat ℝ) := endoBasis (K.typ j) (K.T.size j)

/-- `group.irrep(*j)` as a representation: `IrreducibleRepresentation.__init__`, irrep.py L84-91 (one irrep, `np.eye(size)`). -/
def irrepRep {G J : Type} (T : IrrepTable G J) (name : String) (nonlin : Finset String) (j : J) : Rep G J :=
  ⟨name, [j], eye (T.size j), eye (T.size j), T.mat j, nonlin⟩

/-! ### steerable_filters_basis.py -/

/-- `SteerableFiltersBasis`: `js` (L65), `sample` at a point (L97), `steerable_attrs_j` (L243), `steerable_attrs_j_iter` (L237) — the
last three belong to the subclasses. -/
structure FBasis (J P A : Type) where
  js : List (J × ℕ)
  sample : P → ℕ → ℝ
  attrsJ : J → ℕ → Except Err A
  attrsIter : J → Except Err (List A)

namespace FBasis

variable {J P A : Type} [DecidableEq J]

/-- `multiplicity`, steerable_filters_basis.py L187-194, with the dictionary `_js` of L67-76. -/
def mult (F : FBasis J P A) (j : J) : ℕ := (FType.lookupLast F.js j).getD 0

/-- The loop of `sample_as_dict`, steerable_filters_basis.py L165-171. -/
def dictLoop (size : J → ℕ) (v : ℕ → ℝ) : ℕ → List (J × ℕ) → List (J × (ℕ → ℕ → ℝ))
  | _, [] => []
  | p, (j, m) :: L => (j, fun i c => v (p + (i * size j + c))) :: dictLoop size v (p + size j * m) L

/-- `sample_as_dict`, steerable_filters_basis.py L131-173. -/
def asDict (size : J → ℕ) (F : FBasis J P A) (x : P) : List (J × (ℕ → ℕ → ℝ)) := dictLoop size (F.sample x) 0 F.js

end FBasis

/-! ### steerable_basis.py: IrrepBasis -/

/-- The attributes of an element of an `IrrepBasis`: `idx`, `j`, `_j`, `i`, `t`, `s`, `k` and those of the harmonic (`_j` and `t` exist in
`RestrictedWignerEckartBasis` only).  The values `'irrep:…'` are determined by `j`. -/
structure IAttr (J J' A : Type) where
  idx : ℕ
  j : J
  sub : Option J'
  i : ℕ
  t : ℕ
  s : ℕ
  k : ℕ
  harm : A

/-- The attributes of `IrrepBasis`, steerable_basis.py L53-74, with the methods of the subclass: `dim_harmonic`, the tensor written by
`sample_harmonics` for a harmonic (`block j Y e p n` for the values `Y` of the harmonic), `attrs_j` and `attrs_j_iter`. -/
structure IBasis (J J' A : Type) where
  dim : ℕ
  rows : ℕ
  cols : ℕ
  js : List J
  dimH : J → ℕ
  block : J → (ℕ → ℕ → ℝ) → ℕ → ℕ → ℕ → ℝ
  attrsJ : J → ℕ → Except Err (IAttr J J' A)
  attrsIter : J → Except Err (List (IAttr J J' A))

namespace IBasis

variable {J J' P A : Type} [DecidableEq J]

/-- `self.js`, steerable_basis.py L64-68. -/
def selectJs (harmonics : List J) : List J → List (J × ℕ) → List J
  | acc, [] => acc
  | acc, (j, _) :: L => if j ∉ acc ∧ j ∈ harmonics then selectJs harmonics (acc ++ [j]) L else selectJs harmonics acc L

/-- `self._start_index`, steerable_basis.py L70-74. -/
def startLoop (dimH : J → ℕ) : ℕ → List J → List (J × ℕ)
  | _, [] => []
  | idx, j :: L => (j, idx) :: startLoop dimH (idx + dimH j) L

/-- `IrrepBasis.sample`, steerable_basis.py L76-111, entry `e`: `out[:, B:B+dim_harmonic(j)]` is written by `sample_harmonics` for
the `j` in `self.js`; the value of a missing harmonic raises `KeyError`.  Beyond `dim` there is no entry. -/
def sampleLoop (b : IBasis J J' A) (d : List (J × (ℕ → ℕ → ℝ))) : ℕ → List J → Except Err (ℕ → ℕ → ℝ)
  | _, [] => .error .index
  | e, j :: L => do
    let Y ← dictGet d j
    if e < b.dimH j then .ok (b.block j Y e) else sampleLoop b d (e - b.dimH j) L

/-- `IrrepBasis.sample`, steerable_basis.py L76-111: the matrix of entry `e` at point `x`. -/
def sample (size : J → ℕ) (F : FBasis J P A) (b : IBasis J J' A) (x : P) (e : ℕ) : Except Err (NpMat ℝ) := do
  let f ← sampleLoop b (F.asDict size x) e b.js
  .ok ⟨b.rows, b.cols, f⟩

/-- The loop of `__getitem__`, wignereckart_solver.py L192-198 and L489-495: the pair `(j, i)` at the end of the loop. -/
def getLoop (dimH : J → ℕ) : J → ℕ → List J → J × ℕ
  | j0, i, [] => (j0, i)
  | _, i, j :: L => if i < dimH j then (j, i) else getLoop dimH j (i - dimH j) L

/-- `__getitem__`, wignereckart_solver.py L189-200 and L486-497; without harmonics `j` is unbound. -/
def getItem (b : IBasis J J' A) (idx : ℕ) : Except Err (IAttr J J' A) :=
  if ¬ idx < b.dim then .error .assertion
  else match b.js with
    | [] => .error .runtime
    | j :: L => let r := getLoop b.dimH j idx (j :: L); b.attrsJ r.1 r.2

/-- `__iter__`, wignereckart_solver.py L202-205 and L499-502, as the list of its items. -/
def iter (b : IBasis J J' A) : Except Err (List (IAttr J J' A)) := do
  let L ← mapE b.attrsIter b.js
  .ok L.flatten

end IBasis

/-! ### wignereckart_solver.py: WignerEckartBasis -/

namespace WE

variable {G J P A : Type} [DecidableEq J]

/-- `einsum('mnsi,koi->ksmno', CG, E)`, wignereckart_solver.py L77-84, for the element `E` of the endomorphism basis of size `d`. -/
def coeff (d : ℕ) (cg : CGArray) (E : NpMat ℝ) (s p n o : ℕ) : ℝ := ∑ i ∈ Finset.range d, cg.get p n s i * E.get o i

/-- `sample_harmonics` for harmonic `j`, wignereckart_solver.py L110-128: `einsum('kspnm,qim->qksipn', coeff, Ys)` written to the view of
shape `(S, sum_of_squares_constituents, jJl, multiplicity, out, in)`. -/
noncomputable def block (K : KGroup G J) (n m j : J) (jJl mult : ℕ) (Y : ℕ → ℕ → ℝ) (e p q : ℕ) : ℝ :=
  ∑ o ∈ Finset.range (K.T.size j),
    coeff (K.T.size j) (K.cg n m j) ((K.endo j).getD (e / mult / jJl) (zeros 0 0)) (e / mult % jJl) p q o * Y (e % mult) o

/-- `attrs_j`, wignereckart_solver.py L165-187. -/
def attrsJ (F : FBasis J P A) (start : List (J × ℕ)) (dimH jJl : J → ℕ) (j : J) (idx : ℕ) : Except Err (IAttr J J A) :=
  if ¬ idx < dimH j then .error .assertion
  else do
    let s0 ← dictGet start j
    let dim := F.mult j
    let i := idx % dim
    let a ← F.attrsJ j i
    .ok ⟨s0 + idx, j, none, i, 0, (idx / dim) % jJl j, idx / (dim * jJl j), a⟩

/-- The three nested loops of `attrs_j_iter`, wignereckart_solver.py L151-163. -/
def attrsLoop (j : J) (L : List A) (S K : ℕ) : List (ℕ → IAttr J J A) :=
  (List.range K).flatMap fun k => (List.range S).flatMap fun s => L.zipIdx.map fun e idx => ⟨idx, j, none, e.2, 0, s, k, e.1⟩

/-- `attrs_j_iter`, wignereckart_solver.py L138-163, as the list of its items. -/
def attrsIter (K : KGroup G J) (F : FBasis J P A) (start : List (J × ℕ)) (dimH jJl : J → ℕ) (j : J) : Except Err (List (IAttr J J A)) :=
  if dimH j = 0 then .ok []
  else do
    let s0 ← dictGet start j
    let L ← F.attrsIter j
    .ok ((attrsLoop j L (jJl j) (K.typ j).sumsq).zipIdx.map fun e => e.1 (s0 + e.2))

/-- `WignerEckartBasis.__init__`, wignereckart_solver.py L22-89, with the methods; `m` is the input irrep and `n` the output irrep.  An
empty basis raises `EmptyBasisException` (basis.py L50-51). -/
noncomputable def init (K : KGroup G J) (F : FBasis J P A) (m n : J) : Except Err (IBasis J J A) :=
  let js := (K.tensor m n).filter fun e => 0 < F.mult e.1
  let dims := js.map fun e => (e.1, F.mult e.1 * e.2 * (K.typ e.1).sumsq)
  let dim := (dims.map Prod.snd).sum
  if dim = 0 then .error .emptyBasis
  else
    let dimH := fun j => (FType.lookupLast dims j).getD 0
    let jJl := fun j => (FType.lookupLast js j).getD 0
    let sel := IBasis.selectJs (js.map Prod.fst) [] F.js
    let start := IBasis.startLoop dimH 0 sel
    if sel.all fun j => jJl j = (K.cg n m j).mult then
      .ok ⟨dim, K.T.size n, K.T.size m, sel, dimH, fun j => block K n m j (K.cg n m j).mult (F.mult j),
        attrsJ F start dimH jJl, attrsIter K F start dimH jJl⟩
    else .error .assertion

end WE

/-! ### wignereckart_solver.py: RestrictedWignerEckartBasis -/

namespace RWE

variable {G H J J' P A : Type} [DecidableEq J] [DecidableEq J']

/-- The inner loop over the irreps of the restriction, wignereckart_solver.py L315-326: the first rows of the blocks of
`change_of_basis_inv` which belong to irrep `j`. -/
def idPos (size : J' → ℕ) (j : J') : ℕ → List J' → List ℕ
  | _, [] => []
  | p, i :: L => if i = j then p :: idPos size j (p + size i) L else idPos size j (p + size i) L

/-- `_js_restriction[_j]`, wignereckart_solver.py L309-333, for the restriction `r` of the irrep `_j`: the irreps `j` of the subgroup
with the rows where their copies begin. -/
def restriction (size : J' → ℕ) (jsG : List J') (r : Rep H J') : List (J' × List ℕ) :=
  (jsG.map fun j => (j, idPos size j 0 r.irreps)).filter fun e => 0 < e.2.length

/-- `einsum('nmsi,kji,jyt->kstnmy', CG, E, id_coeff)`, wignereckart_solver.py L344-350, for the element `E` of the endomorphism basis
and the copy of `j` which begins at row `p0` of `inv`. -/
def coeff (d : ℕ) (cg : CGArray) (E inv : NpMat ℝ) (p0 s p n y : ℕ) : ℝ :=
  ∑ i ∈ Finset.range d, ∑ o ∈ Finset.range d, cg.get p n s i * E.get o i * inv.get (p0 + o) y

/-- The number of rows of the coefficients of `j` after `reshape((-1, …))`, wignereckart_solver.py L350, L459-462. -/
def count (K : KGroup H J') (n m : J') (e : J' × List ℕ) : ℕ := (K.endo e.1).length * (K.cg n m e.1).mult * e.2.length

/-- `torch.cat(coeff, dim=0)`, wignereckart_solver.py L354: row `d`.  The rows of `j` are ordered by `(k, s, t)`. -/
noncomputable def coeffs (K : KGroup H J') (n m : J') (inv : NpMat ℝ) : List (J' × List ℕ) → ℕ → ℕ → ℕ → ℕ → ℝ
  | [], _ => fun _ _ _ => 0
  | e :: L, d =>
    if d < count K n m e then
      coeff (K.T.size e.1) (K.cg n m e.1) ((K.endo e.1).getD (d / e.2.length / (K.cg n m e.1).mult) (zeros 0 0)) inv
        (e.2.getD (d % e.2.length) 0) (d / e.2.length % (K.cg n m e.1).mult)
    else coeffs K n m inv L (d - count K n m e)

/-- `sample_harmonics` for harmonic `j`, wignereckart_solver.py L386-398: `einsum('dpnm,sim->sdipn', coeff, Ys)` written to the view of
shape `(S, D, multiplicity, out, in)`. -/
noncomputable def block (Ysize : ℕ) (C : ℕ → ℕ → ℕ → ℕ → ℝ) (mult : ℕ) (Y : ℕ → ℕ → ℝ) (e p q : ℕ) : ℝ :=
  ∑ y ∈ Finset.range Ysize, C (e / mult) p q y * Y (e % mult) y

/-- The loop of `attrs_j`, wignereckart_solver.py L458-467: the last irrep with its number of copies, and the remaining index. -/
def attrsFind (K : KGroup H J') (n m : J') (dim : ℕ) : (J' × List ℕ) → ℕ → List (J' × List ℕ) → (J' × List ℕ) × ℕ
  | e0, idx, [] => (e0, idx)
  | _, idx, e :: L =>
    let d := e.2.length * (K.cg n m e.1).mult * (K.typ e.1).sumsq * dim
    if d ≤ idx then attrsFind K n m dim e (idx - d) L else (e, idx)

/-- `attrs_j`, wignereckart_solver.py L451-484. -/
def attrsJ (K : KGroup H J') (F : FBasis J P A) (n m : J') (start : List (J × ℕ)) (dimH : J → ℕ) (R : J → List (J' × List ℕ)) (j : J) (idx : ℕ) :
    Except Err (IAttr J J' A) :=
  if ¬ idx < dimH j then .error .assertion
  else do
    let s0 ← dictGet start j
    let dim := F.mult j
    match R j with
    | [] => .error .runtime
    | e0 :: L =>
      let r := attrsFind K n m dim e0 idx (e0 :: L)
      let i := r.2 % dim
      let a ← F.attrsJ j i
      .ok ⟨s0 + idx, j, some r.1.1, i, (r.2 / dim) % r.1.2.length, (r.2 / (dim * r.1.2.length)) % (K.cg n m r.1.1).mult,
        r.2 / (dim * r.1.2.length * (K.cg n m r.1.1).mult), a⟩

/-- The nested loops of `attrs_j_iter`, wignereckart_solver.py L423-447. -/
def attrsLoop (K : KGroup H J') (n m : J') (j : J) (L : List A) (R : List (J' × List ℕ)) : List (ℕ → IAttr J J' A) :=
  R.flatMap fun e => (List.range (K.typ e.1).sumsq).flatMap fun k => (List.range (K.cg n m e.1).mult).flatMap fun s =>
    (List.range e.2.length).flatMap fun t => L.zipIdx.map fun a idx => ⟨idx, j, some e.1, a.2, t, s, k, a.1⟩

/-- `attrs_j_iter`, wignereckart_solver.py L408-449, as the list of its items, with the assertions of L441-442 and L449. -/
def attrsIter (K : KGroup H J') (F : FBasis J P A) (n m : J') (start : List (J × ℕ)) (total : ℕ) (dimH : J → ℕ) (R : J → List (J' × List ℕ)) (j : J) :
    Except Err (List (IAttr J J' A)) :=
  if dimH j = 0 then .ok []
  else do
    let s0 ← dictGet start j
    let L ← F.attrsIter j
    let X := attrsLoop K n m j L (R j)
    if X.length = dimH j ∧ s0 + X.length ≤ total then .ok (X.zipIdx.map fun e => e.1 (s0 + e.2)) else .error .assertion

/-- `RestrictedWignerEckartBasis.__init__`, wignereckart_solver.py L248-366, with the methods.  `K` is the subgroup; `Gsize j` is the
size of the irrep `j` of the group of the filters and `res j` its restriction.  The order of the set `_js` (L335) does not matter:
`self.js` follows `basis.js`. -/
noncomputable def init (K : KGroup H J') (F : FBasis J P A) (Gsize : J → ℕ) (res : J → Rep H J') (m n : J') : Except Err (IBasis J J' A) :=
  let jsG := (K.tensor m n).map Prod.fst
  let R := fun j => if F.mult j = 0 then [] else restriction K.T.size jsG (res j)
  let js := (F.js.map Prod.fst).dedup.filter fun j => 0 < (R j).length
  let cnt := fun j => ((R j).map (count K n m)).sum
  let dim := (js.map fun j => cnt j * F.mult j).sum
  if dim = 0 then .error .emptyBasis
  else
    let dimH := fun j => if j ∈ js then F.mult j * cnt j else 0
    let sel := IBasis.selectJs js [] F.js
    let start := IBasis.startLoop dimH 0 sel
    .ok ⟨dim, K.T.size n, K.T.size m, sel, dimH, fun j => block (Gsize j) (coeffs K n m (res j).cobInv (R j)) (F.mult j),
      attrsJ K F n m start dimH R, attrsIter K F n m start dim dimH R⟩

end RWE

/-- `so2_group()` as the solvers see it. -/
noncomputable def SO2.kgroup : KGroup ℝ ℕ := ⟨SO2.table, SO2.irrepType, SO2.tensorIrreps, SO2.cg⟩

/-- `cyclic_group(N)` as the solvers see it. -/
noncomputable def Cyclic.kgroup (N : ℕ) : KGroup ℤ ℕ := ⟨Cyclic.table N, Cyclic.irrepType N, Cyclic.tensorIrreps N, Cyclic.cg N⟩

end Escnn
