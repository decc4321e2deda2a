import Verif.Model.Kernels
import Verif.Model.Tables
import Verif.Model.SO2O2
import Mathlib.Analysis.SpecialFunctions.Complex.Arg

/-!
# Model of escnn/kernels/polar_basis.py

`SphericalShellsBasis` and `CircularShellsBasis` are two copies of the same code; what differs is collected in `ShellKind`.  The
spherical class is modelled for an arbitrary vector of `(L+1)²` angular values; the harmonic polynomials on the sphere
(`HarmonicPolynomialR3Generator`) are modelled in `Model/KernelsR3.lean`.
-/

namespace Escnn

/-- What distinguishes the two classes: the size of the `j`-th harmonic, its first angular index and its irrep id. -/
structure ShellKind where
  dim : ℕ → ℕ
  first : ℕ → ℕ
  id : ℕ → ℕ × ℕ

/-- `CircularShellsBasis`: polar_basis.py L654 and L774-776, L652. -/
def ShellKind.circ : ShellKind := ⟨fun j => if 0 < j then 2 else 1, fun j => 2 * j + 1 - (if 0 < j then 2 else 1), fun j => (if 0 < j then 1 else 0, j)⟩

/-- `SphericalShellsBasis`: polar_basis.py L222 and L344, L216. -/
def ShellKind.sph : ShellKind := ⟨fun j => 2 * j + 1, fun j => j ^ 2, fun j => (j % 2, j)⟩

/-- Attributes of one filter, polar_basis.py L530-534 and L966-970; `rad` is the radial element whose `radius` and `sigma` are copied. -/
structure ShAttr where
  idx : ℕ
  radialIdx : ℕ
  j : ℕ × ℕ
  m : ℕ
  rad : Option ℕ
  deriving DecidableEq

/-- Attributes of one steerable subspace, polar_basis.py L493-496 and L929-932. -/
structure StAttr where
  idx : ℕ
  radialIdx : ℕ
  j : ℕ × ℕ
  rad : Option ℕ
  deriving DecidableEq

/-- The attributes set by the constructors, polar_basis.py L195-271 and L627-705; `n` is `len(radial)`. -/
structure Shells where
  kind : ShellKind
  L : ℕ
  n : ℕ
  filter : Option (List Bool)
  idxMap : Option (List ℕ)
  sMap : Option (List ℕ)
  js : List ((ℕ × ℕ) × ℕ)
  numInv : ℕ

namespace Shells

/-- The variables of the loops in the constructor, polar_basis.py L207-213 and L639-645.  The slices `_filter[i:i+dim]` written one after the
other start where the previous one ends, so `_filter` is modelled as the list written so far. -/
structure CState where
  filter : List Bool
  idxMap : List ℕ
  sMap : List ℕ
  i : ℕ
  si : ℕ
  mult : ℕ

/-- The body of the inner loop, polar_basis.py L226-238 and L658-670. -/
def ctorStep (dim : ℕ) (keep : Bool) (s : CState) : CState :=
  let s' : CState := if keep then { s with mult := s.mult + 1, filter := s.filter ++ List.replicate dim true, idxMap := s.idxMap ++ (List.range dim).map fun c => s.i + c, sMap := s.sMap ++ [s.si] }
    else { s with filter := s.filter ++ List.replicate dim false }
  { s' with i := s'.i + dim, si := s'.si + 1 }

/-- The outer loop, polar_basis.py L214-246 and L646-678, over a list of frequencies: final state, `js` and `_num_inv_spaces`. -/
def ctorLoop (k : ShellKind) (n : ℕ) (f : ℕ × ℕ → ℕ → Bool) : List ℕ → CState → List ((ℕ × ℕ) × ℕ) → ℕ → CState × List ((ℕ × ℕ) × ℕ) × ℕ
  | [], s, js, inv => (s, js, inv)
  | j :: L, s, js, inv =>
    let s' := (List.range n).foldl (fun s r => ctorStep (k.dim j) (f (k.id j) r) s) { s with mult := 0 }
    ctorLoop k n f L s' (js ++ [(k.id j, s'.mult)]) (inv + s'.mult)

/-- `self.dim`, steerable_filters_basis.py L68-81. -/
def dim (size : ℕ × ℕ → ℕ) (b : Shells) : ℕ := (b.js.map fun e => size e.1 * e.2).sum

/-- The constructors, polar_basis.py L156-271 and L587-705; the filter sees the irrep and the radial attributes.  A basis without elements raises (basis.py L50-51). -/
def init (k : ShellKind) (size : ℕ × ℕ → ℕ) (L n : ℕ) (filter : Option (ℕ × ℕ → ℕ → Bool)) : Except Err Shells :=
  let b : Shells := match filter with
    | none => ⟨k, L, n, none, none, none, (List.range (L + 1)).map fun j => (k.id j, n), 0⟩
    | some f =>
      let r := ctorLoop k n f (List.range (L + 1)) ⟨[], [], [], 0, 0, 0⟩ [] 0
      ⟨k, L, n, some r.1.filter, some r.1.idxMap, some r.1.sMap, r.2.1, r.2.2⟩
  if b.dim size = 0 then .error .emptyBasis else .ok b

/-- The loop writing `tmp_out`, polar_basis.py L343-347 and L773-779, entry `e`; `T` is `tensor_product` at the point. -/
def tmpLoop (k : ShellKind) (n : ℕ) (T : ℕ → ℕ → ℝ) : List ℕ → (ℕ → ℝ) → ℕ → ℝ
  | [], out => out
  | j :: L, out => tmpLoop k n T L fun e =>
    if k.first j * n ≤ e ∧ e < (k.first j + k.dim j) * n then T ((e - k.first j * n) / k.dim j) (k.first j + (e - k.first j * n) % k.dim j) else out e

/-- The positions of the `True` entries, in order: boolean indexing, polar_basis.py L350 and L782. -/
def maskPos (mask : List Bool) : List ℕ := (List.range mask.length).filter fun e => mask.getD e false

/-- `sample` after the radial and angular values are known, polar_basis.py L334-352 and L764-784, entry `e`; `junk` is what `torch.empty` contains. -/
def sample (junk : ℕ → ℝ) (b : Shells) (radial angular : ℕ → ℝ) (e : ℕ) : ℝ :=
  let tmp := tmpLoop b.kind b.n (fun r a => radial r * angular a) (List.range (b.L + 1)) junk
  match b.filter with
  | none => tmp e
  | some mask => tmp ((maskPos mask).getD e 0)

/-- `self._filter is None or self._filter[i] == 1`, polar_basis.py L555 and L991. -/
def test (b : Shells) (i : ℕ) : Bool := match b.filter with | none => true | some F => F.getD i false

/-- The loop over `m` in `__iter__`, polar_basis.py L554-569 and L990-1005. -/
def iterM (b : Shells) (j r : ℕ) : List ℕ → ℕ → ℕ → List ShAttr × ℕ × ℕ
  | [], idx, i => ([], idx, i)
  | m :: L, idx, i =>
    if b.test i then
      let t := iterM b j r L (idx + 1) (i + 1)
      (⟨idx, r, b.kind.id j, m, some r⟩ :: t.1, t.2)
    else iterM b j r L idx (i + 1)

/-- The loop over the radial elements in `__iter__`, polar_basis.py L553 and L989. -/
def iterR (b : Shells) (j : ℕ) : List ℕ → ℕ → ℕ → List ShAttr × ℕ × ℕ
  | [], idx, i => ([], idx, i)
  | r :: L, idx, i =>
    let t := iterM b j r (List.range (b.kind.dim j)) idx i
    let u := iterR b j L t.2.1 t.2.2
    (t.1 ++ u.1, u.2)

/-- The loop over the frequencies in `__iter__`, polar_basis.py L546 and L982. -/
def iterJ (b : Shells) : List ℕ → ℕ → ℕ → List ShAttr
  | [], _, _ => []
  | j :: L, idx, i =>
    let t := iterR b j (List.range b.n) idx i
    t.1 ++ iterJ b L t.2.1 t.2.2

/-- `__iter__`, polar_basis.py L538-569 and L974-1005. -/
def iter (b : Shells) : List ShAttr := iterJ b (List.range (b.L + 1)) 0 0

/-- `self._idx_map[idx]` with `IndexError`, polar_basis.py L503-506 and L939-942. -/
def mapIdx (m : Option (List ℕ)) (idx : ℕ) : Except Err ℕ :=
  match m with
  | none => .ok idx
  | some M => match M[idx]? with | some i => .ok i | none => .error .index

/-- `self.radial[r]`, polar_basis.py L105-107. -/
def radialGet (b : Shells) (r : ℕ) : Except Err ℕ := if r < b.n then .ok r else .error .assertion

/-- `SphericalShellsBasis.__getitem__`, polar_basis.py L500-536; `int(np.floor(np.sqrt(·)))` is the integer square root. -/
def getItemSph (size : ℕ × ℕ → ℕ) (b : Shells) (idx : ℕ) : Except Err ShAttr :=
  if ¬ idx < b.dim size then .error .assertion
  else do
    let i ← mapIdx b.idxMap idx
    let j := Nat.sqrt (i / b.n)
    if ¬ (j ^ 2 * b.n ≤ i ∧ i < (j + 1) ^ 2 * b.n) then .error .assertion
    else
      let jIdx := i - j ^ 2 * b.n
      let r ← radialGet b (jIdx / (2 * j + 1))
      .ok ⟨idx, jIdx / (2 * j + 1), (j % 2, j), jIdx % (2 * j + 1), some r⟩

/-- `CircularShellsBasis.__getitem__`, polar_basis.py L936-972. -/
def getItemCirc (size : ℕ × ℕ → ℕ) (b : Shells) (idx : ℕ) : Except Err ShAttr :=
  if ¬ idx < b.dim size then .error .assertion
  else do
    let i ← mapIdx b.idxMap idx
    let j := (i / b.n + 1) / 2
    if ¬ ((2 * j + 1) * b.n ≤ i ∧ i < (2 * j + 3) * b.n) then .error .assertion
    else
      let jIdx := i - (2 * j + 1) * b.n
      let d := if 0 < j then 2 else 1
      let r ← radialGet b (jIdx / d)
      .ok ⟨idx, jIdx / d, (if 0 < j then 1 else 0, j), jIdx % d, some r⟩

/-- `self.multiplicity`, steerable_filters_basis.py L187-194. -/
def mult (b : Shells) (j : ℕ × ℕ) : ℕ := (FType.lookupLast b.js j).getD 0

/-- `self._filter is None or (self._filter[i:i+dim] == 1).all()`, polar_basis.py L372, L443, L807, L879. -/
def sliceAll (b : Shells) (i d : ℕ) : Bool := match b.filter with | none => true | some F => ((F.drop i).take d).all id

/-- The loop over the radial elements in `steerable_attrs_j_iter` and `steerable_attrs_iter`, polar_basis.py L442-456, L878-892, L371-385, L806-820. -/
def stR (b : Shells) (j : ℕ) : List ℕ → ℕ → ℕ → List StAttr × ℕ × ℕ
  | [], idx, i => ([], idx, i)
  | r :: L, idx, i =>
    if b.sliceAll i (b.kind.dim j) then
      let t := stR b j L (idx + 1) (i + b.kind.dim j)
      (⟨idx, r, b.kind.id j, some r⟩ :: t.1, t.2)
    else stR b j L idx (i + b.kind.dim j)

/-- The loop over the frequencies in `steerable_attrs_iter`, polar_basis.py L365 and L797. -/
def stJ (b : Shells) : List ℕ → ℕ → ℕ → List StAttr
  | [], _, _ => []
  | j :: L, idx, i =>
    let t := stR b j (List.range b.n) idx i
    t.1 ++ stJ b L t.2.1 t.2.2

/-- `steerable_attrs_iter`, polar_basis.py L354-385 and L786-820. -/
def steerableAttrsIter (b : Shells) : List StAttr := stJ b (List.range (b.L + 1)) 0 0

/-- The sum of the multiplicities below `j`, polar_basis.py L430, L470, L866, L906. -/
def multBelow (b : Shells) (j : ℕ) : ℕ := ((List.range j).map fun j' => b.mult (b.kind.id j')).sum

/-- `steerable_attrs_j_iter`, polar_basis.py L420-456 and L856-892: the slices start at `i = 0` for every `j`. -/
def steerableAttrsJIter (b : Shells) (j : ℕ × ℕ) : List StAttr :=
  if j.1 ≠ (b.kind.id j.2).1 then [] else (stR b j.2 (List.range b.n) (b.multBelow j.2) 0).1

/-- `steerable_attrs_j`, polar_basis.py L458-498 and L894-934; `none` is the value `None`. -/
def steerableAttrsJ (b : Shells) (j : ℕ × ℕ) (idx : ℕ) : Except Err (Option StAttr) :=
  if j.1 ≠ (b.kind.id j.2).1 then .ok none
  else if ¬ idx < b.mult j then .error .assertion
  else do
    let i ← mapIdx b.sMap (idx + b.multBelow j.2)
    if i / b.n ≠ j.2 then .error .assertion
    else
      let r ← radialGet b (i % b.n)
      .ok (some ⟨idx + b.multBelow j.2, i % b.n, j, some r⟩)

/-- `steerable_attrs`, polar_basis.py L387-418 (`spherical`, where L408 overwrites the dictionary with the radial attributes) and L822-854. -/
def steerableAttrs (b : Shells) (spherical : Bool) (idx : ℕ) : Except Err StAttr :=
  if ¬ idx < b.numInv then .error .assertion
  else do
    let i ← mapIdx b.sMap idx
    let r ← radialGet b (i % b.n)
    .ok ⟨idx, i % b.n, b.kind.id (i / b.n), if spherical then none else some r⟩

end Shells

/-! ### Radial profile and circular harmonics -/

/-- `GaussianRadialProfile.__init__`, polar_basis.py L50-65, with a list of widths: the checks. -/
def gaussianOk (radii sigma : List ℝ) : Prop := radii.length = sigma.length ∧ (∀ r ∈ radii, 0 ≤ r) ∧ (∀ s ∈ sigma, 0 < s) ∧ radii ≠ []

/-- `GaussianRadialProfile.sample`, polar_basis.py L67-103, element `r` at radius `x`. -/
noncomputable def gaussian (radii sigma : List ℝ) (x : ℝ) (r : ℕ) : ℝ := Real.exp (-(0.5 : ℝ) * (radii.getD r 0 - x) ^ 2 / sigma.getD r 0 ^ 2)

/-- `torch.norm` of a point of the plane. -/
noncomputable def norm2 (p : ℝ × ℝ) : ℝ := Real.sqrt (p.1 ^ 2 + p.2 ^ 2)

/-- `torch.atan2(y, x)`. -/
noncomputable def atan2 (y x : ℝ) : ℝ := Complex.arg ⟨x, y⟩

/-- `circular_harmonics`, polar_basis.py L122-151, entry `e`: `Y[:, 0] = 1`, `Y[:, 1::2]` the cosines, `Y[:, 2::2]` the sines of `freqs * angles`. -/
noncomputable def circularHarmonics (p : ℝ × ℝ) (phase : ℝ) (e : ℕ) : ℝ :=
  let angle := atan2 p.2 p.1 - phase
  if e = 0 then 1 else if e % 2 = 1 then Real.cos (((e + 1) / 2 : ℕ) * angle) else Real.sin ((e / 2 : ℕ) * angle)

/-- `circular` in `CircularShellsBasis.sample`, polar_basis.py L729-762: the harmonics of `point / radius` away from the origin; `[1, 0, …]` at the origin. -/
noncomputable def circularAt (axis : ℝ) (p : ℝ × ℝ) (e : ℕ) : ℝ :=
  if 1e-9 < norm2 p then circularHarmonics (p.1 / norm2 p, p.2 / norm2 p) axis e else if e = 0 then 1 else 0

/-- `CircularShellsBasis.sample`, polar_basis.py L707-784. -/
noncomputable def circularSample (junk : ℕ → ℝ) (b : Shells) (radii sigma : List ℝ) (axis : ℝ) (p : ℝ × ℝ) (e : ℕ) : ℝ :=
  b.sample junk (gaussian radii sigma (norm2 p)) (circularAt axis p) e

/-- `self.action`, polar_basis.py L636 and L696-697: the standard representation `irrep(1, 1)` (o2group.py L621-628) of O(2) in the basis turned by `axis`. -/
noncomputable def circularAction (taken : List String) (name : String) (axis : ℝ) : Except Err (Rep O2.Elem (ℕ × ℕ)) := do
  let std := irrepRep O2.table "irrep_1,1" ∅ (1, 1)
  let g ← O2.element (0, axis)
  changeBasis O2.table taken std (std.mat g) name none

/-- `points @ action(g).T`, steerable_filters_basis.py L259, for one point. -/
noncomputable def moveBy (M : NpMat ℝ) (p : ℝ × ℝ) : ℝ × ℝ := (M.get 0 0 * p.1 + M.get 0 1 * p.2, M.get 1 0 * p.1 + M.get 1 1 * p.2)

/-- The whole `CircularShellsBasis` as the solvers see it. -/
noncomputable def circularBasis (junk : ℕ → ℝ) (b : Shells) (radii sigma : List ℝ) (axis : ℝ) : FBasis (ℕ × ℕ) (ℝ × ℝ) (Option StAttr) :=
  ⟨b.js, circularSample junk b radii sigma axis, b.steerableAttrsJ, fun j => .ok ((b.steerableAttrsJIter j).map some)⟩

end Escnn
