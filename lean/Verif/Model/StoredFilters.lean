import Verif.Model.KernelsR2
import Verif.Model.Arith

/-!
# Model of `kernels_O2_act_R2` and of the dictionary `_stored_filters` of sampled bases

The dictionary is global: it is shared by all the layers of a process.  Its keys are compared with `==`, which is modelled as the code defines it.
-/

namespace Escnn

open Classical in
/-- `kernels_O2_act_R2`, kernels/r2.py L73-126, without adjoint and with a given maximum frequency: the Wigner-Eckart solver for the whole group; the Clebsch-Gordan coefficients are those of `K`. -/
noncomputable def kernelsO2 (K : KGroup O2.Elem (ℕ × ℕ)) (rin rout : Rep O2.Elem (ℕ × ℕ)) (radii sigma : List ℝ) (L : ℕ) (axis : ℝ)
    (filter : Option (ℕ × ℕ → ℕ → Bool)) (junk : ℕ → ℝ) : Except Err (SKB (ℕ × ℕ) (ℕ × ℕ) (Option StAttr) × FBasis (ℕ × ℕ) (ℝ × ℝ) (Option StAttr)) := do
  if ¬ (radii.length = sigma.length ∧ (∀ r ∈ radii, 0 ≤ r) ∧ (∀ s ∈ sigma, 0 < s)) then .error .assertion
  else if radii = [] then .error .emptyBasis
  else
    let b ← Shells.init ShellKind.circ O2.table.size L radii.length filter
    let F := circularBasis junk b radii sigma axis
    let s ← SKB.init K.T.size (0, 0) F (WE.init K F) rin rout
    .ok (s, F)

/-- What `==` reads of a `SteerableKernelBasis` on the plane: the arguments of its constructors, the object and its filters.  `axis` is an attribute which `==` does not read.
`filt` is the filter, with the address of the tensor `_filter` which the constructor allocates for it (polar_basis.py L638-705).
`sg` is the argument `sg_id` of `RestrictedWignerEckartBasis`; `none` stands for the class `WignerEckartBasis`, which has none. -/
structure PlaneBasis (H J' : Type) where
  sg : Option (Option ℝ × ℤ)
  radii : List ℝ
  sigma : List ℝ
  L : ℕ
  axis : ℝ
  filt : Option (ℕ × (ℕ × ℕ → ℕ → Bool))
  rin : Rep H J'
  rout : Rep H J'
  skb : SKB (ℕ × ℕ) J' (Option StAttr)
  filters : FBasis (ℕ × ℕ) (ℝ × ℝ) (Option StAttr)

/-- `kernels_O2_act_R2` returning the object with its attributes, kernels/r2.py L73-126. -/
noncomputable def PlaneBasis.o2 (K : KGroup O2.Elem (ℕ × ℕ)) (rin rout : Rep O2.Elem (ℕ × ℕ)) (radii sigma : List ℝ) (L : ℕ) (axis : ℝ)
    (filt : Option (ℕ × (ℕ × ℕ → ℕ → Bool))) (junk : ℕ → ℝ) : Except Err (PlaneBasis O2.Elem (ℕ × ℕ)) := do
  let r ← kernelsO2 K rin rout radii sigma L axis (filt.map Prod.snd) junk
  .ok ⟨none, radii, sigma, L, axis, filt, rin, rout, r.1, r.2⟩

variable {H J' : Type} [DecidableEq J']

/-- `kernels_O2_subgroup_act_R2` for the subgroup `sg` returning the object with its attributes, kernels/r2.py L132-165. -/
noncomputable def PlaneBasis.subgroup (sg : Option ℝ × ℤ) (K : KGroup H J') (res : ℕ × ℕ → Rep H J') (rin rout : Rep H J') (radii sigma : List ℝ) (L : ℕ) (axis : ℝ)
    (filt : Option (ℕ × (ℕ × ℕ → ℕ → Bool))) (junk : ℕ → ℝ) : Except Err (PlaneBasis H J') := do
  let r ← kernelsO2Subgroup K res rin rout radii sigma L axis (filt.map Prod.snd) junk
  .ok ⟨some sg, radii, sigma, L, axis, filt, rin, rout, r.1, r.2⟩

/-- `CircularShellsBasis.__eq__`, polar_basis.py L1007-1015, with `GaussianRadialProfile.__eq__`, L109-116 (`allclose` is equality), as the dictionary uses it: it compares hashes first,
and the hash of a basis contains that of its tensor `_filter` (L1017-1018), which is its address; so a basis with a filter is found only if it has the same tensor.  (`==` itself would compare
the tensors elementwise; keys whose hashes agree by accident are not modelled.) -/
def PlaneBasis.ShellsEq (a b : PlaneBasis H J') : Prop := (a.radii = b.radii ∧ a.sigma = b.sigma) ∧ a.L = b.L ∧ a.filt.map Prod.fst = b.filt.map Prod.fst

/-- `WignerEckartBasis.__eq__` and `RestrictedWignerEckartBasis.__eq__`, wignereckart_solver.py L208-220 and L505-517, for two bases of the same pair of irreps over equal filters: `js` and the coefficients (as the functions which they define). -/
def IBasis.PyEq {J A : Type} (b c : IBasis J J' A) : Prop := b.js = c.js ∧ ∀ j ∈ b.js, b.block j = c.block j

/-- `SteerableKernelBasis.__eq__`, steerable_basis.py L554-569: the filters, the representations, and the bases for the pairs of irreps.  These compare the class and
`sg_id` too (at least one pair has a basis). -/
def PlaneBasis.PyEq (a b : PlaneBasis H J') : Prop :=
  a.sg = b.sg ∧ a.ShellsEq b ∧ a.rin.PyEq b.rin ∧ a.rout.PyEq b.rout ∧
  List.Forall₂ (fun c d : Cell (ℕ × ℕ) J' (Option StAttr) => (c.ii = d.ii ∧ c.oo = d.oo) ∧ c.basis.PyEq d.basis) a.skb.cells b.skb.cells

/-- A key of `_stored_filters`, basisexpansion_singleblock.py L151: the basis, the mask, the points. -/
structure StoredKey (H J' : Type) where
  basis : PlaneBasis H J'
  mask : List Bool
  points : List (ℝ × ℝ)

/-- Equality of keys.  Equal bases have equal hashes (polar_basis.py L118-119, L1017-1018, steerable_basis.py L571-575), so the dictionary finds every key equal to one of its keys. -/
def StoredKey.PyEq (a b : StoredKey H J') : Prop := a.basis.PyEq b.basis ∧ a.mask = b.mask ∧ a.points = b.points

/-- The sampled filters of a block. -/
abbrev PlaneBlock (J' : Type) := SBlock (SAttr (ℕ × ℕ) J' (Option StAttr))

/-- The content of `_stored_filters`. -/
abbrev Stored (H J' : Type) := List (StoredKey H J' × PlaneBlock J')

/-- `SingleBlockBasisExpansion(basis, points, mask)`, basisexpansion_singleblock.py L33-76. -/
noncomputable def StoredKey.build (k : StoredKey H J') : Except Err (PlaneBlock J') := do
  let kb ← k.basis.skb.kbasis O2.table.size k.basis.filters k.points
  SBlock.init k.points.length kb k.mask

/-- The mask, basisexpansion_singleblock.py L141-147. -/
def PlaneBasis.mask (b : PlaneBasis H J') : Option (Attr (SAttr (ℕ × ℕ) J' (Option StAttr)) → Bool) → Except Err (List Bool)
  | some f => do
    let L ← b.skb.iter
    .ok (L.map fun a => f (a.toAttr b.skb.rows))
  | none => .ok (List.replicate b.skb.dim true)

open Classical in
/-- `key in _stored_filters` and `_stored_filters[key]`, basisexpansion_singleblock.py L152-155. -/
noncomputable def Stored.find (d : Stored H J') (k : StoredKey H J') : Option (PlaneBlock J') := (List.find? (fun e => decide (e.1.PyEq k)) d).map Prod.snd

/-- Lookup or construction, basisexpansion_singleblock.py L149-158. -/
noncomputable def Stored.get (d : Stored H J') (k : StoredKey H J') (recompute : Bool) : Except Err (PlaneBlock J') × Stored H J' :=
  if recompute then (k.build, d)
  else match d.find k with
    | some v => (.ok v, d)
    | none => match k.build with
      | .error e => (.error e, d)
      | .ok v => (.ok v, d ++ [(k, v)])

/-- The arguments of `block_basisexpansion`. -/
structure ExpCall (H J' : Type) where
  basis : PlaneBasis H J'
  points : List (ℝ × ℝ)
  filter : Option (Attr (SAttr (ℕ × ℕ) J' (Option StAttr)) → Bool)
  recompute : Bool

/-- `block_basisexpansion`, basisexpansion_singleblock.py L124-160. -/
noncomputable def Stored.expansion (d : Stored H J') (c : ExpCall H J') : Except Err (PlaneBlock J') × Stored H J' :=
  match c.basis.mask c.filter with
  | .error e => (.error e, d)
  | .ok m => d.get ⟨c.basis, m, c.points⟩ c.recompute

/-- The dictionary after a sequence of calls; it is empty at first (basisexpansion_singleblock.py L120). -/
noncomputable def Stored.run : Stored H J' → List (ExpCall H J') → Stored H J'
  | d, [] => d
  | d, c :: L => Stored.run (d.expansion c).2 L

end Escnn
