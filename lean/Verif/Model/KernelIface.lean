import Verif.Model.SteerableBasis
import Verif.Model.Expansion
import Verif.Model.Sparse

/-!
# A `SteerableKernelBasis` as the basis expansion sees it
-/

namespace Escnn

variable {J J' P A G : Type} [DecidableEq J] [DecidableEq J']

/-- The attributes of a basis element read by the expansion, from those set by `SteerableKernelBasis.__iter__`, steerable_basis.py L540-550: `id`, `shape`,
`in_irrep_idx`, `out_irrep_idx`. -/
def SAttr.toAttr (rows : ℕ) (a : SAttr J J' A) : Attr (SAttr J J' A) := ⟨a.idx, rows, a.inIdx, a.outIdx, a⟩

/-- Iteration over the attributes and `basis.sample(points)`, basisexpansion_singleblock.py L55-66, for the points `pts`. -/
noncomputable def SKB.kbasis (Fsize : J → ℕ) (F : FBasis J P A) (pts : List P) (s : SKB J J' A) : Except Err (KBasis (SAttr J J' A)) := do
  let L ← s.iter
  let Ks ← mapE (fun e => mapE (fun x => SKB.sample Fsize F s x e) pts) (List.range s.dim)
  .ok ⟨s.rows, s.cols, L.map (SAttr.toAttr s.rows), Ks.map fun M a c p => (M[p]?.getD (NpMat.zeros 0 0)).get a c⟩

/-- A generator of kernel bases followed by the sampling. -/
noncomputable def kernGen (Fsize : J → ℕ) (F : FBasis J P A) (pts : List P) (mk : Rep G J' → Rep G J' → Except Err (SKB J J' A)) (rin rout : Rep G J') :
    Except Err (KBasis (SAttr J J' A)) := do
  let s ← mk rin rout
  s.kbasis Fsize F pts

/-- `GSpace0D.build_fiber_intertwiner_basis`, gspaces/r0.py L42-81: `kernels_on_point`, kernels/__init__.py L21-38, sampled at the single point of Linear,
linear.py L166-169.  The cache by the names of the representations is not modelled here (see C22). -/
noncomputable def pointGen (K : KGroup G J) (triv : J) : Rep G J → Rep G J → Except Err (KBasis (SAttr J J (Option ℕ))) :=
  kernGen K.T.size (pointBasis (P := Unit) triv) [()] (SKB.init K.T.size triv (pointBasis (P := Unit) triv) (WE.init K (pointBasis (P := Unit) triv)))

end Escnn
