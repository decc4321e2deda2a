import Verif.Model.Conv
import Mathlib.Analysis.SpecialFunctions.Exp

/-!
# Model of escnn/nn/modules/masking_module.py
-/

namespace Escnn

/-- `product(range(s), repeat=d)`, masking_module.py L27: the last entry changes fastest (contract of `itertools.product`). -/
def pixels (s : ℕ) : (d : ℕ) → List (Fin d → ℕ)
  | 0 => [Fin.elim0]
  | d + 1 => (List.range s).flatMap fun a => (pixels s d).map fun k => Fin.cons a k

open Classical in
/-- The value assigned to the pixel `k`, L28-32.  `math.exp((t - r) / sigma**2)` raises `ZeroDivisionError` for `sigma = 0`, represented by `Err.value`. -/
noncomputable def maskValue {d : ℕ} (c t sigma : ℝ) (k : Fin d → ℕ) : Except Err ℝ :=
  let r : ℝ := ∑ i, ((k i : ℝ) - c) ^ 2
  if r > t then if sigma ^ 2 = 0 then .error .value else .ok (Real.exp ((t - r) / sigma ^ 2)) else .ok 1

/-- `build_mask(s, dim, margin, sigma)`, L18-34.  The two leading axes of size 1 are left out. -/
noncomputable def buildMask (s d : ℕ) (margin sigma : ℝ) : Except Err (NdArr d Unit) := do
  let c : ℝ := ((s : ℝ) - 1) / 2
  let t : ℝ := (c - margin / 100 * c) ^ 2
  let m ← (pixels s d).foldlM (fun (mask : (Fin d → ℕ) → ℝ) k => do
    let v ← maskValue c t sigma k
    .ok (Function.update mask k v)) fun _ => 0
  .ok ⟨fun _ => s, fun _ => m⟩

/-- `MaskModule`; `d` is `in_type.gspace.dimensionality`. -/
structure MaskModule (d : ℕ) (S R : Type) where
  inType : FType S R
  mask : NdArr d Unit

namespace MaskModule

variable {d : ℕ} {B S R : Type}

/-- `MaskModule.__init__`, L38-95. -/
noncomputable def init (t : FType S R) (s : ℕ) (margin sigma : ℝ) : Except Err (MaskModule d S R) := do
  let m ← buildMask s d margin sigma
  .ok ⟨t, m⟩

open Classical in
/-- `forward`, L97-103. -/
noncomputable def forward (sz : R → ℕ) (m : MaskModule d S R) (x : GMap d B S R) : Except Err (GMap d B S R) :=
  if x.type = m.inType then
    if x.map.shape = m.mask.shape then GMap.mk' sz ⟨x.map.chans, x.map.shape, fun b c k => x.map.get b c k * m.mask.get () k⟩ m.inType else .error .assertion
  else .error .assertion

end MaskModule

end Escnn
