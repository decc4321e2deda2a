import Verif.Model.Sampler

/-!
# Model of `get_element_info` and `get_basis_info` of the samplers

`inR`, `outR` are the attributes `_in_reprs`, `_out_reprs` of `BlocksBasisSampler` (basissampler_blocks.py L47-48); `ni` is the number of irreps of a representation.
-/

namespace Escnn

/-- `get_element_info`, basissampler_singleblock.py L76-84: the loop is that of basisexpansion_singleblock.py L86-93. -/
def PBlock.elementInfo {X A : Type} (b : PBlock X A) (id : ℕ) : Option (Attr A) := SBlock.infoLoop id 0 (b.basis.attrs.zip b.mask)

/-- `get_basis_info`, basissampler_singleblock.py L86-92: the loop is that of basisexpansion_singleblock.py L95-101. -/
def PBlock.basisInfo {X A : Type} (b : PBlock X A) : List (Attr A) := SBlock.basisLoop 0 (b.basis.attrs.zip b.mask)

namespace Sampler

variable {R X A : Type} (nm : R → String) (ni : R → ℕ) (inR outR : List R)

/-- `get_element_info`, basissampler_blocks.py L153-202; the nested loops of L172-200 are those of basisexpansion_blocks.py L177-216. -/
def elementInfo (m : Sampler X A) (idx : ℕ) : Except Err (BInfo A) :=
  if ¬ idx < m.dim then .error .assertion
  else
    match m.ranges.find? fun e => decide (e.2.1 ≤ idx ∧ idx < e.2.2) with
    | none => .error .assertion
    | some e => do
      let b ← tabGet m.blocks e.1
      let block := (idx - e.2.1) / b.dim
      let rel := (idx - e.2.1) % b.dim
      match b.elementInfo rel with
      | none => .error .attribute
      | some a =>
        match Blocks.searchOut nm ni e.1 inR block 0 0 0 outR with
        | none => .error .value
        | some (o, i) => .ok (Blocks.mkInfo e.1 idx o i a)

/-- The items yielded by `get_basis_info` for one pair, basissampler_blocks.py L206-216 and L221-259, without the ids. -/
def pairInfo (m : Sampler X A) (p : String × String) : Except Err (List (ℕ → BInfo A)) := do
  let b ← tabGet m.blocks p
  let attrs := b.basisInfo
  let L ← mapE (fun o => do
    let oc ← pyGet (Blocks.irrepsCounts ni 0 outR) (o : ℕ)
    let L ← mapE (fun i => do
      let ic ← pyGet (Blocks.irrepsCounts ni 0 inR) (i : ℕ)
      .ok (attrs.map fun a idx => Blocks.mkInfo p idx (oc, o) (ic, i) a)) (FType.labelLoop p.1 0 (inR.map nm))
    .ok L.flatten) (FType.labelLoop p.2 0 (outR.map nm))
  .ok L.flatten

/-- `get_basis_info`, basissampler_blocks.py L204-265, as the list of its items; the assertion of L261 fails at an item `idx ≥ dim`. -/
def basisInfo (m : Sampler X A) : Except Err (List (BInfo A)) := do
  let L ← mapE (pairInfo nm ni inR outR m) m.pairs
  let L := L.flatten
  if L.length ≤ m.dim then .ok (L.zipIdx.map fun e => e.1 e.2) else .error .assertion

end Sampler

end Escnn
