import Verif.Model.DirectProduct
import Verif.Model.DPIrrep

/-!
# Model of the encoding of subgroup ids (group.py L866-887, directproduct.py L616-649) and of `get_irrep_id` (group.py L853-864)
-/

namespace Escnn

/-- The Python objects in subgroup ids: `None`, booleans, integers, floats, strings, tuples and group elements.  `el g v` is the element with the stored value `v` of the group `g`;
`raw v` is the value of a group element on its own (the decoding does not look into it). -/
inductive PyId (V Gp : Type) where
  | none
  | bool (b : Bool)
  | int (n : ℤ)
  | float (x : ℝ)
  | str (s : List Char)
  | raw (v : V)
  | el (g : Gp) (v : V)
  | tup (l : List (PyId V Gp))

/-- The groups: `PARAM`, and `element(v, param)` (group.py L983-999), which returns the stored value. -/
structure PyGroups (V Gp : Type) where
  param : Gp → Param
  element : Gp → V → Param → Except Err V

namespace PyId

variable {V Gp : Type}

/-- `self.element(id[1], id[2])` for a tuple `id` with the entries `rest` after the first one.  (The values of elements are never themselves ids.) -/
def elementOf (Γ : PyGroups V Gp) (g : Gp) : List (PyId V Gp) → Except Err (PyId V Gp)
  | .raw v :: .str p :: _ => do .ok (.el g (← Γ.element g v p))
  | _ :: _ :: _ => .error .type
  | _ => .error .index

mutual
/-- `Group._encode_subgroup_id_pickleable`, group.py L879-887. -/
def encode (Γ : PyGroups V Gp) : PyId V Gp → PyId V Gp
  | .el g v => .tup [.str "GROUPELEMENT".toList, .raw v, .str (Γ.param g)]
  | .tup l => .tup (encodeList Γ l)
  | x => x
/-- The loop over the entries of a tuple, L884-886. -/
def encodeList (Γ : PyGroups V Gp) : List (PyId V Gp) → List (PyId V Gp)
  | [] => []
  | x :: l => encode Γ x :: encodeList Γ l
end

mutual
/-- `Group._decode_subgroup_id_pickleable` of the group `self`, group.py L866-877: `id[0]` of an empty tuple raises `IndexError`. -/
def decode (Γ : PyGroups V Gp) (self : Gp) : PyId V Gp → Except Err (PyId V Gp)
  | .tup [] => .error .index
  | .tup (.str s :: l) => if s = "GROUPELEMENT".toList then elementOf Γ self l else do .ok (.tup (.str s :: (← decodeList Γ self l)))
  | .tup (x :: l) => do
    let y ← decode Γ self x
    .ok (.tup (y :: (← decodeList Γ self l)))
  | x => .ok x
/-- The loop over the entries of a tuple, L873-875. -/
def decodeList (Γ : PyGroups V Gp) (self : Gp) : List (PyId V Gp) → Except Err (List (PyId V Gp))
  | [] => .ok []
  | x :: l => do
    let y ← decode Γ self x
    .ok (y :: (← decodeList Γ self l))
end

variable [DecidableEq Gp]

mutual
/-- `DirectProductGroup._encode_subgroup_id_pickleable`, directproduct.py L632-649, of the product `self` of `g₁` and `g₂`. -/
def encodeDP (Γ : PyGroups V Gp) (self g₁ g₂ : Gp) : PyId V Gp → Except Err (PyId V Gp)
  | .el g v =>
    if g = self then .ok (.tup [.str "G".toList, .raw v, .str (Γ.param g)])
    else if g = g₁ then .ok (.tup [.str "G1".toList, .raw v, .str (Γ.param g)])
    else if g = g₂ then .ok (.tup [.str "G2".toList, .raw v, .str (Γ.param g)])
    else .error .value
  | .tup l => do .ok (.tup (← encodeDPList Γ self g₁ g₂ l))
  | x => .ok x
/-- The loop over the entries of a tuple, L645-648. -/
def encodeDPList (Γ : PyGroups V Gp) (self g₁ g₂ : Gp) : List (PyId V Gp) → Except Err (List (PyId V Gp))
  | [] => .ok []
  | x :: l => do
    let y ← encodeDP Γ self g₁ g₂ x
    .ok (y :: (← encodeDPList Γ self g₁ g₂ l))
end

mutual
/-- `DirectProductGroup._decode_subgroup_id_pickleable`, directproduct.py L616-630. -/
def decodeDP (Γ : PyGroups V Gp) (self g₁ g₂ : Gp) : PyId V Gp → Except Err (PyId V Gp)
  | .tup [] => .error .index
  | .tup (.str s :: l) =>
    if s = "G".toList then elementOf Γ self l
    else if s = "G1".toList then elementOf Γ g₁ l
    else if s = "G2".toList then elementOf Γ g₂ l
    else do .ok (.tup (.str s :: (← decodeDPList Γ self g₁ g₂ l)))
  | .tup (x :: l) => do
    let y ← decodeDP Γ self g₁ g₂ x
    .ok (.tup (y :: (← decodeDPList Γ self g₁ g₂ l)))
  | x => .ok x
/-- The loop over the entries of a tuple, L626-628. -/
def decodeDPList (Γ : PyGroups V Gp) (self g₁ g₂ : Gp) : List (PyId V Gp) → Except Err (List (PyId V Gp))
  | [] => .ok []
  | x :: l => do
    let y ← decodeDP Γ self g₁ g₂ x
    .ok (y :: (← decodeDPList Γ self g₁ g₂ l))
end

end PyId

/-! ### Irrep ids -/

/-- The parts of an `IrreducibleRepresentation` which matter for its id. -/
structure IrrepObj (I : Type) where
  id : I
  name : String
  kind : IrrType

/-- `DirectProductGroup.irrep(id1, id2, i)`, directproduct.py L520-576; `irrep₁`, `irrep₂` are the methods of the factors and `name` is the formatted name.
Simplification: the cache `_irreps` (L548) is left out. -/
def dpIrrep {I₁ I₂ : Type} (irrep₁ : I₁ → Except Err (IrrepObj I₁)) (irrep₂ : I₂ → Except Err (IrrepObj I₂)) (name : I₁ → I₂ → ℤ → String) (id : I₁ × I₂ × ℤ) : Except Err (IrrepObj (I₁ × I₂ × ℤ)) := do
  let ψ₁ ← irrep₁ id.1
  let ψ₂ ← irrep₂ id.2.1
  if ψ₁.kind = .C ∧ ψ₂.kind = .C then pyAssert (decide (id.2.2 = 0 ∨ id.2.2 = 1)) else pyAssert (decide (id.2.2 = 0))
  let kind := dpType ψ₁.kind ψ₂.kind
  .ok ⟨id, name id.1 id.2.1 id.2.2, kind⟩

/-- The arguments of `get_irrep_id`. -/
inductive IrrepArg (I : Type) where
  | obj (ψ : IrrepObj I)
  | str (name : String)
  | tup (id : I)

/-- What `get_irrep_id` returns: an id, or (for a string) the representation itself. -/
inductive IrrepRes (I : Type) where
  | id (i : I)
  | obj (ψ : IrrepObj I)

/-- `get_irrep_id(psi)`, group.py L853-864; `representations` is the dictionary of the group, by name. -/
def getIrrepId {I : Type} (irrep : I → Except Err (IrrepObj I)) (representations : List (String × IrrepObj I)) : IrrepArg I → Except Err (IrrepRes I)
  | .obj ψ => .ok (.id ψ.id)
  | .str s =>
    match representations.lookup s with
    | some ψ => .ok (.obj ψ)
    | Option.none => .error .key
  | .tup i => do
    let ψ ← irrep i
    .ok (.id ψ.id)

end Escnn
