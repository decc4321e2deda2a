import Verif.Model.GTensor

/-!
# Model of `escnn.nn.SequentialModule`

`X` are the values passed between modules (geometric tensors), `T` their types, `typeOf` the attribute `type`; `eqT` is the equality of
field types.  A `SequentialModule` keeps its submodules in the ordered dictionary `_modules` of `torch.nn.Module`.
-/

namespace Escnn

/-- The part of a module used by `SequentialModule`. -/
structure SMod (X T Sh : Type) where
  inType : T
  outType : T
  forward : X → Except Err X
  outShape : Sh → Except Err Sh

/-- The state of a `SequentialModule`: the dictionary `_modules` and the two types, sequential_module.py L57-69. -/
structure Seq (X T Sh : Type) where
  mods : List (String × SMod X T Sh)
  inType : Option T
  outType : Option T

namespace Seq

variable {X T Sh : Type}

/-- Assignment to a key of an ordered dictionary: an existing key keeps its position. -/
def dictSet {V : Type} (k : String) (v : V) : List (String × V) → List (String × V)
  | [] => [(k, v)]
  | (k', v') :: d => if k' = k then (k, v) :: d else (k', v') :: dictSet k v d

/-- `torch.nn.Module.add_module`: names which are empty, contain a dot, or are attributes of the module are rejected with `KeyError`. -/
def torchAdd (attr : String → Bool) (s : Seq X T Sh) (name : String) (m : SMod X T Sh) : Except Err (List (String × SMod X T Sh)) :=
  if attr name ∨ name.toList.contains '.' ∨ name = "" then .error .key else .ok (dictSet name m s.mods)

open Classical in
/-- `add_module`, sequential_module.py L94-108. -/
noncomputable def addModule (eqT : T → T → Prop) (attr : String → Bool) (s : Seq X T Sh) (name : String) (m : SMod X T Sh) : Except Err (Seq X T Sh) :=
  if s.mods.length = 0 then
    if s.inType.isSome ∨ s.outType.isSome then .error .assertion
    else do
      let mods ← torchAdd attr s name m
      .ok ⟨mods, some m.inType, some m.outType⟩
  else
    match s.outType with
    | none => .error .assertion
    | some t =>
      if eqT m.inType t then do
        let mods ← torchAdd attr s name m
        .ok ⟨mods, s.inType, some m.outType⟩
      else .error .assertion

/-- The loops of the constructor, sequential_module.py L63-69. -/
noncomputable def addAll (eqT : T → T → Prop) (attr : String → Bool) : Seq X T Sh → List (String × SMod X T Sh) → Except Err (Seq X T Sh)
  | s, [] => .ok s
  | s, (n, m) :: L => do
    let s ← addModule eqT attr s n m
    addAll eqT attr s L

/-- The constructor with an ordered dictionary, sequential_module.py L57-65. -/
noncomputable def ofDict (eqT : T → T → Prop) (attr : String → Bool) (d : List (String × SMod X T Sh)) : Except Err (Seq X T Sh) :=
  addAll eqT attr ⟨[], none, none⟩ d

/-- The constructor with modules, sequential_module.py L57-69: the names are the positions. -/
noncomputable def init (eqT : T → T → Prop) (attr : String → Bool) (ms : List (SMod X T Sh)) : Except Err (Seq X T Sh) :=
  addAll eqT attr ⟨[], none, none⟩ (ms.zipIdx.map fun mi => (toString mi.2, mi.1))

/-- `__len__`, sequential_module.py L132-133. -/
def len (s : Seq X T Sh) : ℕ := s.mods.length

/-- `__iter__`, sequential_module.py L129-130. -/
def iter (s : Seq X T Sh) : List (SMod X T Sh) := s.mods.map Prod.snd

/-- `append`, sequential_module.py L110-114. -/
noncomputable def append (eqT : T → T → Prop) (attr : String → Bool) (s : Seq X T Sh) (m : SMod X T Sh) : Except Err (Seq X T Sh) :=
  addModule eqT attr s (toString s.len) m

/-- The search loop of `__getitem__`, sequential_module.py L122-125. -/
def find (idx : ℤ) : ℕ → List (SMod X T Sh) → Except Err (SMod X T Sh)
  | _, [] => .error .value
  | i, m :: L => if (i : ℤ) = idx then .ok m else find idx (i + 1) L

/-- `__getitem__` with an integer, sequential_module.py L119-125. -/
def getInt (s : Seq X T Sh) (idx : ℤ) : Except Err (SMod X T Sh) :=
  if -(s.len : ℤ) ≤ idx ∧ idx < s.len then find (idx % s.len) 0 s.iter else .error .assertion

/-- `__getitem__` with a slice, sequential_module.py L117-118. -/
noncomputable def getSlice (eqT : T → T → Prop) (attr : String → Bool) (s : Seq X T Sh) (start stop step : Option ℤ) : Except Err (Seq X T Sh) := do
  let d ← pySlice s.mods start stop step
  ofDict eqT attr d

/-- The loop of `forward`, sequential_module.py L87-88. -/
def run : List (SMod X T Sh) → X → Except Err X
  | [], x => .ok x
  | m :: L, x => do
    let x ← m.forward x
    run L x

open Classical in
/-- `forward`, sequential_module.py L74-92; a type is never equal to `None`. -/
noncomputable def forward (eqT : T → T → Prop) (typeOf : X → T) (s : Seq X T Sh) (x : X) : Except Err X :=
  if ∃ t, s.inType = some t ∧ eqT (typeOf x) t then do
    let y ← run s.iter x
    if ∃ t, s.outType = some t ∧ eqT (typeOf y) t then .ok y else .error .assertion
  else .error .assertion

/-- The loop of `evaluate_output_shape`, sequential_module.py L140-145. -/
def outShape : List (SMod X T Sh) → Sh → Except Err Sh
  | [], s => .ok s
  | m :: L, s => do
    let s ← m.outShape s
    outShape L s

end Seq

end Escnn
