import Verif.Model.Induced

/-!
# The caches of groups, representations and G-spaces

All of them have the same shape: compute a key from the arguments, build and store the value if the key is missing, return the
stored value.  An exception raised while building leaves the dictionary unchanged.
-/

namespace Escnn

section
variable {A K V : Type} [DecidableEq K]

/-- `if key not in cache: cache[key] = build(args)` followed by `return cache[key]`: group.py L338-343 (`subgroup`), L505-531
(`quotient_representation`), L555-579 (`induced_representation`), representation.py L324-329 (`restrict`), gspace.py L355-367
(`build_fiber_intertwiner_basis`), L441-458 (`build_kernel_basis`). -/
def memo (key : A → K) (build : A → Except Err V) (c : K → Option V) (a : A) : Except Err V × (K → Option V) :=
  match c (key a) with
  | some v => (.ok v, c)
  | none =>
    match build a with
    | .error e => (.error e, c)
    | .ok v => (.ok v, fun k => if k = key a then some v else c k)

/-- The state of the cache after a sequence of calls. -/
def runCalls (key : A → K) (build : A → Except Err V) : (K → Option V) → List A → (K → Option V)
  | c, [] => c
  | c, a :: L => runCalls key build (memo key build c a).2 L

end

/-- Arguments of `quotient_representation` and `induced_representation` of a group whose subgroup ids are of type `S`;
`psi` is the irrep of the subgroup given by its id. -/
inductive RepCall (S Id' G : Type)
  | quotient (id : S) (reps : Option (List G)) (name : Option String)
  | induced (id : S) (psi : Id') (reps : Option (List G)) (name : Option String)

/-- The key in `group.representations`: `f"quotient[{subgroup_id}]"`, group.py L505-508, `f"induced[{subgroup_id}][{repr.name}]"`,
L556-557, or the `name` given by the caller. -/
def RepCall.key {S Id' G : Type} (fmt : S → String) (irrName : Id' → String) : RepCall S Id' G → String
  | .quotient id _ none => "quotient[" ++ fmt id ++ "]"
  | .induced id psi _ none => "induced[" ++ fmt id ++ "][" ++ irrName psi ++ "]"
  | .quotient _ _ (some n) => n
  | .induced _ _ _ (some n) => n

/-- What is built for a missing key: `build S psi reps` for the subgroup, the irrep and the representatives, group.py L510-531,
L561-579. -/
def RepCall.build {S Id' G V : Type} (trivial : S → Id') (make : S → Id' → Option (List G) → Except Err V) :
    RepCall S Id' G → Except Err V
  | .quotient id reps _ => make id (trivial id) reps
  | .induced id psi reps _ => make id psi reps

/-- The key used by `GSpace.build_kernel_basis`, gspace.py L435-441: the sorted keyword arguments with `sigma` and `rings`
(abstract, `P`), and the *names* of the two representations. -/
def kernelKey {G Id P : Type} (a : Rep G Id × Rep G Id × P) : P × String × String := (a.2.2, a.1.name, a.2.1.name)

end Escnn
