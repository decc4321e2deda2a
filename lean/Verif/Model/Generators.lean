import Verif.Model.NpMat
import Verif.Model.Py
import Mathlib.Data.Real.Basic

/-!
# Model of `generate_irrep_matrices_from_generators`
-/

namespace Escnn

open NpMat

noncomputable section

variable {G : Type} [DecidableEq G]

/-- `d[k] = v` -/
def dictSet {V : Type} (d : G → Option V) (k : G) (v : V) : G → Option V := fun x => if x = k then some v else d x

/-- `if key not in rho: rho[key] = A @ rho[e]`, irrep.py L190-194; `A` is `rho[g]` or its transpose. -/
def setMissing (rho : G → Option (NpMat ℝ)) (key g e : G) (tr : Bool) : Except Err (G → Option (NpMat ℝ)) :=
  if (rho key).isSome then .ok rho
  else match rho g, rho e with
    | some A, some B => .ok (dictSet rho key (mul (if tr then transpose A else A) B))
    | _, _ => .error .key

/-- `new |= {x}` -/
def setAdd (s : List G) (x : G) : List G := if x ∈ s then s else s ++ [x]

/-- The two nested `for` loops, irrep.py L188-196, over the pairs `(g, e)`. -/
def bfsRound (op : G → G → G) (inv : G → G) : List (G × G) → (G → Option (NpMat ℝ)) → List G →
    Except Err ((G → Option (NpMat ℝ)) × List G)
  | [], rho, new => .ok (rho, new)
  | (g, e) :: L, rho, new =>
    match setMissing rho (op g e) g e false with
    | .error x => .error x
    | .ok rho1 =>
      match setMissing rho1 (op (inv g) e) g e true with
      | .error x => .error x
      | .ok rho2 => bfsRound op inv L rho2 (setAdd (setAdd new (op g e)) (op (inv g) e))

/-- The `while len(added) > 0` loop, irrep.py L186-198.  Python iterates over the set `added` in an unspecified order: `ord` is an
arbitrary reordering.  `fuel` bounds the iterations (the theorems show that the number of elements of the group is enough);
running out of it is the error `runtime`. -/
def bfsLoop (op : G → G → G) (inv : G → G) (gens : List G) (ord : List G → List G) : ℕ → List G → List G →
    (G → Option (NpMat ℝ)) → Except Err (List G × (G → Option (NpMat ℝ)))
  | 0, _, _, _ => .error .runtime
  | n + 1, elements, added, rho =>
    if added = [] then .ok (elements, rho)
    else match bfsRound op inv (gens.flatMap fun g => (ord added).map fun e => (g, e)) rho [] with
      | .error x => .error x
      | .ok (rho', new) =>
        let added' := new.filter fun x => x ∉ elements
        bfsLoop op inv gens ord n (elements ++ added') added' rho'

/-- `{g: rho_g for g, rho_g in generators}` followed by `rho[identity] = np.eye(d)`, irrep.py L178-182. -/
def initDict (gens : List (G × NpMat ℝ)) (one : G) (d : ℕ) : G → Option (NpMat ℝ) :=
  dictSet (gens.foldl (fun rho p => dictSet rho p.1 p.2) (fun _ => none)) one (eye d)

open Classical in
/-- The assertions on all the pairs of elements, irrep.py L202-218. -/
def bfsCheck (op : G → G → G) (inv : G → G) (elements : List G) (rho : G → Option (NpMat ℝ)) : Prop :=
  ∀ a ∈ elements, inv a ∈ elements ∧ (∃ A A', rho a = some A ∧ rho (inv a) = some A' ∧ A' ≈ transpose A) ∧
    ∀ b ∈ elements, op a b ∈ elements ∧ ∃ A B C, rho a = some A ∧ rho b = some B ∧ rho (op a b) = some C ∧ mul A B ≈ C

open Classical in
/-- `generate_irrep_matrices_from_generators`, irrep.py L162-220 (the assertions on the groups of the generators, L171, are
always true here).  A `KeyError` in the final checks is identified with a failed assertion. -/
def generateIrrep (op : G → G → G) (inv : G → G) (one : G) (order : ℕ) (ord : List G → List G) (fuel : ℕ)
    (gens : List (G × NpMat ℝ)) : Except Err (G → Option (NpMat ℝ)) :=
  if order = 0 then .error .assertion
  else match gens with
    | [] => .error .index
    | p :: gens' =>
      let d := p.2.rows
      if ¬ ((p :: gens').all fun q => q.2.rows = d ∧ q.2.cols = d) then .error .assertion
      else match bfsLoop op inv ((p :: gens').map Prod.fst) ord fuel [one] [one] (initDict (p :: gens') one d) with
        | .error x => .error x
        | .ok (elements, rho) =>
          if elements.length ≠ order then .error .assertion
          else if ¬ bfsCheck op inv elements rho then .error .assertion
          else .ok rho

end

end Escnn
