import Verif.Model.Rep
import Mathlib.Analysis.Real.Sqrt

/-!
# Model of `build_regular_representation` and `Group.regular_representation`

Elements are assumed pairwise distinct (proved for C_N and D_N), so that the dictionary `index` (representation.py L786) is
`List.idxOf`.
-/

namespace Escnn

open NpMat

noncomputable section

variable {G Id : Type} [DecidableEq G]

/-- `representation[e]`, representation.py L791-804: zeros, then `r[index[e @ g], index[g]] = 1` for every element `g`. -/
def regMat (els : List G) (mul : G → G → G) (e : G) : NpMat ℝ :=
  els.foldl (fun r g => setBlock r (els.idxOf (mul e g)) (els.idxOf g) (of1 1)) (zeros els.length els.length)

/-- `multiplicity`, representation.py L815-823: `sum(char(e) * irrep.character(~e)) / (|G| * sum_of_squares_constituents)`. -/
def regMultiplicity (els : List G) (mul : G → G → G) (inv : G → G) (char : G → ℝ) (sumsq : ℕ) : ℝ :=
  (els.map fun e => trace (regMat els mul e) * char (inv e)).sum / (els.length * sumsq)

open Classical in
/-- `int(round(multiplicity))` after the assertion that it is an integer, representation.py L826-830 (`isclose` is equality; a
negative multiplicity makes `np.eye(m, s)` raise in L843). -/
def asNat (x : ℝ) : Except Err ℕ := if h : ∃ n : ℕ, x = n then .ok h.choose else .error .assertion

/-- `multiplicities`, representation.py L810-832. -/
def regMultiplicities (els : List G) (mul : G → G → G) (inv : G → G) (char : Id → G → ℝ) (sumsq : Id → ℕ) :
    List Id → Except Err (List (Id × ℕ))
  | [] => .ok []
  | i :: L =>
    match asNat (regMultiplicity els mul inv (char i) (sumsq i)) with
    | .error e => .error e
    | .ok m =>
      match regMultiplicities els mul inv char sumsq L with
      | .error e => .error e
      | .ok ms => .ok ((i, m) :: ms)

/-- `np.eye(m, s).reshape(-1) * np.sqrt(s)`, representation.py L843. -/
def eyeFlat (m s : ℕ) : List ℝ := (List.range (m * s)).map fun t : ℕ => (if t / s = t % s then 1 else 0) * Real.sqrt s

/-- `P(e) @ v` as a column, representation.py L834, L851; `P = directsum(irreps)` evaluates to the block diagonal of the
irreps (C14). -/
def regColumn (T : IrrepTable G Id) (irreps : List Id) (v : List ℝ) (e : G) : NpMat ℝ :=
  mul (irrepsBlock T irreps e) ⟨v.length, 1, fun i _ => v.getD i 0⟩

/-- `build_regular_representation`, representation.py L766-856.  `ids` are the ids of `group.irreps()`. -/
def buildRegular (T : IrrepTable G Id) (els : List G) (mul : G → G → G) (inv : G → G) (ids : List Id)
    (char : Id → G → ℝ) (sumsq : Id → ℕ) : Except Err (List Id × NpMat ℝ × NpMat ℝ) :=
  match regMultiplicities els mul inv char sumsq ids with
  | .error e => .error e
  | .ok ms =>
    let irreps := ms.flatMap fun im => List.replicate im.2 im.1
    if irreps = [] then .error .index
    else if ¬ (ms.all fun im => decide (im.2 ≤ T.size im.1)) then .error .assertion
    else
      let v := ms.flatMap fun im => eyeFlat im.2 (T.size im.1)
      if v.length ≠ els.length then .error .value
      else
        let cob : NpMat ℝ := ⟨els.length, els.length, fun a j =>
          match els[a]? with
          | some e => (regColumn T irreps v e).get j 0 / Real.sqrt els.length
          | none => 0⟩
        .ok (irreps, cob, transpose cob)

/-- `Group.regular_representation` of a finite group the first time it is called, group.py L431-471. -/
def regularRep (T : IrrepTable G Id) (els : List G) (mul : G → G → G) (inv : G → G) (ids : List Id)
    (char : Id → G → ℝ) (sumsq : Id → ℕ) (taken : List String) : Except Err (Rep G Id) :=
  match buildRegular T els mul inv ids char sumsq with
  | .error e => .error e
  | .ok (irreps, cob, cobInv) =>
    mkRep T taken "regular" irreps cob {"pointwise", "norm", "gated", "concatenated"} (some cobInv)

end

end Escnn
