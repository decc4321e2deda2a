import Verif.Model.Py
import Mathlib.Data.Real.Archimedean
import Mathlib.Data.Real.Sqrt

/-!
# Model of compute_basis_params and bandlimiting_filter of the convolutions and point convolutions
-/

namespace Escnn

namespace BasisParams

/-- The entries of the dictionary of attributes which `bandlimiting_filter` reads, `attributes["irrep:frequency"]` and `attributes["radius"]`; the others are `rest`. -/
structure Attr (X : Type) where
  freq : ℤ
  radius : ℝ
  rest : X

/-- The argument `frequencies_cutoff`: `None`, a float, a string, a callable or anything else (for instance an `int`). -/
inductive Cut where
  | none
  | float (x : ℝ)
  | str (s : String)
  | fn (f : ℝ → ℝ)
  | other

/-- The argument `sigma`: `None`, a float or a list. -/
inductive Sigma where
  | none
  | float (x : ℝ)
  | list (l : List ℝ)

/-- What `compute_basis_params` returns. -/
structure Params (X : Type) where
  filter : Attr X → Bool
  rings : List ℝ
  sigma : List ℝ
  maxFreq : ℤ

section

variable {X : Type}

open Classical in
/-- `bandlimiting_filter(f)` for a callable `f`, r2convolution.py L402-407, r3convolution.py L395-400, r2_point_convolution.py L193-198. -/
noncomputable def bandlimit (f : ℝ → ℝ) (a : Attr X) : Bool := decide (|(a.freq : ℝ)| ≤ f a.radius)

/-- `torch.linspace(0, e, n).tolist()` (contract of torch; one step gives `[0.]`). -/
noncomputable def linspace (e : ℝ) (n : ℕ) : List ℝ := (List.range n).map fun i : ℕ => e * (i : ℝ) / ((n : ℝ) - 1)

/-- The default rings, r2convolution.py L423-426, r3convolution.py L415-418; `math.ceil(k / 2)` is `(k + 1) / 2`. -/
noncomputable def defaultRings (k d : ℕ) : List ℝ := (linspace (((k : ℤ) - 1) / 2 : ℤ) ((k + 1) / 2)).map fun x => x * d

open Classical in
/-- The widths, r2convolution.py L430-437, r3convolution.py L422-429, r2_point_convolution.py L219-225. -/
noncomputable def widths (rings : List ℝ) : Sigma → List ℝ
  | .none => (rings.zip (List.replicate (rings.length - 1) 0.6 ++ [0.4])).map (fun p => if p.1 = 0 then 0.005 else p.2) ++ (if rings = [] then [0.4] else [])
  | .float x => List.replicate rings.length x
  | .list l => l

/-- `x % 2` of a float (contract of Python: the result has the sign of the divisor). -/
noncomputable def fmod2 (x : ℝ) : ℝ := x - 2 * ⌊x / 2⌋

open Classical in
/-- `_manual_fco3`, r2convolution.py L468-486, r3convolution.py L461-479. -/
noncomputable def fco3 (m : ℕ) (r : ℝ) : ℝ := if r = 0 then 0 else if r = m then 1 else 2

open Classical in
/-- `_manual_fco2`, r2convolution.py L489-507, r3convolution.py L482-500. -/
noncomputable def fco2 (m : ℕ) (r : ℝ) : ℝ := if r = 0 then 0 else min (2 * r) (if r = m then 1 else 2 * r - fmod2 (r + 1))

open Classical in
/-- `_manual_fco1` of the plane, r2convolution.py L510-528. -/
noncomputable def fco1 (m : ℕ) (r : ℝ) : ℝ := if r = 0 then 0 else min (2 * r) (if r = m then 2 else 2 * r - fmod2 (r + 1))

/-- `_manual_fco1` of the space, r3convolution.py L503-521. -/
noncomputable def fco1R3 (m : ℕ) (r : ℝ) : ℝ := min (2 * r) (m - r + 2)

open Classical in
/-- The cut-off function of the plane, r2convolution.py L439-453. -/
noncomputable def cutR2 (k : ℕ) : Cut → Except Err (ℝ → ℝ)
  | .none => .ok (fco1 (k / 2))
  | .float x => .ok (if x = -3 then fco3 (k / 2) else if x = -2 then fco2 (k / 2) else if x = -1 then fco1 (k / 2) else fun r => x * r)
  | .fn f => .ok f
  | .str _ => .error .assertion
  | .other => .error .assertion

open Classical in
/-- The cut-off function of the space, r3convolution.py L431-446. -/
noncomputable def cutR3 (k : ℕ) : Cut → Except Err (ℝ → ℝ)
  | .none => .ok (fco1R3 (k / 2))
  | .float x => if 0 ≤ x then .ok fun r => x * r else .error .value
  | .str s => if s = "default1" then .ok (fco1R3 (k / 2)) else if s = "default2" then .ok (fco2 (k / 2)) else if s = "default3" then .ok (fco3 (k / 2)) else .error .value
  | .fn f => .ok f
  | .other => .error .value

/-- The cut-off function of the point convolutions, r2_point_convolution.py L227-234. -/
noncomputable def cutPoint : Cut → Except Err (ℝ → ℝ)
  | .none => .ok fun r => 3 * r
  | .float x => .ok fun r => x * r
  | .fn f => .ok f
  | .str _ => .error .assertion
  | .other => .error .assertion

/-- `int(x)` of a float truncates towards zero (contract of Python). -/
noncomputable def pyInt (x : ℝ) : ℤ := if 0 ≤ x then ⌊x⌋ else ⌈x⌉

/-- `max` of a generator: the first entry, replaced by larger ones; of none `ValueError` (contract of Python). -/
noncomputable def pyMax : List ℝ → Except Err ℝ
  | [] => .error .value
  | x :: l => .ok (l.foldl max x)

/-- The last part, r2convolution.py L455-465, r3convolution.py L448-458, r2_point_convolution.py L236-247. -/
noncomputable def finish (f : ℝ → ℝ) (rings sigma : List ℝ) (custom : Option (Attr X → Bool)) : Except Err (Params X) := do
  let m ← pyMax (rings.map f)
  let flt := match custom with
    | some c => fun a => c a && bandlimit f a
    | none => bandlimit f
  .ok ⟨flt, rings, sigma, pyInt m⟩

open Classical in
/-- `compute_basis_params` of the convolutions on the plane (`n = 2`) and in space (`n = 3`), r2convolution.py L410-465, r3convolution.py L403-458; `cut` is `cutR2` or `cutR3`. -/
noncomputable def conv (n : ℕ) (cut : ℕ → Cut → Except Err (ℝ → ℝ)) (k : ℕ) (fco : Cut) (rings : Option (List ℝ)) (sigma : Sigma) (d : ℕ) (custom : Option (Attr X → Bool)) : Except Err (Params X) := do
  let maxRadius : ℝ := (d : ℝ) * ((k : ℝ) - 1) / 2 * √n
  let R := rings.getD (defaultRings k d)
  if ∀ r ∈ R, r ≤ maxRadius ∧ 0 ≤ r then
    let f ← cut k fco
    finish f R (widths R sigma) custom
  else .error .assertion

open Classical in
/-- `compute_basis_params` of the point convolutions, r2_point_convolution.py L201-247. -/
noncomputable def point (fco : Cut) (rings : Option (List ℝ)) (sigma : Sigma) (width : Option ℝ) (nRings : Option ℤ) (custom : Option (Attr X → Bool)) : Except Err (Params X) :=
  match rings, width, nRings with
  | some _, some _, some _ => .error .assertion
  | some R, _, _ => do
    let f ← cutPoint fco
    finish f R (widths R sigma) custom
  | none, some w, some n =>
    if 0 < w ∧ 0 < n then do
      let R := linspace w n.toNat
      let f ← cutPoint fco
      finish f R (widths R sigma) custom
    else .error .assertion
  | none, _, _ => .error .assertion

end

end BasisParams

end Escnn
