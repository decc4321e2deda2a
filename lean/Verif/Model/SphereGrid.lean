import Verif.Spec.Rotation3
import Verif.Model.Param
import Mathlib.LinearAlgebra.CrossProduct
import Mathlib.LinearAlgebra.Matrix.Determinant.Basic
import Mathlib.Analysis.Real.Sqrt

/-!
# Model of the grids on the sphere

escnn/group/groups/so3_utils.py (`_spherical_healpix_grid`, `_fibonacci_sphere_samples`, `_longlat_sphere_grid`, `_sphere_grid`,
`find_rotation_pole2point`) and the methods `sphere_grid` of so3group.py and o3group.py.  Real numbers are exact; a division by the
norm zero gives NaN, which is an error here.  A rotation is its matrix: `Rotation.from_matrix` gives the rotation of an orthogonal
matrix of determinant 1.
-/

namespace Escnn.Sphere

open Real Matrix

noncomputable section

/-- An array of shape `(3,)`. -/
abbrev V3 := Fin 3 → ℝ

/-- `np.array([np.cos(phi) * sin_theta, np.sin(phi) * sin_theta, cos_theta])` with `sin_theta = np.sqrt(1. - cos_theta ** 2)`,
so3_utils.py L298-302, L311-315, L418-426. -/
def polar (c φ : ℝ) : V3 := ![cos φ * √(1 - c ^ 2), sin φ * √(1 - c ^ 2), c]

/-- The first loop, so3_utils.py L293-302. -/
def healpixCap (N : ℕ) : List V3 := (List.range (N - 1)).flatMap fun i' : ℕ =>
  (List.range (4 * (i' + 1))).map fun j' : ℕ => polar (1 - ((i' + 1 : ℕ) : ℝ) ^ 2 / (3 * (N : ℝ) ^ 2)) (π / (2 * ((i' + 1 : ℕ) : ℝ)) * (((j' + 1 : ℕ) : ℝ) - 0.5))

/-- The second loop, so3_utils.py L305-315; `i = N_side + i'`. -/
def healpixBelt (N : ℕ) : List V3 := (List.range (N + 1)).flatMap fun i' : ℕ =>
  (List.range (4 * N)).map fun j' : ℕ => polar (4 / 3 - 2 * ((N + i' : ℕ) : ℝ) / (3 * N)) (π / (2 * N) * (((j' + 1 : ℕ) : ℝ) - (((i' + 1) % 2 : ℕ) : ℝ) / 2))

/-- The third component changes its sign, so3_utils.py L321-322. -/
def mirror (p : V3) : V3 := ![p 0, p 1, p 2 * -1]

open Classical in
/-- `_spherical_healpix_grid(N_side)`, so3_utils.py L289-331, for `0 ≤ N_side`.  `np.stack` of an empty list raises. -/
def healpix (N : ℕ) : Except Err (List V3) :=
  let north := healpixCap N ++ healpixBelt N
  let points := ((north.filter fun p => 0 < p 2).map mirror) ++ north
  if points.length = 12 * N ^ 2 then
    if points = [] then .error .value else .ok points
  else .error .assertion

/-- `_fibonacci_sphere_samples(N)`, so3_utils.py L379-396, for `0 ≤ N`.  For `N = 1` the second component is `1 - 2 * (0 / 0)`, which
is NaN. -/
def fibonacci (N : ℕ) : Except Err (List V3) :=
  if N = 1 then .error .value
  else .ok ((List.range N).map fun i : ℕ =>
    let y : ℝ := 1 - 2 * ((i : ℝ) / ((N : ℝ) - 1))
    ![cos (π * (3 - √5) * i) * √(1 - y ^ 2), y, sin (π * (3 - √5) * i) * √(1 - y ^ 2)])

/-- `_longlat_sphere_grid(N, M)`, so3_utils.py L399-431. -/
def longlat (N M : ℕ) : Except Err (List V3) :=
  if 1 < M then .ok ((List.range M).flatMap fun la : ℕ =>
    if la = 0 then [![0, 0, 1]]
    else if la = M - 1 then [![0, 0, -1]]
    else (List.range N).map fun lo : ℕ => polar (cos ((la : ℝ) * π / ((M : ℝ) - 1))) ((lo : ℝ) * 2 * π / N))
  else .error .assertion

/-- `np.linalg.norm`. -/
def norm (v : V3) : ℝ := √(v ⬝ᵥ v)

/-- `_random_sphere_samples(n)`, so3_utils.py L280-285, for the sample `rnd` of `rng.randn(n, 3)`. -/
def random (rnd : List V3) : Except Err (List V3) :=
  if rnd = [] then .error .assertion
  else rnd.mapM fun p => if norm p = 0 then .error .value else .ok ((norm p)⁻¹ • p)

/-- The arguments `type, *args, **kwargs` of `_sphere_grid`. `solid` stands for the grids of so3_utils.py L437-438, L445-448, whose
points are computed by scipy or read from files. -/
inductive Kind where
  | rand (sample : List V3) | healpix (N : ℕ) | fibonacci (N : ℕ) | longlat (N M : ℕ) | solid (points : List V3) | other

/-- The choice of the grid, so3_utils.py L435-450. -/
def Kind.points : Kind → Except Err (List V3)
  | .rand s => random s
  | .healpix N => Sphere.healpix N
  | .fibonacci N => Sphere.fibonacci N
  | .longlat N M => Sphere.longlat N M
  | .solid ps => .ok ps
  | .other => .error .value

open Classical in
/-- `_sphere_grid(type, *args, adj=adj)`, so3_utils.py L434-459, for an array `adj`: a row `p` of `elements @ adj.T` is `adj @ p`. -/
def sphereGrid (t : Kind) (adj : Mat3) : Except Err (List V3) := do
  let els ← t.points
  if |adj.det| = 1 then .ok (els.map fun p => adj *ᵥ p) else .error .assertion

/-- The matrix with the given columns. -/
def ofCols (a b c : V3) : Mat3 := Matrix.of fun i j => ![a i, b i, c i] j

open Classical in
/-- `self.element(g, param='MAT')`: `_to_scipy_rot`, so3_utils.py L74-79, asserts the determinant. -/
def element (g : Mat3) : Except Err Mat3 := if g.det = 1 then .ok g else .error .value

open Classical in
/-- One element of `SO3.sphere_grid`, so3group.py L254-266; `rnd` is the row of `np.random.randn(len(points), 3)`. -/
def so3Element (p rnd : V3) : Except Err Mat3 :=
  let y := rnd - p
  let e1 := y - (y ⬝ᵥ p) • p
  if norm e1 = 0 then .error .assertion
  else
    let c1 := (norm e1)⁻¹ • e1
    let c0 := crossProduct p c1
    let det := (ofCols c0 c1 p).det
    if |det| = 1 then element (ofCols c0 c1 (det • p)) else .error .assertion

/-- `SO3.sphere_grid(type, *args, adj=adj)`, so3group.py L248-266; `rnd i` is the row `i` of the random array. -/
def so3SphereGrid (t : Kind) (adj : Mat3) (rnd : ℕ → V3) : Except Err (List Mat3) := do
  let points ← sphereGrid t adj
  points.zipIdx.mapM fun pi => so3Element pi.1 (rnd pi.2)

/-- The rotation by `θ` around the Y axis. -/
def rotY (θ : ℝ) : Mat3 := !![cos θ, 0, sin θ; 0, 1, 0; -sin θ, 0, cos θ]

/-- `Rotation.from_euler('zyz', (a, b, c))` (contract of scipy: the axes are fixed, the first angle acts first). -/
def eulerZYZ (a b c : ℝ) : Mat3 := rotZ c * rotY b * rotZ a

/-- `O3.sphere_grid(type, *args, adj=adj)`, o3group.py L375-387: the rotations of the elements, none of which has an inversion. -/
def o3SphereGrid (t : Kind) (adj : Mat3) : Except Err (List Mat3) := do
  let points ← sphereGrid t adj
  .ok (points.map fun p => eulerZYZ 0 (arccos (max (-1) (min (p 2) 1))) (arctan2 (p 1) (p 0)))

open Classical in
/-- `find_rotation_pole2point(point)`, so3_utils.py L249-272. -/
def pole2point (point : V3) : Except Err Mat3 :=
  if norm point = 0 then .error .assertion
  else
    let p := (norm point)⁻¹ • point
    let y : V3 := if |![0, 0, 1] ⬝ᵥ p| = 1 then ![1, 0, 0] else ![0, 0, 1]
    let e1 := y - (y ⬝ᵥ p) • p
    if norm e1 = 0 then .error .assertion
    else
      let c1 := (norm e1)⁻¹ • e1
      let c0 := crossProduct p c1
      let det := (ofCols c0 c1 p).det
      let rot := ofCols (det • c0) c1 p
      if rot.det = 1 then .ok rot else .error .assertion

end

end Escnn.Sphere
