import Verif.Props.C40_PolarLayout
import Verif.Props.C36_RestrictedWE

/-!
# C39: circular harmonics are steerable under O(2)
-/

namespace Escnn

open NpMat Real

theorem sgnR_cases (f : ℤ) : (f = 0 ∧ sgnR f = 1) ∨ (f ≠ 0 ∧ sgnR f = -1) := by
  by_cases h : f = 0
  · exact Or.inl ⟨h, by rw [h]; simp [sgnR]⟩
  · exact Or.inr ⟨h, by simp [sgnR, h]⟩

theorem cos_mod2pi (x : ℝ) : cos (mod2pi x) = cos x ∧ sin (mod2pi x) = sin x := by
  obtain ⟨m, hm⟩ : ∃ m : ℤ, mod2pi x = x - m * (2 * π) := by
    refine ⟨toIcoDiv two_pi_pos 0 x, ?_⟩
    unfold mod2pi
    rw [toIcoMod, zsmul_eq_mul]
  rw [hm]
  exact ⟨cos_sub_int_mul_two_pi x m, sin_sub_int_mul_two_pi x m⟩

/-- **C39**: the action under which the basis is declared steerable exists; the rotation by `θ` acts as the rotation of the plane by `θ`, the reflection `(1, θ)` as
the reflection about the line at the angle `axis`, followed by the rotation by `θ`. -/
theorem C39_action (taken : List String) (name : String) (hname : name ∉ taken) (axis : ℝ) :
    ∃ R, circularAction taken name axis = .ok R ∧ R.WF O2.table O2.IsElement ∧ R.size = 2 ∧
      (∀ θ r φ, O2.IsElement (0, θ) → moveBy (R.mat (0, θ)) (r * cos φ, r * sin φ) = (r * cos (φ + θ), r * sin (φ + θ))) ∧
      ∀ θ r φ, O2.IsElement (1, θ) → moveBy (R.mat (1, θ)) (r * cos φ, r * sin φ) = (r * cos ((2 * axis - φ) + θ), r * sin ((2 * axis - φ) + θ)) := by
  have hwf : (irrepRep O2.table "irrep_1,1" ∅ (1, 1)).WF O2.table O2.IsElement := irrepRep_wf O2.table_valid rfl (by decide) _ _
  obtain ⟨hc, hs⟩ := cos_mod2pi axis
  have hQm : (irrepRep O2.table "irrep_1,1" ∅ (1, 1)).mat (O2.reduce (0, axis)) = of2 (cos axis) (-sin axis) (sin axis) (cos axis) := by
    show O2.irrepMat 1 1 (0, mod2pi axis) = _
    simp [O2.irrepMat, psichi, sgnR, hc, hs]
  have hcs := sin_sq_add_cos_sq axis
  have hQ : IsInv (of2 (cos axis) (-sin axis) (sin axis) (cos axis)) (of2 (cos axis) (sin axis) (-sin axis) (cos axis)) := by
    refine ⟨rfl, rfl, rfl, ⟨rfl, rfl, fun i j hi hj => ?_⟩, ⟨rfl, rfl, fun i j hi hj => ?_⟩⟩ <;>
    · have hi' : i < 2 := hi
      have hj' : j < 2 := hj
      interval_cases i <;> interval_cases j <;> simp [NpMat.mul, of2, eye, Finset.sum_range_succ] <;> nlinarith
  obtain ⟨R, h1, h2, h3, -, -, h6⟩ := C14_change_basis O2.table_valid taken _ hwf name hname _ _ hQ rfl none
  have hel : O2.element (0, axis) = .ok (O2.reduce (0, axis)) := by simp [O2.element]
  have hact : circularAction taken name axis = .ok R := by
    unfold circularAction
    simp only [hel, bind, Except.bind]
    rw [hQm]
    exact h1
  have hent : ∀ g, O2.IsElement g → ∀ i < 2, ∀ j < 2, (R.mat g).get i j =
      (NpMat.mul (NpMat.mul (of2 (cos axis) (-sin axis) (sin axis) (cos axis)) (psichi g.2 g.1 1)) (of2 (cos axis) (sin axis) (-sin axis) (cos axis))).get i j := fun g hg i hi j hj => by
    have hm : (irrepRep O2.table "irrep_1,1" ∅ (1, 1)).mat g = psichi g.2 g.1 1 := by
      show O2.irrepMat 1 1 g = _
      simp [O2.irrepMat]
    have := h6 g hg
    rw [hm] at this
    refine this.2.2 i j ?_ ?_
    · rw [h2.rows hg, h3]; exact hi
    · rw [h2.cols hg, h3]; exact hj
  refine ⟨R, hact, h2, h3, fun θ r φ hg => ?_, fun θ r φ hg => ?_⟩
  · have e := hent _ hg
    simp only [moveBy, e 0 (by norm_num) 0 (by norm_num), e 0 (by norm_num) 1 (by norm_num), e 1 (by norm_num) 0 (by norm_num), e 1 (by norm_num) 1 (by norm_num)]
    simp only [NpMat.mul, of2, psichi, sgnR, Finset.sum_range_succ, Finset.sum_range_zero, cos_add, sin_add, Prod.mk.injEq]
    have hc2 : cos axis ^ 2 = 1 - sin axis ^ 2 := by linarith
    norm_num
    constructor
    · ring_nf; rw [hc2]; ring
    · ring_nf; rw [hc2]; ring
  · have e := hent _ hg
    have hsub : ∀ x y z : ℝ, 2 * x - y + z = (x + x) + z - y := fun x y z => by ring
    simp only [moveBy, e 0 (by norm_num) 0 (by norm_num), e 0 (by norm_num) 1 (by norm_num), e 1 (by norm_num) 0 (by norm_num), e 1 (by norm_num) 1 (by norm_num)]
    simp only [NpMat.mul, of2, psichi, sgnR, Finset.sum_range_succ, Finset.sum_range_zero, hsub, cos_sub, sin_sub, cos_add, sin_add, Prod.mk.injEq]
    norm_num
    constructor <;> ring

theorem norm2_polar (p : ℝ × ℝ) : ∃ φ, p = (norm2 p * cos φ, norm2 p * sin φ) := by
  by_cases h : (⟨p.1, p.2⟩ : ℂ) = 0
  · refine ⟨0, ?_⟩
    have h1 : p.1 = 0 := by simpa using congrArg Complex.re h
    have h2 : p.2 = 0 := by simpa using congrArg Complex.im h
    ext <;> simp [norm2, h1, h2]
  · have hn : ‖(⟨p.1, p.2⟩ : ℂ)‖ = norm2 p := by
      rw [Complex.norm_def, Complex.normSq_mk, norm2]; congr 1; ring
    refine ⟨Complex.arg ⟨p.1, p.2⟩, ?_⟩
    rw [Complex.cos_arg h, Complex.sin_arg, hn]
    have h0 : norm2 p ≠ 0 := by rw [← hn]; simpa using h
    ext
    · field_simp
    · field_simp

theorem norm2_mk (r φ : ℝ) : norm2 (r * cos φ, r * sin φ) = |r| := by
  rw [norm2, ← sqrt_sq_eq_abs]
  congr 1
  have := sin_sq_add_cos_sq φ
  simp only
  linear_combination r ^ 2 * this

theorem norm2_nonneg (p : ℝ × ℝ) : 0 ≤ norm2 p := sqrt_nonneg _

theorem harmonic_angle (ψ φ a : ℝ) (k : ℕ) (h1 : cos ψ = cos φ) (h2 : sin ψ = sin φ) : cos (k * (ψ - a)) = cos (k * (φ - a)) ∧ sin (k * (ψ - a)) = sin (k * (φ - a)) := by
  have := Real.Angle.cos_sin_inj h1 h2
  obtain ⟨m, hm⟩ := Real.Angle.angle_eq_iff_two_pi_dvd_sub.1 this
  have e : k * (ψ - a) = k * (φ - a) + ((k : ℤ) * m : ℤ) * (2 * π) := by
    push_cast
    linear_combination (k : ℝ) * hm
  rw [e]
  exact ⟨cos_add_int_mul_two_pi _ _, sin_add_int_mul_two_pi _ _⟩

/-- The harmonic of frequency `k` of the point at radius `r` and angle `φ`. -/
theorem circularAt_polar (axis r φ : ℝ) (hr : 0 ≤ r) (j c : ℕ) (hc : c < ShellKind.circ.dim j) :
    circularAt axis (r * cos φ, r * sin φ) (ShellKind.circ.first j + c) =
      if j = 0 then 1 else if 1e-9 < r then (if c = 0 then cos (j * (φ - axis)) else sin (j * (φ - axis))) else 0 := by
  have hn : norm2 (r * cos φ, r * sin φ) = r := by rw [norm2_mk, abs_of_nonneg hr]
  unfold circularAt
  rw [hn]
  by_cases hj : j = 0
  · subst hj
    have : c = 0 := by simpa [ShellKind.circ] using hc
    subst this
    by_cases h : 1e-9 < r
    · rw [if_pos h, if_pos rfl]; simp [circularHarmonics, ShellKind.circ]
    · rw [if_neg h, if_pos rfl]; simp [ShellKind.circ]
  have hj0 : 0 < j := Nat.pos_of_ne_zero hj
  have hc2 : c < 2 := by simpa [ShellKind.circ, hj0] using hc
  have hf : ShellKind.circ.first j = 2 * j - 1 := by
    simp only [ShellKind.circ, if_pos hj0]; omega
  rw [if_neg hj, hf]
  by_cases h : 1e-9 < r
  · rw [if_pos h, if_pos h]
    have hr0 : r ≠ 0 := by intro e; rw [e] at h; norm_num at h
    have e1 : r * cos φ / r = cos φ := by field_simp
    have e2 : r * sin φ / r = sin φ := by field_simp
    simp only [e1, e2]
    have hz : ‖(⟨cos φ, sin φ⟩ : ℂ)‖ = 1 := by
      rw [Complex.norm_def, Complex.normSq_mk]
      rw [show cos φ * cos φ + sin φ * sin φ = 1 by have := sin_sq_add_cos_sq φ; nlinarith, sqrt_one]
    have hz0 : (⟨cos φ, sin φ⟩ : ℂ) ≠ 0 := by intro e; rw [e] at hz; simp at hz
    have h1 : cos (atan2 (sin φ) (cos φ)) = cos φ := by rw [atan2, Complex.cos_arg hz0, hz]; simp
    have h2 : sin (atan2 (sin φ) (cos φ)) = sin φ := by rw [atan2, Complex.sin_arg, hz]; simp
    obtain ⟨k1, k2⟩ := harmonic_angle _ _ axis j h1 h2
    unfold circularHarmonics
    interval_cases c
    · rw [if_neg (by omega), if_pos (by omega), if_pos rfl]
      rw [show (2 * j - 1 + 0 + 1) / 2 = j by omega]
      exact k1
    · rw [if_neg (by omega), if_neg (by omega), if_neg (by norm_num)]
      rw [show (2 * j - 1 + 1) / 2 = j by omega]
      exact k2
  · rw [if_neg h, if_neg h, if_neg (by omega)]

/-- **C39**: the harmonic of frequency `j` of the moved point is the matrix of the irrep times the harmonic of the point, for every point of the plane including the origin,
every element of O(2), and every axis; the radius, and hence every radial profile, does not change. -/
theorem C39_circular_harmonics (taken : List String) (name : String) (hname : name ∉ taken) (axis : ℝ) :
    ∃ R, circularAction taken name axis = .ok R ∧ ∀ g, O2.IsElement g → ∀ p,
      norm2 (moveBy (R.mat g) p) = norm2 p ∧ (∀ radii sigma r, gaussian radii sigma (norm2 (moveBy (R.mat g) p)) r = gaussian radii sigma (norm2 p) r) ∧
      ∀ j, ∀ c < ShellKind.circ.dim j, circularAt axis (moveBy (R.mat g) p) (ShellKind.circ.first j + c) =
        ∑ c' ∈ Finset.range (ShellKind.circ.dim j), (O2.irrepMat (ShellKind.circ.id j).1 (ShellKind.circ.id j).2 g).get c c' * circularAt axis p (ShellKind.circ.first j + c') := by
  obtain ⟨R, hR, -, -, hrot, href⟩ := C39_action taken name hname axis
  refine ⟨R, hR, fun g hg p => ?_⟩
  obtain ⟨φ, hp⟩ := norm2_polar p
  have hr := norm2_nonneg p
  generalize norm2 p = r at hp hr
  subst hp
  obtain ⟨f, θ⟩ := g
  -- the angle of the moved point
  obtain ⟨ψ, hψ, hα⟩ : ∃ ψ, moveBy (R.mat (f, θ)) (r * cos φ, r * sin φ) = (r * cos ψ, r * sin ψ) ∧ ψ - axis = θ + sgnR f * (φ - axis) := by
    rcases hg.1 with h | h
    · simp only at h
      subst h
      exact ⟨_, hrot θ r φ hg, by simp [sgnR]; ring⟩
    · simp only at h
      subst h
      exact ⟨_, href θ r φ hg, by simp [sgnR]; ring⟩
  have hn : ∀ x, norm2 (r * cos x, r * sin x) = r := fun x => by rw [norm2_mk, abs_of_nonneg hr]
  rw [hψ, hn]
  refine ⟨rfl, fun _ _ _ => rfl, fun j c hc => ?_⟩
  rw [circularAt_polar axis r ψ hr j c hc]
  rw [Finset.sum_congr rfl fun c' hc' => by rw [circularAt_polar axis r φ hr j c' (Finset.mem_range.1 hc')]]
  by_cases hj : j = 0
  · subst hj
    have : c = 0 := by simpa [ShellKind.circ] using hc
    subst this
    simp [ShellKind.circ, O2.irrepMat, eye]
  have hj0 : 0 < j := Nat.pos_of_ne_zero hj
  have hd : ShellKind.circ.dim j = 2 := by simp [ShellKind.circ, hj0]
  rw [hd] at hc ⊢
  by_cases h : 1e-9 < r
  · simp only [if_neg hj, if_pos h]
    rw [Finset.sum_range_succ, Finset.sum_range_one, hα]
    simp only [ShellKind.circ, hj0, if_true, O2.irrepMat, hj, if_false, one_ne_zero]
    rcases sgnR_cases f with ⟨-, hs⟩ | ⟨-, hs⟩
    · interval_cases c
      · simp [psichi, of2, hs, mul_add, cos_add]; ring
      · simp [psichi, of2, hs, mul_add, sin_add]
    · have hm : ∀ x : ℝ, (j : ℝ) * (θ + -1 * x) = j * θ - j * x := fun x => by ring
      interval_cases c
      · simp [psichi, of2, hs, hm, cos_sub, -neg_mul, -neg_sub]
      · simp [psichi, of2, hs, hm, sin_sub, -neg_mul, -neg_sub]; ring
  · simp [if_neg hj, if_neg h]

/-- **C39**: at the origin only the frequency 0 is non-zero. -/
theorem C39_origin (axis : ℝ) (j c : ℕ) (hc : c < ShellKind.circ.dim j) : circularAt axis (0, 0) (ShellKind.circ.first j + c) = if j = 0 then 1 else 0 := by
  have := circularAt_polar axis 0 0 le_rfl j c hc
  simp only [zero_mul] at this
  rw [this]
  by_cases h : j = 0
  · simp [h]
  · rw [if_neg h, if_neg h, if_neg (by norm_num)]

/-- **C39**: the whole `CircularShellsBasis` is steerable, for every list of radii and widths, maximal frequency, filter and axis. -/
theorem C39_steerable (taken : List String) (name : String) (hname : name ∉ taken) (axis : ℝ) (junk : ℕ → ℝ) (radii sigma : List ℝ) (L n : ℕ)
    (filter : Option (ℕ × ℕ → ℕ → Bool)) (b : Shells) (hb : Shells.init ShellKind.circ (fun j => O2.irrepSize j.1 j.2) L n filter = .ok b) :
    ∃ R, circularAction taken name axis = .ok R ∧
      (circularBasis junk b radii sigma axis).Steerable O2.table.size O2.table.mat O2.IsElement fun g p => moveBy (R.mat g) p := by
  obtain ⟨R, hR, h⟩ := C39_circular_harmonics taken name hname axis
  refine ⟨R, hR, fun g hg x kk j m hkk i hi c hc => ?_⟩
  have hk := ShellKind.circ_ok
  have hjs : b.js[kk]? = some (j, m) := hkk
  have hkL : kk ≤ L := by
    have h4 := (Shells.init_spec hk hb).2.2.2.1
    have := (List.getElem?_eq_some_iff.1 hjs).1
    rw [h4, List.length_map, List.length_range] at this
    omega
  obtain ⟨h1, h2⟩ := Shells.C40_steerable hk hb kk hkL
  rw [h1] at hjs
  obtain ⟨rfl, rfl⟩ := Prod.mk.inj (Option.some.inj hjs)
  obtain ⟨a, -, -, -, -, -, -, -, ha⟩ := h2 i hi
  have hsz : O2.table.size (ShellKind.circ.id kk) = ShellKind.circ.dim kk := hk.size kk
  simp only [hsz] at hc ⊢
  obtain ⟨-, g2, g3⟩ := h g hg x
  show b.sample junk (gaussian radii sigma (norm2 (moveBy (R.mat g) x))) (circularAt axis (moveBy (R.mat g) x)) _ = _
  refine (ha c hc _ _ _).trans ?_
  rw [g2, g3 kk c hc, Finset.mul_sum]
  refine Finset.sum_congr rfl fun c' hc' => ?_
  have : (circularBasis junk b radii sigma axis).sample x _ = _ := ha c' (Finset.mem_range.1 hc') junk (gaussian radii sigma (norm2 x)) (circularAt axis x)
  rw [show O2.table.mat (ShellKind.circ.id kk) g = O2.irrepMat (ShellKind.circ.id kk).1 (ShellKind.circ.id kk).2 g from rfl]
  rw [show ((circularBasis junk b radii sigma axis).js.take kk).map (fun e => O2.table.size e.1 * e.2) = (b.js.take kk).map (fun e => O2.irrepSize e.1.1 e.1.2 * e.2) from rfl, this]
  ring

/-- Two radii and frequencies up to 3, with the axis at `π/2`: fourteen filters. -/
example : ∃ b R, Shells.init ShellKind.circ (fun j => O2.irrepSize j.1 j.2) 3 2 none = .ok b ∧ b.dim (fun j => O2.irrepSize j.1 j.2) = 14 ∧
    circularAction [] "StandardAction" (π / 2) = .ok R ∧
    (circularBasis (fun _ => 0) b [0, 1] [1, 1] (π / 2)).Steerable O2.table.size O2.table.mat O2.IsElement fun g p => moveBy (R.mat g) p := by
  obtain ⟨R, h1, h2⟩ := C39_steerable [] "StandardAction" (by simp) (π / 2) (fun _ => 0) [0, 1] [1, 1] 3 2 none _ rfl
  exact ⟨_, R, rfl, rfl, h1, h2⟩

end Escnn
