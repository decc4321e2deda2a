import Mathlib.Algebra.BigOperators.Field
import Mathlib.Algebra.BigOperators.Fin
import Mathlib.Tactic.FinCases
import Verif.Model.Thomson
import Verif.Model.SO3
import Verif.Lemmas.Octa
import Mathlib.LinearAlgebra.Matrix.NonsingularInverse

/-!
# C92: the optimised grids
-/

namespace Escnn

namespace Thomson

open scoped ENNReal

variable {N d : ℕ} {U : Pts N d → ℝ≥0∞} {close : ℝ≥0∞ → ℝ≥0∞ → Bool} {step : String → ℕ → Pts N d → Pts N d} {b : ℝ≥0∞} {cuda : Bool} {opt : String} {X Y : Pts N d}

/-- The normalised points after `n` steps of the optimiser. -/
noncomputable def iterate (step : ℕ → Pts N d → Pts N d) (X : Pts N d) : ℕ → Pts N d
  | 0 => normalize X
  | n + 1 => normalize (step n (iterate step X n))

theorem norm_pos {x : Fin d → ℝ} (h : x ≠ 0) : 0 < norm x := by
  obtain ⟨i, hi⟩ : ∃ i, x i ≠ 0 := by by_contra hc; push Not at hc; exact h (funext hc)
  exact Real.sqrt_pos.2 (Finset.sum_pos' (fun _ _ => sq_nonneg _) ⟨i, Finset.mem_univ _, by positivity⟩)

theorem norm_sq (x : Fin d → ℝ) : norm x ^ 2 = ∑ k, x k ^ 2 := Real.sq_sqrt (Finset.sum_nonneg fun _ _ => sq_nonneg _)

theorem normalize_unit {X : Pts N d} {i : Fin N} (h : X i ≠ 0) : ∑ k, normalize X i k ^ 2 = 1 := by
  have := norm_pos h
  simp only [normalize, div_pow]
  rw [← Finset.sum_div, ← norm_sq, div_self (by positivity)]

theorem normalize_of_unit {X : Pts N d} (h : ∀ i, ∑ k, X i k ^ 2 = 1) : normalize X = X := by
  funext i k
  rw [normalize, norm, h, Real.sqrt_one, div_one]

theorem normalize_twice {X : Pts N d} (h : ¬ ∃ i, X i = 0) : normalize (normalize X) = normalize X :=
  normalize_of_unit fun i => normalize_unit fun hc => h ⟨i, hc⟩

/-- What holds before iteration `i`. -/
structure Inv (U : Pts N d → ℝ≥0∞) (step : ℕ → Pts N d → Pts N d) (X : Pts N d) (b : ℝ≥0∞) (i : ℕ) (s : St N d) : Prop where
  cur : normalize s.x = iterate step X i
  unit : ∀ j < i, ∀ r, ∑ k, iterate step X j r k ^ 2 = 1
  last : s.last = if i = 0 then b else U (iterate step X (i - 1))
  none : s.saved = .none → s.best = b ∧ ∀ j < i, b ≤ U (iterate step X j)
  some : ∀ y, s.saved = .some y → s.best = U y ∧ U y < b ∧ (∃ m < i, y = iterate step X m) ∧ ∀ j < i, U y ≤ U (iterate step X j)

theorem loop_spec {step : ℕ → Pts N d → Pts N d} {b : ℝ≥0∞} : ∀ (m i : ℕ) (s s' : St N d), Inv U step X b i s → loop U close step m i s = .ok s' →
    ∃ k, i ≤ k ∧ k ≤ i + m ∧ Inv U step X b k s' ∧ (k < i + m → close (U (iterate step X k)) (if k = 0 then b else U (iterate step X (k - 1))) = true)
  | 0, i, s, s', h, e => by
    simp only [loop, Except.ok.injEq] at e
    subst e
    exact ⟨i, le_rfl, le_rfl, h, fun hc => absurd hc (lt_irrefl _)⟩
  | m + 1, i, s, s', h, e => by
    rw [loop] at e
    by_cases h1 : ∃ k, s.x k = 0
    · rw [if_pos h1] at e; cases e
    rw [if_neg h1] at e
    by_cases h2 : close (U (normalize s.x)) s.last = true
    · rw [if_pos h2] at e
      obtain rfl := Except.ok.inj e
      refine ⟨i, le_rfl, by omega, ⟨?_, h.unit, h.last, h.none, h.some⟩, fun _ => ?_⟩
      · exact (normalize_twice h1).trans h.cur
      · rw [← h.cur, ← h.last]; exact h2
    · rw [if_neg h2] at e
      have hu : ∀ r, ∑ k, iterate step X i r k ^ 2 = 1 := fun r => by
        rw [← h.cur]; exact normalize_unit fun hc => h1 ⟨r, hc⟩
      rw [h.cur] at e
      have hI : Inv U step X b (i + 1) ⟨step i (iterate step X i), U (iterate step X i), if U (iterate step X i) < s.best then U (iterate step X i) else s.best,
          if U (iterate step X i) < s.best then .some (iterate step X i) else s.saved⟩ := by
        refine ⟨rfl, fun j hj => ?_, by simp, ?_, ?_⟩
        · rcases Nat.lt_succ_iff_lt_or_eq.1 hj with hj | rfl
          · exact h.unit j hj
          · exact hu
        · by_cases hb : U (iterate step X i) < s.best
          · simp [hb]
          · simp only [if_neg hb]
            intro hn
            obtain ⟨h3, h4⟩ := h.none hn
            refine ⟨h3, fun j hj => ?_⟩
            rcases Nat.lt_succ_iff_lt_or_eq.1 hj with hj | rfl
            · exact h4 j hj
            · rw [← h3]; exact not_lt.1 hb
        · intro y
          by_cases hb : U (iterate step X i) < s.best
          · simp only [if_pos hb, Option.some.injEq]
            rintro rfl
            have hle : s.best ≤ b ∧ ∀ j < i, s.best ≤ U (iterate step X j) := by
              rcases hsv : s.saved with _ | z
              · obtain ⟨h3, h4⟩ := h.none hsv
                exact ⟨h3.le, fun j hj => h3 ▸ h4 j hj⟩
              · obtain ⟨h3, h4, -, h5⟩ := h.some z hsv
                exact ⟨h3 ▸ h4.le, fun j hj => h3 ▸ h5 j hj⟩
            refine ⟨rfl, hb.trans_le hle.1, ⟨i, by omega, rfl⟩, fun j hj => ?_⟩
            rcases Nat.lt_succ_iff_lt_or_eq.1 hj with hj | rfl
            · exact hb.le.trans (hle.2 j hj)
            · exact le_rfl
          · simp only [if_neg hb]
            intro hs
            obtain ⟨h3, h4, ⟨q, hq, h6⟩, h5⟩ := h.some y hs
            refine ⟨h3, h4, ⟨q, by omega, h6⟩, fun j hj => ?_⟩
            rcases Nat.lt_succ_iff_lt_or_eq.1 hj with hj | rfl
            · exact h5 j hj
            · rw [← h3]; exact not_lt.1 hb
      obtain ⟨k, k1, k2, k3, k4⟩ := loop_spec m (i + 1) _ s' hI e
      exact ⟨k, by omega, by omega, k3, fun hk => k4 (by omega)⟩

/-- **C92** The result after `k` iterations: the loop ends early only if the potential is close to the previous one. On the GPU the result is the best of the `k` visited arrays and its potential is less than the initial bound; on the CPU it is the last array, since `best_X` shares its memory. -/
theorem C92_result (h : thomson U b close step cuda opt X = .ok Y) :
    (opt = "Adam" ∨ opt = "SGD") ∧ ∃ k ≤ 5000, 0 < k ∧ (k < 5000 → close (U (iterate (step opt) X k)) (U (iterate (step opt) X (k - 1))) = true) ∧
      (∃ m < k, U (iterate (step opt) X m) < b ∧ (∀ j < k, U (iterate (step opt) X m) ≤ U (iterate (step opt) X j)) ∧ (cuda = true → Y = iterate (step opt) X m)) ∧
      (cuda = false → Y = iterate (step opt) X k) := by
  rw [thomson] at h
  by_cases ho : opt ≠ "Adam" ∧ opt ≠ "SGD"
  · rw [if_pos ho] at h; cases h
  rw [if_neg ho] at h
  refine ⟨by tauto, ?_⟩
  rcases hl : loop U close (step opt) 5000 0 ⟨X, b, b, none⟩ with e | s
  · rw [hl] at h; exact absurd h (by simp [Except.bind])
  rw [hl] at h
  obtain ⟨k, -, k2, hI, k4⟩ := loop_spec (X := X) (b := b) 5000 0 _ s ⟨rfl, fun j hj => absurd hj (Nat.not_lt_zero _), rfl, fun _ => ⟨rfl, fun j hj => absurd hj (Nat.not_lt_zero _)⟩, fun y hy => by cases hy⟩ hl
  rcases hs : s.saved with _ | y
  · simp [Except.bind, hs] at h
  simp only [Except.bind, hs, Except.ok.injEq] at h
  obtain ⟨-, h2, ⟨m, hm, rfl⟩, h3⟩ := hI.some y hs
  refine ⟨k, by omega, by omega, fun hk => ?_, ⟨m, hm, h2, h3, fun hc => ?_⟩, fun hc => ?_⟩
  · have := k4 (by omega)
    rwa [if_neg (by omega)] at this
  · rw [hc, if_pos rfl] at h
    rw [← h, normalize_of_unit (hI.unit m hm)]
  · rw [hc, if_neg (by simp)] at h
    rw [← h, hI.cur]

/-- **C92** The points of the result have length 1 (on the CPU if the last step of the optimiser gives no zero). -/
theorem C92_unit (h : thomson U b close step cuda opt X = .ok Y) (h0 : ∀ i, X i ≠ 0) (hs : ∀ n Z i, step opt n Z i ≠ 0) (i : Fin N) : ∑ k, Y i k ^ 2 = 1 := by
  have hu : ∀ n, ∑ k, iterate (step opt) X n i k ^ 2 = 1 := fun n => by
    cases n with
    | zero => exact normalize_unit (h0 i)
    | succ n => exact normalize_unit (hs _ _ i)
  obtain ⟨-, k, -, -, -, ⟨m, -, -, -, h1⟩, h2⟩ := C92_result h
  cases cuda with
  | true => rw [h1 rfl]; exact hu m
  | false => rw [h2 rfl]; exact hu k

/-- **C92** If the comparison only accepts equal potentials, the result on the GPU is at least as good as every visited array, the last one included. -/
theorem C92_best (h : thomson U b close step true opt X = .ok Y) (hc : ∀ a b, close a b = true → a = b) :
    U Y < b ∧ ∃ k ≤ 5000, ∀ j ≤ k, j < 5000 → U Y ≤ U (iterate (step opt) X j) := by
  obtain ⟨-, k, hk, k0, k1, ⟨m, hm, h1, h2, h3⟩, -⟩ := C92_result h
  obtain rfl := h3 rfl
  refine ⟨h1, k, hk, fun j hj hj' => ?_⟩
  rcases Nat.lt_or_eq_of_le hj with hj | rfl
  · exact h2 j hj
  · rw [hc _ _ (k1 hj')]; exact h2 _ (by omega)

/-- **C92** Without points there is no result: the potential 0 is equal to `N ** 2`, the loop ends at once and `best_X` is `None`. -/
theorem C92_empty {dist : (Fin d → ℝ) → (Fin d → ℝ) → ℝ} {close : ℝ≥0∞ → ℝ≥0∞ → Bool} (hc : close 0 0 = true) {step : String → ℕ → Pts 0 d → Pts 0 d} (X : Pts 0 d) :
    thomson (potential dist) (((0 : ℕ) : ℝ≥0∞) ^ 2) close step cuda "Adam" X = .error .type := by
  rw [thomson, if_neg (by simp), show (5000 : ℕ) = 4999 + 1 from rfl, loop, if_neg (by rintro ⟨k, -⟩; exact k.elim0), if_pos]
  · rfl
  · simpa [potential] using hc

/-- **C92** Only the optimisers `Adam` and `SGD` exist. -/
theorem C92_optimizer (h1 : opt ≠ "Adam") (h2 : opt ≠ "SGD") : thomson U b close step cuda opt X = .error .value := by
  rw [thomson, if_pos ⟨h1, h2⟩]

/-- **C92** The distance of two quaternions is the one of the rotations: it does not change if a sign changes, and it is zero exactly for equal or opposite quaternions. -/
theorem C92_distance_so3 (x y : Fin d → ℝ) :
    distSO3 (fun k => -x k) y = distSO3 x y ∧ distSO3 x (fun k => -y k) = distSO3 x y ∧ distSO3 y x = distSO3 x y ∧ (distSO3 x y = 0 ↔ x = y ∨ x = fun k => -y k) := by
  have hn : ∀ z : Fin d → ℝ, norm (fun k => -z k) = norm z := fun z => by simp [norm]
  have h1 : ∀ a b : Fin d → ℝ, distSphere (fun k => -a k) b = distSphere a fun k => -b k := fun a b => by
    rw [distSphere, distSphere, ← hn]; congr 1; funext k; ring
  have h2 : ∀ a b : Fin d → ℝ, distSphere a b = distSphere b a := fun a b => by
    rw [distSphere, distSphere, ← hn]; congr 1; funext k; ring
  have h0 : ∀ a b : Fin d → ℝ, 0 ≤ distSphere a b := fun a b => Real.sqrt_nonneg _
  have h3 : ∀ a b : Fin d → ℝ, distSphere a b = 0 ↔ a = b := fun a b => by
    constructor
    · intro h
      by_contra hc
      exact (norm_pos (x := fun k => a k - b k) fun h' => hc (funext fun k => sub_eq_zero.1 (congrFun h' k))).ne' h
    · rintro rfl
      simp [distSphere, norm]
  refine ⟨?_, ?_, ?_, ?_⟩
  · rw [distSO3, distSO3, h1, h1, min_comm]; simp
  · rw [distSO3, distSO3, min_comm]; simp
  · rw [distSO3, distSO3, h2 y x, h2 y, h1]
  · rw [← h3, ← h3, distSO3]
    constructor
    · intro h
      rcases min_choice (distSphere x y) (distSphere x fun k => -y k) with hm | hm
      · left; rw [← hm, h]
      · right; rw [← hm, h]
    · rintro (h | h)
      · rw [h]; exact min_eq_left (h0 _ _)
      · rw [h]; exact min_eq_right (h0 _ _)

/-- Two antipodal points and two orthogonal ones. -/
noncomputable def far : Pts 2 3 := ![![1, 0, 0], ![-1, 0, 0]]
noncomputable def near : Pts 2 3 := ![![1, 0, 0], ![0, 1, 0]]

theorem far_unit (i : Fin 2) : ∑ k, far i k ^ 2 = 1 := by fin_cases i <;> simp [far, Fin.sum_univ_three]
theorem near_unit (i : Fin 2) : ∑ k, near i k ^ 2 = 1 := by fin_cases i <;> simp [near, Fin.sum_univ_three]

theorem ne_of_unit {x : Fin d → ℝ} (h : ∑ k, x k ^ 2 = 1) : x ≠ 0 := by
  rintro rfl
  simp at h

theorem far_potential : potential distSphere far = (2 : ℝ≥0∞)⁻¹ := by
  have : √(((1 : ℝ) + 1) ^ 2) = 2 := by rw [Real.sqrt_sq (by norm_num)]; norm_num
  simp [potential, far, distSphere, norm, Fin.sum_univ_two, Fin.sum_univ_three, this]

theorem near_potential : potential distSphere near = (ENNReal.ofReal √2)⁻¹ := by
  have : √((1 : ℝ) + 1) = √2 := by norm_num
  simp [potential, near, distSphere, norm, Fin.sum_univ_two, Fin.sum_univ_three, this]

theorem far_lt_near : potential distSphere far < potential distSphere near := by
  rw [far_potential, near_potential, ENNReal.inv_lt_inv, show (2 : ℝ≥0∞) = ENNReal.ofReal 2 by simp]
  refine (ENNReal.ofReal_lt_ofReal_iff (by norm_num)).2 ?_
  rw [Real.sqrt_lt' (by norm_num)]
  norm_num

open Classical in
/-- **C92, violation** On the CPU the result can be worse than the best visited array, here the initial one; with the same steps the GPU returns the best one. -/
theorem C92_cpu_violation : ∃ (step : String → ℕ → Pts 2 3 → Pts 2 3) (X Y : Pts 2 3),
    sphere (fun a b => decide (a = b)) step false "Adam" X = .ok Y ∧ potential distSphere (normalize X) < potential distSphere Y ∧
    sphere (fun a b => decide (a = b)) step true "Adam" X = .ok (normalize X) := by
  have nf : normalize far = far := normalize_of_unit far_unit
  have nn : normalize near = near := normalize_of_unit near_unit
  have zf : ¬ ∃ k, far k = 0 := fun ⟨k, h⟩ => ne_of_unit (far_unit k) h
  have zn : ¬ ∃ k, near k = 0 := fun ⟨k, h⟩ => ne_of_unit (near_unit k) h
  have hlt := far_lt_near
  have h4 : potential distSphere far < ((2 : ℕ) : ℝ≥0∞) ^ 2 := by
    rw [far_potential]
    refine lt_of_le_of_lt (b := 1) (ENNReal.inv_le_one.2 (by norm_num)) ?_
    norm_num
  have hl : loop (potential distSphere) (fun a b => decide (a = b)) (fun _ _ => near) 5000 0 ⟨far, ((2 : ℕ) : ℝ≥0∞) ^ 2, ((2 : ℕ) : ℝ≥0∞) ^ 2, none⟩ =
      .ok ⟨near, potential distSphere near, potential distSphere far, some far⟩ := by
    rw [show (5000 : ℕ) = 4997 + 1 + 1 + 1 from rfl, loop, if_neg zf, nf, if_neg (by simpa using h4.ne), if_pos h4, if_pos h4, loop, if_neg zn, nn,
      if_neg (by simpa using hlt.ne'), if_neg hlt.not_gt, if_neg hlt.not_gt, loop, if_neg zn, nn, if_pos (by simp)]
  refine ⟨fun _ _ _ => near, far, near, ?_, by rwa [nf], ?_⟩
  · rw [sphere, thomson, if_neg (by simp), hl]
    simp [Except.bind, nn]
  · rw [sphere, thomson, if_neg (by simp), hl]
    simp [Except.bind, nf]

/-- **C92** The outer functions return the best attempt, whose potential is less than the square of the number of points. -/
theorem C92_attempts {xs : List (Except Err (Pts N d))} (h : best U xs = .ok Y) :
    .ok Y ∈ xs ∧ U Y < (N : ℝ≥0∞) ^ 2 ∧ ∀ r ∈ xs, ∃ Z, r = .ok Z ∧ U Y ≤ U Z := by
  have key : ∀ (xs : List (Except Err (Pts N d))) (c : ℝ≥0∞) (o o' : Option (Pts N d)), (∀ y, o = some y → c = U y) → attempts U xs c o = .ok o' →
      (∀ y, o' = some y → (o = some y ∨ (.ok y ∈ xs ∧ U y < c)) ∧ U y ≤ (if o = none then U y else c) ∧ ∀ r ∈ xs, ∃ Z, r = .ok Z ∧ U y ≤ U Z) := by
    intro xs
    induction xs with
    | nil =>
      rintro c o o' ho h y rfl
      obtain rfl := Except.ok.inj h
      exact ⟨.inl rfl, by simp [ho y rfl], by simp⟩
    | cons r xs ih =>
      rintro c o o' ho h y hy
      cases r with
      | error e => cases h
      | ok x =>
        rw [attempts] at h
        by_cases hx : U x < c
        · rw [if_pos hx] at h
          obtain ⟨h1, h2, h3⟩ := ih (U x) (some x) o' (fun z hz => by rw [Option.some.inj hz]) h y hy
          rw [if_neg (by simp)] at h2
          refine ⟨.inr ?_, ?_, fun r hr => ?_⟩
          · rcases h1 with h1 | ⟨h1, h4⟩
            · obtain rfl := Option.some.inj h1
              exact ⟨by simp, hx⟩
            · exact ⟨List.mem_cons_of_mem _ h1, h4.trans hx⟩
          · split_ifs
            · exact le_rfl
            · exact h2.trans hx.le
          · rcases List.mem_cons.1 hr with rfl | hr
            · exact ⟨x, rfl, h2⟩
            · exact h3 r hr
        · rw [if_neg hx] at h
          obtain ⟨h1, h2, h3⟩ := ih c o o' ho h y hy
          refine ⟨?_, h2, fun r hr => ?_⟩
          · rcases h1 with h1 | ⟨h1, h4⟩
            · exact .inl h1
            · exact .inr ⟨List.mem_cons_of_mem _ h1, h4⟩
          · rcases List.mem_cons.1 hr with rfl | hr
            · refine ⟨x, rfl, le_trans ?_ (not_lt.1 hx)⟩
              rcases h1 with h1 | ⟨-, h4⟩
              · exact (ho y h1).ge
              · exact h4.le
            · exact h3 r hr
  rw [best] at h
  rcases ha : attempts U xs ((N : ℝ≥0∞) ^ 2) none with e | o
  · rw [ha] at h; cases h
  rw [ha] at h
  rcases o with _ | y
  · cases h
  obtain rfl := Except.ok.inj h
  obtain ⟨h1, -, h3⟩ := key xs _ none _ (fun y hy => by cases hy) ha y rfl
  rcases h1 with h1 | h1
  · cases h1
  · exact ⟨h1.1, h1.2, h3⟩

theorem cubify_row (cube : Fin 24 → Matrix (Fin d) (Fin d) ℝ) (X : Pts N d) (g : Fin 24) (s : Fin N) : cubify cube X (finProdFinEquiv (g, s)) = (cube g).mulVec (X s) := by
  rw [cubify, Equiv.symm_apply_apply]

/-- **C92** The points of `_thomson_cube_sphere` are permuted by the rotations of the cube and have length 1. -/
theorem C92_cube_sphere {cube : Fin 24 → Matrix (Fin 3) (Fin 3) ℝ} {step : String → ℕ → Pts N 3 → Pts N 3} {X : Pts N 3} {Y : Pts (24 * N) 3} (h : cubeSphere cube close step cuda opt X = .ok Y)
    (hmul : ∀ g k, ∃ l, cube l = cube g * cube k) (horth : ∀ g, (cube g).transpose * cube g = 1) (h0 : ∀ i, X i ≠ 0) (hs : ∀ n Z i, step opt n Z i ≠ 0) :
    (∀ g r, ∃ t, Y t = (cube g).mulVec (Y r)) ∧ ∀ r, ∑ k, Y r k ^ 2 = 1 := by
  rw [cubeSphere] at h
  rcases ht : thomson (fun Z => potential distSphere (cubify cube Z)) (((24 * N : ℕ) : ℝ≥0∞) ^ 2) close step cuda opt X with e | Z
  · rw [ht] at h; cases h
  rw [ht] at h
  obtain rfl := Except.ok.inj h
  refine ⟨fun g r => ?_, fun r => ?_⟩
  · obtain ⟨⟨k, s⟩, rfl⟩ := finProdFinEquiv.surjective r
    obtain ⟨l, hl⟩ := hmul g k
    exact ⟨finProdFinEquiv (l, s), by rw [cubify_row, cubify_row, hl, Matrix.mulVec_mulVec]⟩
  · obtain ⟨⟨k, s⟩, rfl⟩ := finProdFinEquiv.surjective r
    rw [cubify_row]
    have hd : ∀ x : Fin 3 → ℝ, ∑ k, x k ^ 2 = x ⬝ᵥ x := fun x => by simp [dotProduct, pow_two]
    rw [hd, Matrix.dotProduct_mulVec, Matrix.vecMul_mulVec, horth, Matrix.vecMul_one, ← hd]
    exact C92_unit ht h0 hs s

/-- The rotations of the cube satisfy the hypotheses on `cube`. -/
example : ∃ cube : Fin 24 → Matrix (Fin 3) (Fin 3) ℝ, (∀ g k, ∃ l, cube l = cube g * cube k) ∧ (∀ g, (cube g).transpose * cube g = 1) ∧ Function.Injective cube := by
  have hm : ∀ g : Fin 24, Octa.elements.get g ∈ Octa.elements := fun g => List.get_mem _ _
  refine ⟨fun g => Octa.mat (Octa.elements.get g), fun g k => ?_, fun g => ?_, fun g k h => ?_⟩
  · obtain ⟨l, hl⟩ := List.get_of_mem (Octa.finGroup.mul_mem _ (hm g) _ (hm k))
    exact ⟨l, by dsimp only; rw [hl, Octa.mat_combine]⟩
  · exact mul_eq_one_comm.1 ((Octa.mem_iff _).1 (hm g)).1
  · exact (List.nodup_iff_injective_get.1 (by decide +kernel : Octa.elements.Nodup)) (Octa.mat_inj h)

/-- The quaternion with the coordinates `(x, y, z, w)`. -/
def toQuat (x : Fin 4 → ℝ) : UQuat := quat (x 0) (x 1) (x 2) (x 3)

/-- **C92** The matrices of `_thomson_cube_so3` are the multiplication of quaternions from the left. -/
theorem C92_quaternion_basis (q x : Fin 4 → ℝ) : toQuat ((quatMat q).mulVec x) = toQuat q * toQuat x := by
  ext
  · rw [Quaternion.re_mul]; simp [toQuat, quat, quatMat, Matrix.mulVec, dotProduct, Fin.sum_univ_four]; ring
  · rw [Quaternion.imI_mul]; simp [toQuat, quat, quatMat, Matrix.mulVec, dotProduct, Fin.sum_univ_four]; ring
  · rw [Quaternion.imJ_mul]; simp [toQuat, quat, quatMat, Matrix.mulVec, dotProduct, Fin.sum_univ_four]; ring
  · rw [Quaternion.imK_mul]; simp [toQuat, quat, quatMat, Matrix.mulVec, dotProduct, Fin.sum_univ_four]; ring

/-- **C92** The rotations of `_thomson_cube_so3` are permuted by the rotations of the cube from the left: the quaternions are permuted up to their sign. -/
theorem C92_cube_so3 {cube : Fin 24 → Fin 4 → ℝ} {step : String → ℕ → Pts N 4 → Pts N 4} {X : Pts N 4} {Y : Pts (24 * N) 4} (h : cubeSO3 cube close step cuda opt X = .ok Y)
    (hmul : ∀ g k, ∃ l, toQuat (cube l) = toQuat (cube g) * toQuat (cube k) ∨ toQuat (cube l) = -(toQuat (cube g) * toQuat (cube k))) (g : Fin 24) (r : Fin (24 * N)) :
    ∃ t, toQuat (Y t) = toQuat (cube g) * toQuat (Y r) ∨ toQuat (Y t) = -(toQuat (cube g) * toQuat (Y r)) := by
  rw [cubeSO3] at h
  rcases ht : thomson (fun Z => potential distSO3 (cubify (fun g => quatMat (cube g)) Z)) (((24 * N : ℕ) : ℝ≥0∞) ^ 2) close step cuda opt X with e | Z
  · rw [ht] at h; cases h
  rw [ht] at h
  obtain rfl := Except.ok.inj h
  obtain ⟨⟨k, s⟩, rfl⟩ := finProdFinEquiv.surjective r
  obtain ⟨l, hl⟩ := hmul g k
  refine ⟨finProdFinEquiv (l, s), ?_⟩
  rw [cubify_row, cubify_row, C92_quaternion_basis, C92_quaternion_basis, ← mul_assoc]
  rcases hl with hl | hl
  · left; rw [hl]
  · right; rw [hl]; exact neg_mul (toQuat (cube g) * toQuat (cube k)) (toQuat (Z s))

theorem potential_pos {dist : (Fin d → ℝ) → (Fin d → ℝ) → ℝ} {X : Pts N d} {c : ℝ≥0∞} (h : potential dist X < c) {i j : Fin N} (hij : i < j) : 0 < dist (X i) (X j) := by
  by_contra hc
  have h1 : potential dist X = ⊤ := by
    rw [potential, ENNReal.sum_eq_top]
    refine ⟨i, Finset.mem_univ _, ENNReal.sum_eq_top.2 ⟨j, Finset.mem_univ _, ?_⟩⟩
    rw [if_pos hij, ENNReal.ofReal_of_nonpos (not_lt.1 hc), ENNReal.inv_zero]
  rw [h1] at h
  exact not_top_lt h

/-- A bounded potential separates the points. -/
theorem C92_separated {X : Pts N d} {c : ℝ≥0∞} {i j : Fin N} (hij : i ≠ j) :
    (potential distSphere X < c → X i ≠ X j) ∧ (potential distSO3 X < c → X i ≠ X j ∧ X i ≠ fun k => -X j k) := by
  have hz : ∀ x : Fin d → ℝ, distSphere x x = 0 := fun x => by simp [distSphere, norm]
  refine ⟨fun h he => ?_, fun h => ?_⟩
  · rcases lt_or_gt_of_ne hij with hl | hl
    · have := potential_pos h hl; rw [he, hz] at this; exact lt_irrefl _ this
    · have := potential_pos h hl; rw [he, hz] at this; exact lt_irrefl _ this
  · have h0 : distSO3 (X i) (X j) ≠ 0 := by
      rcases lt_or_gt_of_ne hij with hl | hl
      · exact (potential_pos h hl).ne'
      · rw [← (C92_distance_so3 (X i) (X j)).2.2.1]; exact (potential_pos h hl).ne'
    rw [Ne, (C92_distance_so3 (X i) (X j)).2.2.2, not_or] at h0
    exact h0

/-- **C92** On the GPU the potential of the result is less than the square of its number of points; in particular the points are different (and not opposite quaternions). -/
theorem C92_bound :
    (∀ (step : String → ℕ → Pts N 3 → Pts N 3) (X Y : Pts N 3), sphere close step true opt X = .ok Y → potential distSphere Y < (N : ℝ≥0∞) ^ 2) ∧
    (∀ (step : String → ℕ → Pts N 4 → Pts N 4) (X Y : Pts N 4), so3 close step true opt X = .ok Y → potential distSO3 Y < (N : ℝ≥0∞) ^ 2) ∧
    (∀ cube (step : String → ℕ → Pts N 3 → Pts N 3) (X : Pts N 3) (Y : Pts (24 * N) 3), cubeSphere cube close step true opt X = .ok Y → potential distSphere Y < ((24 * N : ℕ) : ℝ≥0∞) ^ 2) ∧
    (∀ cube (step : String → ℕ → Pts N 4 → Pts N 4) (X : Pts N 4) (Y : Pts (24 * N) 4), cubeSO3 cube close step true opt X = .ok Y → potential distSO3 Y < ((24 * N : ℕ) : ℝ≥0∞) ^ 2) := by
  refine ⟨fun step X Y h => ?_, fun step X Y h => ?_, fun cube step X Y h => ?_, fun cube step X Y h => ?_⟩
  · obtain ⟨-, k, -, -, -, ⟨m, -, h1, -, h3⟩, -⟩ := C92_result h
    rw [h3 rfl]; exact h1
  · obtain ⟨-, k, -, -, -, ⟨m, -, h1, -, h3⟩, -⟩ := C92_result h
    rw [h3 rfl]; exact h1
  · rw [cubeSphere] at h
    rcases ht : thomson (fun Z => potential distSphere (cubify cube Z)) (((24 * N : ℕ) : ℝ≥0∞) ^ 2) close step true opt X with e | Z
    · rw [ht] at h; cases h
    rw [ht] at h
    obtain rfl := Except.ok.inj h
    obtain ⟨-, k, -, -, -, ⟨m, -, h1, -, h3⟩, -⟩ := C92_result ht
    rw [h3 rfl]; exact h1
  · rw [cubeSO3] at h
    rcases ht : thomson (fun Z => potential distSO3 (cubify (fun g => quatMat (cube g)) Z)) (((24 * N : ℕ) : ℝ≥0∞) ^ 2) close step true opt X with e | Z
    · rw [ht] at h; cases h
    rw [ht] at h
    obtain rfl := Except.ok.inj h
    obtain ⟨-, k, -, -, -, ⟨m, -, h1, -, h3⟩, -⟩ := C92_result ht
    rw [h3 rfl]; exact h1

end Thomson

end Escnn
