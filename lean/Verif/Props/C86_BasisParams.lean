import Verif.Model.BasisParams
import Mathlib.Tactic.Linarith
import Mathlib.Tactic.NormNum
import Mathlib.Tactic.IntervalCases
import Mathlib.Tactic.FieldSimp

/-!
# C86: the default parameters of the kernel bases
-/

namespace Escnn

namespace BasisParams

variable {X : Type}

theorem pyMax_ok {l : List ℝ} {m : ℝ} (h : pyMax l = .ok m) : m ∈ l ∧ ∀ x ∈ l, x ≤ m := by
  cases l with
  | nil => cases h
  | cons x l =>
    obtain rfl := Except.ok.inj h
    clear h
    induction l generalizing x with
    | nil => simp
    | cons y l ih =>
      obtain ⟨h1, h2⟩ := ih (max x y)
      refine ⟨?_, fun z hz => ?_⟩
      · change l.foldl max (max x y) ∈ _
        rcases List.mem_cons.1 h1 with h | h
        · rw [h]
          rcases max_choice x y with h' | h' <;> rw [h'] <;> simp
        · exact List.mem_cons_of_mem _ (List.mem_cons_of_mem _ h)
      · change z ≤ l.foldl max (max x y)
        have hm := h2 (max x y) (List.mem_cons_self)
        rcases List.mem_cons.1 hz with rfl | hz
        · exact (le_max_left _ _).trans hm
        · rcases List.mem_cons.1 hz with rfl | hz
          · exact (le_max_right _ _).trans hm
          · exact h2 z (List.mem_cons_of_mem _ hz)

theorem pyMax_isOk {l : List ℝ} (h : l ≠ []) : ∃ m, pyMax l = .ok m := by
  cases l with
  | nil => exact absurd rfl h
  | cons x l => exact ⟨_, rfl⟩

theorem finish_ok {f : ℝ → ℝ} {rings sigma : List ℝ} {custom : Option (Attr X → Bool)} {p : Params X} (h : finish f rings sigma custom = .ok p) :
    ∃ m, pyMax (rings.map f) = .ok m ∧ p.maxFreq = pyInt m ∧ p.rings = rings ∧ p.sigma = sigma ∧ ∀ a, p.filter a = true ↔ (∀ c, custom = some c → c a = true) ∧ |(a.freq : ℝ)| ≤ f a.radius := by
  unfold finish at h
  rcases hm : pyMax (rings.map f) with _ | m
  · rw [hm] at h; cases h
  · rw [hm] at h
    obtain rfl := Except.ok.inj h
    refine ⟨m, rfl, rfl, rfl, rfl, fun a => ?_⟩
    cases custom <;> simp [bandlimit]

/-- What the two functions have in common. -/
structure Spec (f : ℝ → ℝ) (R : List ℝ) (sigma : Sigma) (custom : Option (Attr X → Bool)) (p : Params X) : Prop where
  rings : p.rings = R
  sigma : p.sigma = widths R sigma
  filter : ∀ a, p.filter a = true ↔ (∀ c, custom = some c → c a = true) ∧ |(a.freq : ℝ)| ≤ f a.radius
  nonempty : R ≠ []
  max_ge : ∀ r ∈ R, ∀ j : ℤ, |(j : ℝ)| ≤ f r → |j| ≤ p.maxFreq
  max_mem : (∃ r ∈ R, 0 ≤ f r) → 0 ≤ p.maxFreq ∧ ∃ r ∈ R, |(p.maxFreq : ℝ)| ≤ f r

theorem finish_spec {f : ℝ → ℝ} {R : List ℝ} {sigma : Sigma} {custom : Option (Attr X → Bool)} {p : Params X} (h : finish f R (widths R sigma) custom = .ok p) : Spec f R sigma custom p := by
  obtain ⟨m, hm, h1, h2, h3, h4⟩ := finish_ok h
  obtain ⟨hmem, hge⟩ := pyMax_ok hm
  refine ⟨h2, h3, h4, fun e => ?_, fun r hr j hj => ?_, fun ⟨r, hr, h0⟩ => ?_⟩
  · subst e; cases hm
  · have hle := hj.trans (hge _ (List.mem_map_of_mem hr))
    have h0 : 0 ≤ m := (abs_nonneg _).trans hle
    rw [h1, pyInt, if_pos h0, Int.le_floor, Int.cast_abs]
    exact hle
  · have h0' : 0 ≤ m := h0.trans (hge _ (List.mem_map_of_mem hr))
    obtain ⟨r', hr', e⟩ := List.mem_map.1 hmem
    have hf : (0 : ℤ) ≤ ⌊m⌋ := Int.floor_nonneg.2 h0'
    rw [h1, pyInt, if_pos h0']
    refine ⟨hf, r', hr', ?_⟩
    rw [e, abs_of_nonneg (by exact_mod_cast hf)]
    exact Int.floor_le m

/-- **C86** What the convolutions on the plane and in space get: the rings which were given, or the default ones, all between 0 and the corner of the grid; a filter which accepts an element exactly if the user's filter does and its
frequency is at most the cut-off of its ring; and a maximum frequency which loses no accepted element (every frequency accepted on a ring is at most the maximum) and which is itself accepted on some ring. -/
theorem C86_conv {n : ℕ} {cut : ℕ → Cut → Except Err (ℝ → ℝ)} {k d : ℕ} {fco : Cut} {rings : Option (List ℝ)} {sigma : Sigma} {custom : Option (Attr X → Bool)} {p : Params X}
    (h : conv n cut k fco rings sigma d custom = .ok p) :
    ∃ f, cut k fco = .ok f ∧ Spec f (rings.getD (defaultRings k d)) sigma custom p ∧ ∀ r ∈ p.rings, 0 ≤ r ∧ r ≤ (d : ℝ) * ((k : ℝ) - 1) / 2 * √n := by
  unfold conv at h
  dsimp only at h
  split_ifs at h with hr
  rcases hc : cut k fco with _ | f
  · rw [hc] at h; cases h
  · rw [hc] at h
    have hs := finish_spec h
    exact ⟨f, rfl, hs, fun r hr' => by rw [hs.rings] at hr'; exact ⟨(hr r hr').2, (hr r hr').1⟩⟩

/-- **C86** The same for the point convolutions. -/
theorem C86_point {fco : Cut} {rings : Option (List ℝ)} {sigma : Sigma} {width : Option ℝ} {nRings : Option ℤ} {custom : Option (Attr X → Bool)} {p : Params X}
    (h : point fco rings sigma width nRings custom = .ok p) :
    ∃ f R, cutPoint fco = .ok f ∧ Spec f R sigma custom p ∧ (∀ R', rings = some R' → R = R' ∧ (width = none ∨ nRings = none)) ∧
      (rings = none → ∃ w n, width = some w ∧ nRings = some n ∧ 0 < w ∧ 0 < n ∧ R.length = n.toNat ∧ (∀ r ∈ R, 0 ≤ r ∧ r ≤ w) ∧ 0 ∈ R ∧ (1 < n → w ∈ R)) := by
  unfold point at h
  split at h
  · cases h
  · rename_i R hne
    rcases hc : cutPoint fco with _ | f
    · rw [hc] at h; cases h
    · rw [hc] at h
      refine ⟨f, R, rfl, finish_spec h, fun R' e => ⟨Option.some.inj e, ?_⟩, fun e => by cases e⟩
      cases width <;> cases nRings <;> first | exact .inl rfl | exact .inr rfl | exact (hne _ _ rfl rfl).elim
  · rename_i w n
    split_ifs at h with h0
    rcases hc : cutPoint fco with _ | f
    · rw [hc] at h; cases h
    · rw [hc] at h
      refine ⟨f, _, rfl, finish_spec h, fun R' e => (by cases e), fun _ => ⟨w, n, rfl, rfl, h0.1, h0.2, by simp [linspace], fun r hr => ?_, ?_, fun h1 => ?_⟩⟩
      · obtain ⟨i, hi, rfl⟩ := List.mem_map.1 hr
        have hi' : (i : ℝ) ≤ (n.toNat : ℝ) - 1 := by
          have := List.mem_range.1 hi
          have : i + 1 ≤ n.toNat := this
          have : ((i + 1 : ℕ) : ℝ) ≤ (n.toNat : ℝ) := by exact_mod_cast this
          push_cast at this; linarith
        have hi0 : (0 : ℝ) ≤ i := Nat.cast_nonneg _
        refine ⟨div_nonneg (mul_nonneg h0.1.le hi0) (hi0.trans hi'), ?_⟩
        rcases (hi0.trans hi').eq_or_lt with e | e
        · rw [← e, div_zero]; exact h0.1.le
        · rw [div_le_iff₀ e]; exact mul_le_mul_of_nonneg_left hi' h0.1.le
      · exact List.mem_map.2 ⟨0, List.mem_range.2 (by omega), by simp⟩
      · refine List.mem_map.2 ⟨n.toNat - 1, List.mem_range.2 (by omega), ?_⟩
        have : ((n.toNat - 1 : ℕ) : ℝ) = (n.toNat : ℝ) - 1 := by rw [Nat.cast_sub (by omega)]; norm_num
        have h2 : (1 : ℝ) < (n.toNat : ℝ) := by exact_mod_cast (show 1 < n.toNat by omega)
        rw [this, mul_div_assoc, div_self (by linarith), mul_one]
  · cases h

/-- **C86** The default rings are the multiples of the dilation up to half of the kernel, one per pixel. -/
theorem C86_default_rings {k : ℕ} (hk : 0 < k) (d : ℕ) : defaultRings k d = (List.range ((k + 1) / 2)).map fun i : ℕ => (i : ℝ) * d := by
  have e : (((k : ℤ) - 1) / 2 : ℤ) = (((k + 1) / 2 : ℕ) : ℤ) - 1 := by omega
  rw [defaultRings, linspace, List.map_map, e]
  refine List.map_congr_left fun i hi => ?_
  have hi := List.mem_range.1 hi
  simp only [Function.comp]
  rw [Int.cast_sub, Int.cast_one, Int.cast_natCast]
  rcases Nat.lt_or_ge 1 ((k + 1) / 2) with h | h
  · have : ((((k + 1) / 2 : ℕ) : ℝ) - 1) ≠ 0 := by
      have : (1 : ℝ) < (((k + 1) / 2 : ℕ) : ℝ) := by exact_mod_cast h
      linarith
    rw [mul_div_assoc, mul_div_cancel₀ _ this]
  · obtain rfl : i = 0 := by omega
    simp

/-- **C86** Without `rings` and `frequencies_cutoff` the parameters are always accepted, on the plane and in space, for every size, dilation, width and user's filter. -/
theorem C86_defaults_accepted {k : ℕ} (hk : 0 < k) (d : ℕ) {n : ℕ} (hn : 0 < n) (sigma : Sigma) (custom : Option (Attr X → Bool)) :
    (∃ p, conv n cutR2 k .none none sigma d custom = .ok p) ∧ ∃ p, conv n cutR3 k .none none sigma d custom = .ok p := by
  have hr : ∀ r ∈ defaultRings k d, r ≤ (d : ℝ) * ((k : ℝ) - 1) / 2 * √n ∧ 0 ≤ r := fun r hr => by
    rw [C86_default_rings hk] at hr
    obtain ⟨i, hi, rfl⟩ := List.mem_map.1 hr
    have hi := List.mem_range.1 hi
    have h1 : (2 * i + 1 : ℕ) ≤ k := by omega
    have h2 : 2 * (i : ℝ) + 1 ≤ k := by exact_mod_cast h1
    have hd : (0 : ℝ) ≤ d := Nat.cast_nonneg _
    have hn' : (1 : ℝ) ≤ √n := by rw [Real.one_le_sqrt]; exact_mod_cast hn
    have h3 : (i : ℝ) * d ≤ (d : ℝ) * ((k : ℝ) - 1) / 2 := by nlinarith
    have h4 : (0 : ℝ) ≤ (i : ℝ) * d := by positivity
    exact ⟨h3.trans (le_mul_of_one_le_right (h4.trans h3) hn'), h4⟩
  have hne : ∀ f : ℝ → ℝ, (defaultRings k d).map f ≠ [] := fun f e => by
    have := congrArg List.length e
    rw [C86_default_rings hk] at this
    simp at this
    omega
  have hf : ∀ f : ℝ → ℝ, ∃ p, finish f (defaultRings k d) (widths (defaultRings k d) sigma) custom = .ok p := fun f => by
    obtain ⟨m, hm⟩ := pyMax_isOk (hne f)
    exact ⟨_, by unfold finish; rw [hm]; rfl⟩
  constructor
  · unfold conv
    simp only [Option.getD_none]
    rw [if_pos hr]
    exact hf _
  · unfold conv
    simp only [Option.getD_none]
    rw [if_pos hr]
    exact hf _

/-- **C86** The widths: as many as rings; a float is used for all the rings; by default positive, 0.005 at the origin, 0.4 on the last ring and 0.6 on the others. -/
theorem C86_sigma {R : List ℝ} (hR : R ≠ []) :
    (∀ x, (widths R (.float x)).length = R.length ∧ ∀ s ∈ widths R (.float x), s = x) ∧ (∀ l, widths R (.list l) = l) ∧ (widths R .none).length = R.length ∧
      ∀ i r, R[i]? = some r → (widths R .none)[i]? = some (if r = 0 then 0.005 else if i + 1 = R.length then 0.4 else 0.6) := by
  have hlen : (List.replicate (R.length - 1) (0.6 : ℝ) ++ [0.4]).length = R.length := by
    have : 0 < R.length := List.length_pos_of_ne_nil hR
    simp; omega
  refine ⟨fun x => ⟨by simp [widths], fun s hs => List.eq_of_mem_replicate hs⟩, fun l => rfl, by simp only [widths, if_neg hR, List.append_nil, List.length_map, List.length_zip, hlen, min_self], fun i r hi => ?_⟩
  have hlt : i < R.length := (List.getElem?_eq_some_iff.1 hi).1
  have h2 : (List.replicate (R.length - 1) (0.6 : ℝ) ++ [0.4])[i]? = some (if i + 1 = R.length then 0.4 else 0.6) := by
    by_cases e : i + 1 = R.length
    · rw [if_pos e, List.getElem?_append_right (by simp; omega)]
      simp [show i - (R.length - 1) = 0 by omega]
    · rw [if_neg e, List.getElem?_append_left (by simp; omega), List.getElem?_replicate, if_pos (by omega)]
  simp only [widths, if_neg hR, List.append_nil, List.getElem?_map]
  rw [(List.getElem?_zip_eq_some (z := (r, _))).2 ⟨hi, h2⟩]
  rfl

/-- **C86** Which cut-offs are accepted: on the plane and by the point convolutions floats and functions, in space also the three names, but no negative float; nothing else, in particular no `int`. -/
theorem C86_cutoffs (k : ℕ) (c : Cut) :
    ((∃ f, cutR2 k c = .ok f) ↔ c ≠ .other ∧ ∀ s, c ≠ .str s) ∧ ((∃ f, cutPoint c = .ok f) ↔ c ≠ .other ∧ ∀ s, c ≠ .str s) ∧
      ((∃ f, cutR3 k c = .ok f) ↔ c ≠ .other ∧ (∀ s, c = .str s → s = "default1" ∨ s = "default2" ∨ s = "default3") ∧ ∀ x, c = .float x → 0 ≤ x) := by
  cases c with
  | none => simp [cutR2, cutPoint, cutR3]
  | float x => by_cases h : 0 ≤ x <;> simp [cutR2, cutPoint, cutR3, h]
  | str s =>
    refine ⟨by simp [cutR2], by simp [cutPoint], ?_⟩
    simp only [cutR3]
    split_ifs <;> simp_all
  | fn f => simp [cutR2, cutPoint, cutR3]
  | other => simp [cutR2, cutPoint, cutR3]

theorem fmod2_nonneg (x : ℝ) : 0 ≤ fmod2 x := by
  have := Int.floor_le (x / 2)
  unfold fmod2; linarith

theorem fmod2_lt (x : ℝ) : fmod2 x < 2 := by
  have := Int.lt_floor_add_one (x / 2)
  unfold fmod2; linarith

/-- **C86** The default policies: the origin carries only the frequency 0, no ring carries a frequency above twice its radius, and, without dilation, every default ring carries the frequency 0. -/
theorem C86_policies (m : ℕ) :
    (fco1 m 0 = 0 ∧ fco2 m 0 = 0 ∧ fco3 m 0 = 0 ∧ fco1R3 m 0 = 0) ∧
    (∀ r, 0 ≤ r → fco1 m r ≤ 2 * r ∧ fco2 m r ≤ 2 * r ∧ fco1R3 m r ≤ 2 * r ∧ (1 ≤ r → fco3 m r ≤ 2 * r)) ∧
    ∀ k, 0 < k → k / 2 = m → ∀ r ∈ defaultRings k 1, 0 ≤ fco1 m r ∧ 0 ≤ fco2 m r ∧ 0 ≤ fco3 m r ∧ 0 ≤ fco1R3 m r := by
  refine ⟨⟨if_pos rfl, if_pos rfl, if_pos rfl, ?_⟩, fun r hr => ⟨?_, ?_, min_le_left _ _, fun h1 => ?_⟩, fun k hk hm r hr => ?_⟩
  · rw [fco1R3, mul_zero, sub_zero, min_eq_left (by positivity)]
  · unfold fco1; split_ifs
    · linarith
    · exact min_le_left _ _
    · exact min_le_left _ _
  · unfold fco2; split_ifs
    · linarith
    · exact min_le_left _ _
    · exact min_le_left _ _
  · unfold fco3; split_ifs <;> linarith
  · rw [C86_default_rings hk] at hr
    obtain ⟨i, hi, rfl⟩ := List.mem_map.1 hr
    have hi := List.mem_range.1 hi
    simp only [Nat.cast_one, mul_one]
    have h0 : (0 : ℝ) ≤ i := Nat.cast_nonneg _
    have him : (i : ℝ) ≤ m := by exact_mod_cast (show i ≤ m by omega)
    have hf := fmod2_lt ((i : ℝ) + 1)
    have h1 : (i : ℝ) ≠ 0 → (1 : ℝ) ≤ i := fun h => by
      have : i ≠ 0 := by exact_mod_cast h
      exact_mod_cast Nat.one_le_iff_ne_zero.2 this
    refine ⟨?_, ?_, ?_, le_min (by linarith) (by linarith)⟩
    · unfold fco1; split_ifs with a b
      · exact le_rfl
      · exact le_min (by linarith) (by norm_num)
      · have := h1 a; exact le_min (by linarith) (by linarith)
    · unfold fco2; split_ifs with a b
      · exact le_rfl
      · exact le_min (by linarith) (by norm_num)
      · have := h1 a; exact le_min (by linarith) (by linarith)
    · unfold fco3; split_ifs <;> norm_num

theorem fmod2_eq {x : ℝ} {z : ℤ} (h : 2 * (z : ℝ) ≤ x) (h' : x < 2 * z + 2) : fmod2 x = x - 2 * z := by
  have : ⌊x / 2⌋ = z := by rw [Int.floor_eq_iff]; constructor <;> linarith
  rw [fmod2, this]

theorem rings5 (d : ℕ) : defaultRings 5 d = [0, (d : ℝ), 2 * d] := by
  rw [C86_default_rings (by norm_num)]
  simp [List.range_succ]

/-- **C86** (violated) The policy gets `kernel_size // 2` as "the radius of the last ring touching the border of the grid", without the dilation. On the plane, for the size 5: without dilation the last ring carries the frequency 2;
with dilation 2, for the same number of pixels, the ring in the middle is taken for the last one and the last ring carries the frequency 7. -/
theorem C86_dilation_violation : (∃ p : Params Unit, conv 2 cutR2 5 .none none .none 1 none = .ok p ∧ p.rings = [0, 1, 2] ∧ p.maxFreq = 2) ∧
    ∃ p : Params Unit, conv 2 cutR2 5 .none none .none 2 none = .ok p ∧ p.rings = [0, 2, 4] ∧ p.maxFreq = 7 ∧ p.filter ⟨3, 2, ()⟩ = false ∧ p.filter ⟨7, 4, ()⟩ = true := by
  have hv : fco1 2 0 = 0 ∧ fco1 2 1 = 2 ∧ fco1 2 2 = 2 ∧ fco1 2 4 = 7 := by
    have e1 : fmod2 (1 + 1) = 0 := by rw [fmod2_eq (z := 1)] <;> norm_num
    have e4 : fmod2 (4 + 1) = 1 := by rw [fmod2_eq (z := 2)] <;> norm_num
    refine ⟨if_pos rfl, ?_, ?_, ?_⟩
    · rw [fco1, if_neg (by norm_num), if_neg (by norm_num), e1]; norm_num
    · rw [fco1, if_neg (by norm_num), if_pos (by norm_num)]; norm_num
    · rw [fco1, if_neg (by norm_num), if_neg (by norm_num), e4]; norm_num
  obtain ⟨v0, v1, v2, v4⟩ := hv
  have hf : ∀ {p : Params Unit} {d : ℕ}, conv 2 cutR2 5 .none none .none d none = .ok p → Spec (fco1 2) [0, (d : ℝ), 2 * d] .none none p := fun {p d} h => by
    obtain ⟨f, hf, hs, -⟩ := C86_conv h
    obtain rfl := Except.ok.inj hf
    rwa [Option.getD_none, rings5] at hs
  constructor
  · obtain ⟨p, hp⟩ := (C86_defaults_accepted (X := Unit) (show 0 < 5 by norm_num) 1 (show 0 < 2 by norm_num) .none none).1
    have hs := hf hp
    refine ⟨p, hp, by rw [hs.rings]; norm_num, le_antisymm ?_ ?_⟩
    · obtain ⟨h0, r, hr, hle⟩ := hs.max_mem ⟨0, by simp, by rw [v0]⟩
      have : (p.maxFreq : ℝ) ≤ 2 := by
        refine (le_abs_self _).trans (hle.trans ?_)
        simp only [List.mem_cons, List.not_mem_nil, or_false] at hr
        rcases hr with rfl | rfl | rfl <;> norm_num [v0, v1, v2]
      exact_mod_cast this
    · have := hs.max_ge 2 (by norm_num) 2 (by rw [v2]; norm_num)
      simpa using this
  · obtain ⟨p, hp⟩ := (C86_defaults_accepted (X := Unit) (show 0 < 5 by norm_num) 2 (show 0 < 2 by norm_num) .none none).1
    have hs := hf hp
    refine ⟨p, hp, by rw [hs.rings]; norm_num, le_antisymm ?_ ?_, ?_, ?_⟩
    · obtain ⟨h0, r, hr, hle⟩ := hs.max_mem ⟨0, by simp, by rw [v0]⟩
      have : (p.maxFreq : ℝ) ≤ 7 := by
        refine (le_abs_self _).trans (hle.trans ?_)
        simp only [List.mem_cons, List.not_mem_nil, or_false] at hr
        rcases hr with rfl | rfl | rfl <;> norm_num [v0, v2, v4]
      exact_mod_cast this
    · have := hs.max_ge 4 (by norm_num) 7 (by rw [v4]; norm_num)
      simpa using this
    · rw [← Bool.not_eq_true, hs.filter, v2]; norm_num
    · rw [hs.filter, v4]; exact ⟨fun c hc => (by cases hc), by norm_num⟩

/-- **C86** (violated) In space, for the size 5 and dilation 4, the last ring carries no filter at all, not even of frequency 0. -/
theorem C86_dilation3_violation : ∃ p : Params Unit, conv 3 cutR3 5 .none none .none 4 none = .ok p ∧ 8 ∈ p.rings ∧ ∀ j, p.filter ⟨j, 8, ()⟩ = false := by
  obtain ⟨p, hp⟩ := (C86_defaults_accepted (X := Unit) (show 0 < 5 by norm_num) 4 (show 0 < 3 by norm_num) .none none).2
  obtain ⟨f, hf, hs, -⟩ := C86_conv hp
  obtain rfl := Except.ok.inj hf
  refine ⟨p, hp, ?_, fun j => ?_⟩
  · rw [hs.rings, Option.getD_none, rings5]; norm_num
  · rw [← Bool.not_eq_true, hs.filter]
    rintro ⟨-, h⟩
    have h1 := abs_nonneg ((j : ℤ) : ℝ)
    have h2 : fco1R3 (5 / 2) 8 ≤ -4 := (min_le_right _ _).trans (by norm_num)
    linarith

theorem fmod2_nat (n : ℕ) : fmod2 n = ((n % 2 : ℕ) : ℝ) := by
  have h : ⌊(n : ℝ) / 2⌋ = ((n / 2 : ℕ) : ℤ) := by
    rw [Int.floor_eq_iff]
    have e : (n : ℝ) = 2 * ((n / 2 : ℕ) : ℝ) + ((n % 2 : ℕ) : ℝ) := by exact_mod_cast (Nat.div_add_mod n 2).symm
    have l : ((n % 2 : ℕ) : ℝ) < 2 := by exact_mod_cast Nat.mod_lt n (by norm_num)
    have l0 : (0 : ℝ) ≤ ((n % 2 : ℕ) : ℝ) := Nat.cast_nonneg _
    rw [Int.cast_natCast]
    constructor <;> linarith
  have e : (n : ℝ) = 2 * ((n / 2 : ℕ) : ℝ) + ((n % 2 : ℕ) : ℝ) := by exact_mod_cast (Nat.div_add_mod n 2).symm
  rw [fmod2, h, Int.cast_natCast]
  linarith

/-- **C86** The values of the policies on the rings of an undilated filter of size `k`: the names of the policies and the numbers `-1`, `-2`, `-3` select the documented functions. -/
theorem C86_policy_values (k : ℕ) : ∃ f₁ f₂ f₃ g₁ : ℝ → ℝ,
    (cutR2 k .none = .ok f₁ ∧ cutR2 k (.float (-1)) = .ok f₁ ∧ cutR2 k (.float (-2)) = .ok f₂ ∧ cutR2 k (.float (-3)) = .ok f₃) ∧
    (cutR3 k .none = .ok g₁ ∧ cutR3 k (.str "default1") = .ok g₁ ∧ cutR3 k (.str "default2") = .ok f₂ ∧ cutR3 k (.str "default3") = .ok f₃) ∧
    (∀ r : ℕ, 0 < r → r < k / 2 → f₁ r = 2 * r - ((r + 1) % 2 : ℕ) ∧ f₂ r = 2 * r - ((r + 1) % 2 : ℕ) ∧ f₃ r = 2 ∧ g₁ r = min (2 * (r : ℝ)) ((k / 2 - r + 2 : ℕ) : ℝ)) ∧
    (1 < k → f₁ (k / 2 : ℕ) = 2 ∧ f₂ (k / 2 : ℕ) = 1 ∧ f₃ (k / 2 : ℕ) = 1 ∧ g₁ (k / 2 : ℕ) = 2) ∧
    (∀ x, x ≠ -1 → x ≠ -2 → x ≠ -3 → ∃ f, cutR2 k (.float x) = .ok f ∧ ∀ r, f r = x * r) ∧
    (∀ x, 0 ≤ x → ∃ f, cutR3 k (.float x) = .ok f ∧ ∀ r, f r = x * r) ∧
    (∃ f, cutPoint .none = .ok f ∧ ∀ r, f r = 3 * r) ∧ ∀ x, ∃ f, cutPoint (.float x) = .ok f ∧ ∀ r, f r = x * r := by
  refine ⟨fco1 (k / 2), fco2 (k / 2), fco3 (k / 2), fco1R3 (k / 2), ⟨rfl, ?_, ?_, ?_⟩, ⟨rfl, by simp [cutR3], ?_, ?_⟩, fun r h0 hr => ?_, fun hk => ?_, fun x h1 h2 h3 => ⟨_, ?_, fun r => rfl⟩,
    fun x hx => ⟨_, if_pos hx, fun r => rfl⟩, ⟨_, rfl, fun r => rfl⟩, fun x => ⟨_, rfl, fun r => rfl⟩⟩
  · norm_num [cutR2]
  · norm_num [cutR2]
  · norm_num [cutR2]
  · simp [cutR3]
  · simp [cutR3]
  · have hr0 : (r : ℝ) ≠ 0 := by exact_mod_cast h0.ne'
    have hrm : (r : ℝ) ≠ ((k / 2 : ℕ) : ℝ) := by exact_mod_cast hr.ne
    have hm : fmod2 ((r : ℝ) + 1) = (((r + 1) % 2 : ℕ) : ℝ) := by rw [← fmod2_nat]; push_cast; rfl
    have hmin : min (2 * (r : ℝ)) (2 * r - (((r + 1) % 2 : ℕ) : ℝ)) = 2 * r - (((r + 1) % 2 : ℕ) : ℝ) := min_eq_right (by linarith [Nat.cast_nonneg (α := ℝ) ((r + 1) % 2)])
    refine ⟨?_, ?_, ?_, ?_⟩
    · rw [fco1, if_neg hr0, if_neg hrm, hm, hmin]
    · rw [fco2, if_neg hr0, if_neg hrm, hm, hmin]
    · rw [fco3, if_neg hr0, if_neg hrm]
    · rw [fco1R3, show ((k / 2 - r + 2 : ℕ) : ℝ) = ((k / 2 : ℕ) : ℝ) - r + 2 by rw [Nat.cast_add, Nat.cast_sub hr.le]; norm_num]
  · have h1 : 1 ≤ k / 2 := by omega
    have hm1 : (1 : ℝ) ≤ ((k / 2 : ℕ) : ℝ) := by exact_mod_cast h1
    have h0 : ((k / 2 : ℕ) : ℝ) ≠ 0 := by linarith
    refine ⟨?_, ?_, ?_, ?_⟩
    · rw [fco1, if_neg h0, if_pos rfl, min_eq_right (by linarith)]
    · rw [fco2, if_neg h0, if_pos rfl, min_eq_right (by linarith)]
    · rw [fco3, if_neg h0, if_pos rfl]
    · rw [fco1R3, min_eq_right (by linarith)]; ring
  · simp [cutR2, h1, h2, h3]

/-- For a filter of size 7 the ring 2 has frequencies up to 3 under the first policy, up to 2 under the third and up to 3 with the first policy of 3D. -/
example : ∃ f₁ f₃ g₁ : ℝ → ℝ, cutR2 7 .none = .ok f₁ ∧ cutR2 7 (.float (-3)) = .ok f₃ ∧ cutR3 7 .none = .ok g₁ ∧ f₁ 2 = 3 ∧ f₃ 2 = 2 ∧ g₁ 2 = 3 := by
  obtain ⟨f₁, f₂, f₃, g₁, ⟨h1, -, -, h3⟩, ⟨hg, -⟩, hv, -⟩ := C86_policy_values 7
  have hv := hv 2 (by norm_num) (by norm_num)
  norm_num at hv
  exact ⟨f₁, f₃, g₁, h1, h3, hg, hv.1, hv.2.2.1, hv.2.2.2⟩

/-- A convolution of size 7 with a filter of the user, and a point convolution with 3 rings up to radius 2: accepted. -/
example : (∃ p, conv 2 cutR2 7 .none none (.float 0.5) 1 (some fun a : Attr Unit => decide (a.freq ≤ 2)) = .ok p) ∧ ∃ p : Params Unit, point (.float 2) none .none (some 2) (some 3) none = .ok p := by
  refine ⟨(C86_defaults_accepted (by norm_num) 1 (by norm_num) _ _).1, ?_⟩
  unfold point
  simp only
  rw [if_pos (by norm_num)]
  exact ⟨_, rfl⟩

end BasisParams

end Escnn
