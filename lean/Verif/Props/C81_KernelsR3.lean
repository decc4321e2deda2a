import Verif.Lemmas.HarmonicR3
import Verif.Props.C40_PolarLayout
import Verif.Props.C38_SteerableKernelBasis
import Verif.Props.C13_RestrictRep
import Verif.Props.C18_Endo

/-!
# C81: the harmonic polynomials and the kernel bases on the space are steerable under O(3) and its subgroups
-/

namespace Escnn

open NpMat Real

variable {W : ℕ → UQuat → NpMat ℝ} {M L : ℕ} {cg : ℕ × ℕ → ℕ × ℕ → ℕ × ℕ → CGArray} {C : ℕ → NpMat ℝ}

theorem HarmonicCobs.shape (hC : HarmonicCobs W L C) : (C 1).rows = 3 ∧ ∀ k, k + 2 ≤ L → (C (k + 2)).rows = 2 * (k + 2) + 1 ∧ (C (k + 2)).cols = (2 * (k + 1) + 1) * 3 :=
  ⟨by rw [hC.first]; rfl, fun k hk => by
    obtain ⟨A, h1, h2, h3, -⟩ := hC.rest k hk
    rw [h1]
    exact ⟨h2, h3⟩⟩

theorem harmY_smul (hC : HarmonicCobs W L C) (t : ℝ) (p : Fin 3 → ℝ) : ∀ l ≤ L, ∀ c, harmY C (t • p) l c = t ^ l * harmY C p l c := by
  have one : ∀ c, harm1 C (t • p) c = t * harm1 C p c := fun c => by
    unfold harm1
    rw [Finset.mul_sum]
    exact Finset.sum_congr rfl fun i _ => by rw [Pi.smul_apply, smul_eq_mul]; ring
  intro l
  induction l using Nat.strong_induction_on with
  | _ l ih =>
    intro hl c
    match l, ih, hl with
    | 0, _, _ => simp [harmY]
    | 1, _, _ => rw [pow_one]; exact one c
    | k + 2, ih, hl =>
      simp only [harmY]
      rw [Finset.mul_sum]
      refine Finset.sum_congr rfl fun i _ => ?_
      rw [ih (k + 1) (by omega) (by omega), one]
      ring

/-- **C81** the generator of the harmonic polynomials: it builds its buffers; the polynomial of degree zero is one, those of degree one are the coordinates in the order `y, z, x`, those of degree `l` are
homogeneous of degree `l`, and they are transformed by the irrep `(l mod 2, l)` when the point is moved by an element of O(3). -/
theorem C81_harmonics (hW : ∀ l, l ≠ 0 → l ≤ M → Wigner l (W l)) (hL : L ≤ M) (hcg : ∀ k, k + 2 ≤ L → HarmonicLaw W M cg k) :
    ∃ cobs, ∃ Y : (Fin 3 → ℝ) → ℕ → ℝ, harmonicCobs W M cg L = .ok cobs ∧ (∀ p, harmonics cobs p = .ok (Y p)) ∧ (∀ p, Y p 0 = 1) ∧ (1 ≤ L → ∀ p, ∀ c < 3, Y p (1 + c) = p (harmonicAxis c)) ∧
      (∀ t p, ∀ l ≤ L, ∀ c < 2 * l + 1, Y (t • p) (l ^ 2 + c) = t ^ l * Y p (l ^ 2 + c)) ∧
      ∀ g, O3El g → ∀ p, ∀ l ≤ L, ∀ c < 2 * l + 1, Y (Matrix.mulVec (act3 g) p) (l ^ 2 + c) = ∑ c' ∈ Finset.range (2 * l + 1), (O3.irrepMat W (l % 2) l g).get c c' * Y p (l ^ 2 + c') := by
  obtain ⟨C, h1, hC⟩ := harmonicCobs_spec (cg := cg) hW hL hcg
  choose Y hY hY' using fun p => harmonics_spec C L p hC.shape.1 hC.shape.2
  refine ⟨_, Y, h1, hY, fun p => by simpa [harmY] using hY' p 0 (by omega) 0 (by omega), fun h p c hc => ?_, fun t p l hl c hc => ?_, fun g hg p l hl c hc => ?_⟩
  · have := hY' p 1 h c (by omega)
    rw [one_pow] at this
    rw [this]
    exact harm1_eq hC p hc
  · rw [hY' _ l hl c hc, hY' _ l hl c hc, harmY_smul hC t p l hl c]
  · rw [hY' _ l hl c hc, harmY_equiv (fun l h0 h => hW l h0 (h.trans hL)) hC hg p l hl c hc]
    exact Finset.sum_congr rfl fun c' hc' => by rw [hY' p l hl c' (Finset.mem_range.1 hc')]

/-! ### the basis -/

theorem radius3_act {A : Mat3} (hA : A.transpose * A = 1) (p : Fin 3 → ℝ) : radius3 (Matrix.mulVec A p) = radius3 p := by
  have h : ∀ q : Fin 3 → ℝ, q 0 ^ 2 + q 1 ^ 2 + q 2 ^ 2 = dotProduct q q := fun q => by simp [dotProduct, Fin.sum_univ_three, sq]
  unfold radius3
  rw [h, h, Matrix.dotProduct_mulVec, Matrix.vecMul_mulVec, hA, Matrix.vecMul_one]

theorem sphereOf_act {A : Mat3} (hA : A.transpose * A = 1) (p : Fin 3 → ℝ) : sphereOf (Matrix.mulVec A p) = Matrix.mulVec A (sphereOf p) := by
  unfold sphereOf
  rw [radius3_act hA]
  split_ifs with h
  · have e : (fun i => p i / max (radius3 p) 1e-12) = (max (radius3 p) 1e-12)⁻¹ • p := by
      funext i; rw [Pi.smul_apply, smul_eq_mul, div_eq_inv_mul]
    rw [e, Matrix.mulVec_smul]
    funext i; rw [Pi.smul_apply, smul_eq_mul, div_eq_inv_mul]
  · rfl

/-- The assertions about a point near the origin hold. -/
theorem sphericalAt_spec (hC : HarmonicCobs W L C) (p : Fin 3 → ℝ) :
    ∃ y, sphericalAt ((List.range' 1 L).map C) p = .ok y ∧ ∀ j ≤ L, ∀ c < 2 * j + 1, y (j ^ 2 + c) = harmY C (sphereOf p) j c := by
  obtain ⟨y, h1, h2⟩ := harmonics_spec C L (sphereOf p) hC.shape.1 hC.shape.2
  refine ⟨y, ?_, h2⟩
  unfold sphericalAt
  refine bind_eq h1 ?_
  by_cases hn : (1e-9 : ℝ) < radius3 p
  · rw [if_pos hn]
  have h0 : y 0 = 1 := by simpa [harmY] using h2 0 (by omega) 0 (by omega)
  rw [if_neg hn, if_neg (by rw [h0]; norm_num), if_neg]
  rw [not_not]
  intro a ha1 ha2
  rw [List.length_map, List.length_range'] at ha2
  have hs : sphereOf p = p := if_neg hn
  have hnn : 0 ≤ p 0 ^ 2 + p 1 ^ 2 + p 2 ^ 2 := by positivity
  have hp : p 0 ^ 2 + p 1 ^ 2 + p 2 ^ 2 ≤ 1e-18 := by
    have h := not_lt.1 hn
    unfold radius3 at h
    have := Real.sqrt_le_left (by norm_num : (0:ℝ) ≤ 1e-9) |>.1 h
    norm_num at this ⊢
    linarith
  have e1 : (Nat.sqrt a) ^ 2 ≤ a := Nat.sqrt_le' a
  have e2 : a < (Nat.sqrt a + 1) ^ 2 := Nat.lt_succ_sqrt' a
  have e3 : Nat.sqrt a ≤ L := by
    by_contra h
    have : (L + 1) ^ 2 ≤ (Nat.sqrt a) ^ 2 := Nat.pow_le_pow_left (by omega) 2
    omega
  have e4 : 1 ≤ Nat.sqrt a := Nat.le_sqrt'.2 (by simpa using ha1)
  have e5 : a - (Nat.sqrt a) ^ 2 < 2 * Nat.sqrt a + 1 := by
    have : (Nat.sqrt a + 1) ^ 2 = (Nat.sqrt a) ^ 2 + (2 * Nat.sqrt a + 1) := by ring
    omega
  have hy := h2 _ e3 _ e5
  rw [Nat.add_sub_cancel' e1, hs] at hy
  have hle := harmY_le hC p _ e3
  have hsingle : harmY C p (Nat.sqrt a) (a - (Nat.sqrt a) ^ 2) ^ 2 ≤ ∑ c ∈ Finset.range (2 * Nat.sqrt a + 1), harmY C p (Nat.sqrt a) c ^ 2 :=
    Finset.single_le_sum (f := fun c => harmY C p (Nat.sqrt a) c ^ 2) (fun _ _ => sq_nonneg _) (Finset.mem_range.2 e5)
  have hpow : (2 * (p 0 ^ 2 + p 1 ^ 2 + p 2 ^ 2)) ^ (Nat.sqrt a) ≤ 2 * (p 0 ^ 2 + p 1 ^ 2 + p 2 ^ 2) := by
    refine (pow_le_pow_of_le_one (by positivity) ?_ e4).trans (by rw [pow_one])
    norm_num at hp; linarith
  have hlt : harmY C p (Nat.sqrt a) (a - (Nat.sqrt a) ^ 2) ^ 2 < (1e-7) ^ 2 := by
    have : 2 * (p 0 ^ 2 + p 1 ^ 2 + p 2 ^ 2) ≤ 2 * 1e-18 := by linarith
    have h' : (2 * 1e-18 : ℝ) < (1e-7) ^ 2 := by norm_num
    linarith
  rw [hy]
  exact abs_lt_of_sq_lt_sq hlt (by norm_num)

theorem sph_table_ok : ShellKind.sph.Ok (O3.table W M).size := by
  have h := ShellKind.sph_ok
  have e : (O3.table W M).size = fun j : ℕ × ℕ => 2 * j.2 + 1 := funext fun i => O3.table_size i
  rw [e]
  exact h

/-- **C81** the basis of Gaussian shells and spherical harmonics: it exists, unless the filter removes everything, its elements are `(j, l) = (l mod 2, l)` for `l` up to `L`, sampling it never raises, its values are
a Gaussian of the radius times a harmonic polynomial of the direction, and it is steerable under O(3). -/
theorem C81_steerable (hW : ∀ l, l ≠ 0 → l ≤ M → Wigner l (W l)) (hL : L ≤ M) (hcg : ∀ k, k + 2 ≤ L → HarmonicLaw W M cg k) (radii sigma : List ℝ)
    (hlen : radii.length = sigma.length) (hr : ∀ r ∈ radii, 0 ≤ r) (hs : ∀ s ∈ sigma, 0 < s) (filter : Option (ℕ × ℕ → ℕ → Bool)) (junk : ℕ → ℝ) :
    (sphericalInit W M cg radii sigma L filter junk = .error .emptyBasis ∧ (filter = none → radii = [])) ∨
    ∃ b cobs, sphericalInit W M cg radii sigma L filter junk = .ok (sphericalBasis junk b cobs radii sigma) ∧
      Shells.init ShellKind.sph (O3.table W M).size L radii.length filter = .ok b ∧ harmonicCobs W M cg L = .ok cobs ∧
      b.js.map Prod.fst = (List.range (L + 1)).map (fun l => (l % 2, l)) ∧
      (∀ p, ∃ y, harmonics cobs (sphereOf p) = .ok y ∧ sphericalSample junk b cobs radii sigma p = .ok (b.sample junk (gaussian radii sigma (radius3 p)) y)) ∧
      (sphericalBasis junk b cobs radii sigma).Steerable (O3.table W M).size (O3.table W M).mat O3El fun g p => Matrix.mulVec (act3 g) p := by
  unfold sphericalInit
  rw [if_neg (not_not.2 ⟨hlen, hr, hs⟩)]
  by_cases h0 : radii = []
  · rw [if_pos h0]; exact .inl ⟨rfl, fun _ => h0⟩
  rw [if_neg h0]
  cases hb : Shells.init ShellKind.sph (O3.table W M).size L radii.length filter with
  | error e =>
    left
    unfold Shells.init at hb
    simp only at hb
    split_ifs at hb with hd
    refine ⟨by simp only [bind, Except.bind]; rw [← Except.error.inj hb], fun hf => absurd hd ?_⟩
    subst hf
    have hn : 0 < radii.length := List.length_pos_of_ne_nil h0
    rw [Shells.dim]
    simp only [List.range_succ_eq_map, List.map_cons, List.sum_cons, O3.table_size]
    have := Nat.mul_pos (show 0 < 2 * (ShellKind.sph.id 0).2 + 1 by omega) hn
    omega
  | ok b =>
    right
    obtain ⟨C, hc, hC⟩ := harmonicCobs_spec (cg := cg) hW hL hcg
    have hk := sph_table_ok (W := W) (M := M)
    have hjs := (Shells.init_spec hk hb).2.2.2.1
    choose Y hY hY' using sphericalAt_spec (W := W) hC
    have hsample : ∀ p, sphericalSample junk b ((List.range' 1 L).map C) radii sigma p = .ok (b.sample junk (gaussian radii sigma (radius3 p)) (Y p)) := fun p => by
      unfold sphericalSample
      exact bind_eq (hY p) rfl
    have hval : ∀ p e, (sphericalBasis junk b ((List.range' 1 L).map C) radii sigma).sample p e = b.sample junk (gaussian radii sigma (radius3 p)) (Y p) e := fun p e => by
      show (match sphericalSample junk b ((List.range' 1 L).map C) radii sigma p with | .ok v => v e | .error _ => 0) = _
      rw [hsample p]
    refine ⟨b, _, bind_eq (rfl : Except.ok b = .ok b) (bind_eq hc rfl), rfl, hc, ?_, fun p => ⟨Y p, ?_, hsample p⟩, fun g hg x kk j m hkk i hi c hc => ?_⟩
    · rw [hjs, List.map_map]
      rfl
    · have := hY p
      unfold sphericalAt at this
      cases hh : harmonics ((List.range' 1 L).map C) (sphereOf p) with
      | error e => rw [hh] at this; simp [bind, Except.bind] at this
      | ok y =>
        rw [hh] at this
        simp only [bind, Except.bind] at this
        split_ifs at this <;> rw [Except.ok.inj this]
    · have hjs' : b.js[kk]? = some (j, m) := hkk
      have hkL : kk ≤ L := by
        have := (List.getElem?_eq_some_iff.1 hjs').1
        rw [hjs, List.length_map, List.length_range] at this
        omega
      obtain ⟨h1, h2⟩ := Shells.C40_steerable hk hb kk hkL
      rw [h1] at hjs'
      obtain ⟨rfl, rfl⟩ := Prod.mk.inj (Option.some.inj hjs')
      obtain ⟨a, -, -, -, -, -, -, -, ha⟩ := h2 i hi
      have hsz : (O3.table W M).size (ShellKind.sph.id kk) = ShellKind.sph.dim kk := hk.size kk
      simp only [hsz] at hc ⊢
      have ho := (O3.orth hg).2
      simp only [hval]
      have hdim : ShellKind.sph.dim kk = 2 * kk + 1 := rfl
      have hfirst : ShellKind.sph.first kk = kk ^ 2 := rfl
      refine (ha c hc _ _ _).trans ?_
      rw [radius3_act ho, hfirst, hY' _ kk hkL c hc, sphereOf_act ho, harmY_equiv (fun l h0 h => hW l h0 (h.trans hL)) hC hg _ kk hkL c hc, Finset.mul_sum]
      refine Finset.sum_congr rfl fun c' hc' => ?_
      have hc' := Finset.mem_range.1 hc'
      have := ha c' hc' junk (gaussian radii sigma (radius3 x)) (Y x)
      rw [hfirst, hY' _ kk hkL c' hc'] at this
      show _ = (O3.irrepMat W (kk % 2) kk g).get c c' * _
      refine Eq.trans ?_ (congrArg _ this.symm)
      ring

/-! ### kernels/r3.py -/

theorem O3.tensorIrreps_comm (m n : ℕ × ℕ) : O3.tensorIrreps m n = O3.tensorIrreps n m := by
  unfold O3.tensorIrreps
  have h : ((m.2 : ℤ) - n.2).natAbs = ((n.2 : ℤ) - m.2).natAbs := by omega
  simp only [h, add_comm m.2 n.2, add_comm m.1 n.1]

theorem maxFreq_mem {J : Type} (freq : J → ℕ) {rs : List J} {i : J} (h : i ∈ rs) : freq i ≤ (rs.map freq).foldr max 0 := by
  induction rs with
  | nil => simp at h
  | cons a rs ih =>
    rw [List.map_cons, List.foldr_cons]
    rcases List.mem_cons.1 h with rfl | h
    · exact le_max_left _ _
    · exact (ih h).trans (le_max_right _ _)

theorem maxFreq_ok {G J : Type} {T : IrrepTable G J} {El : G → Prop} {rin rout : Rep G J} (hin : rin.WF T El) (hout : rout.WF T El) (freq : J → ℕ) (L : Option ℕ) :
    ∃ L', maxFreq freq rin.irreps rout.irreps L = .ok L' ∧ (L = none → ∀ m ∈ rin.irreps, ∀ n ∈ rout.irreps, freq m + freq n ≤ L') := by
  have hne : ∀ {r : Rep G J}, r.WF T El → r.irreps ≠ [] := fun hr h => by
    have h1 := hr.pos
    have h2 := hr.size
    rw [h] at h2
    simp at h2
    omega
  cases L with
  | some L => exact ⟨L, rfl, by simp⟩
  | none =>
    refine ⟨_, if_neg (by push Not; exact ⟨hne hin, hne hout⟩), fun _ m hm n hn => Nat.add_le_add (maxFreq_mem freq hm) (maxFreq_mem freq hn)⟩

theorem lookupLast_absent {J : Type} [DecidableEq J] {js : List (J × ℕ)} {j : J} (h : j ∉ js.map Prod.fst) : FType.lookupLast js j = none := by
  have : js.filter (fun p => p.1 = j) = [] := by
    rw [List.filter_eq_nil_iff]
    intro p hp he
    rw [decide_eq_true_eq] at he
    exact h (List.mem_map.2 ⟨p, hp, he⟩)
  unfold FType.lookupLast
  rw [this]
  rfl

/-- **C81** for O(3): every kernel of `kernels_O3_act_R3` is steerable under the rotations and the inversion of the space.  Without a filter and a maximal frequency no kernel is missing: for every two irreps
`(j, l)` and `(j', l')` there is one kernel for each radius and each `k` between `|l - l'|` and `l + l'` with the parity of `j + j'`. -/
theorem C81_o3 (hW : ∀ l, l ≠ 0 → l ≤ M → Wigner l (W l)) (rin rout : Rep O3.Elem (ℕ × ℕ)) (radii sigma : List ℝ) (L : Option ℕ) (filter : Option (ℕ × ℕ → ℕ → Bool)) (junk : ℕ → ℝ)
    (hL : ∀ L', maxFreq Prod.snd rin.irreps rout.irreps L = .ok L' → L' ≤ M ∧ ∀ k, k + 2 ≤ L' → HarmonicLaw W M cg k)
    (hin : rin.WF (O3.table W M) O3El) (hout : rout.WF (O3.table W M) O3El)
    (hcg : ∀ m ∈ rin.irreps, ∀ n ∈ rout.irreps, CGLaw O3El (O3.table W M).ok (O3.table W M).size (O3.table W M).mat O3.tensorIrreps cg n m)
    (hlen : radii.length = sigma.length) (hr : ∀ r ∈ radii, 0 ≤ r) (hs : ∀ s ∈ sigma, 0 < s) :
    (kernelsO3 W M cg rin rout radii sigma L filter junk = .error .emptyBasis ∧ (L = none → filter = none → radii ≠ [] → (rin.irreps.map fun m => (rout.irreps.map fun n =>
        radii.length * ((List.range' ((m.2 : ℤ) - n.2).natAbs (m.2 + n.2 + 1 - ((m.2 : ℤ) - n.2).natAbs)).filter fun k => (m.1 + n.1) % 2 = k % 2).length).sum).sum = 0)) ∨
    ∃ s F, kernelsO3 W M cg rin rout radii sigma L filter junk = .ok (s, F) ∧ s.rows = rout.size ∧ s.cols = rin.size ∧
      (L = none → filter = none → s.dim = (rin.irreps.map fun m => (rout.irreps.map fun n =>
        radii.length * ((List.range' ((m.2 : ℤ) - n.2).natAbs (m.2 + n.2 + 1 - ((m.2 : ℤ) - n.2).natAbs)).filter fun k => (m.1 + n.1) % 2 = k % 2).length).sum).sum) ∧
      ∀ e < s.dim, SteerableKernel O3El (fun g p => Matrix.mulVec (act3 g) p) rin.mat rout.mat fun x => SKB.sample (O3.table W M).size F s x e := by
  obtain ⟨L', hL', hmax⟩ := maxFreq_ok hin hout Prod.snd L
  obtain ⟨hLM, hlaw⟩ := hL L' hL'
  have hT := O3.table_valid hW
  have hstep : ∀ {r}, (do
      let F ← sphericalInit W M cg radii sigma L' filter junk
      let s ← SKB.init (O3.table W M).size (0, 0) F (WE.init (O3.kgroup W M cg) F) rin rout
      .ok (s, F)) = r → kernelsO3 W M cg rin rout radii sigma L filter junk = r := fun h => by
    unfold kernelsO3
    exact bind_eq hL' h
  rcases C81_steerable hW hLM hlaw radii sigma hlen hr hs filter junk with ⟨h, h0⟩ | ⟨b, cobs, h1, hb, -, hjs, -, hst⟩
  · exact .inl ⟨hstep (by rw [h]; rfl), fun _ hf hr => absurd (h0 hf) hr⟩
  set F := sphericalBasis junk b cobs radii sigma with hF
  have hmap : F.js.map Prod.fst = (List.range (L' + 1)).map (fun l => (l % 2, l)) := hjs
  have hFn : (F.js.map Prod.fst).Nodup := by
    rw [hmap]
    exact List.Nodup.map_on (fun x _ y _ e => congrArg Prod.snd e) List.nodup_range
  have hFok : ∀ e ∈ F.js, (O3.kgroup W M cg).T.ok e.1 = true := by
    intro e he
    have : e.1 ∈ F.js.map Prod.fst := List.mem_map.2 ⟨e, he, rfl⟩
    rw [hmap] at this
    obtain ⟨l, hl, he'⟩ := List.mem_map.1 this
    rw [List.mem_range] at hl
    rw [← he']
    exact O3.table_ok (by show l % 2 ≤ 1; omega) (by show l ≤ M; omega)
  have hcg' : ∀ m ∈ rin.irreps, ∀ n ∈ rout.irreps, (((O3.kgroup W M cg).tensor m n).map Prod.fst).Nodup ∧ ∀ p ∈ (O3.kgroup W M cg).tensor m n, (O3.kgroup W M cg).T.ok p.1 = true ∧
      ((O3.kgroup W M cg).cg n m p.1).mult = p.2 ∧
      ∀ g, O3El g → Intertwines ((O3.kgroup W M cg).T.mat n g) ((O3.kgroup W M cg).T.mat m g) ((O3.kgroup W M cg).T.mat p.1 g) ((O3.kgroup W M cg).cg n m p.1) := by
    intro m hm n hn
    have h := hcg m hm n hn
    have e : (O3.kgroup W M cg).tensor m n = O3.tensorIrreps n m := O3.tensorIrreps_comm m n
    rw [e]
    exact ⟨h.nodup, fun p hp => ⟨h.ok p hp, h.mult p hp, h.intertwines p hp⟩⟩
  have hE : EndoValid (O3.kgroup W M cg).T (O3.kgroup W M cg).typ O3El := C18_real_type _ hT fun i _ => by show 0 < (O3.table W M).size i; rw [O3.table_size]; omega
  have hpair : L = none → filter = none → ∀ m ∈ rin.irreps, ∀ n ∈ rout.irreps, (((O3.tensorIrreps m n).map fun e => F.mult e.1 * e.2 * 1).sum) =
      radii.length * ((List.range' ((m.2 : ℤ) - n.2).natAbs (m.2 + n.2 + 1 - ((m.2 : ℤ) - n.2).natAbs)).filter fun k => (m.1 + n.1) % 2 = k % 2).length := by
    intro hLn hfn m hm n hn
    subst hfn
    have hle := hmax hLn m hm n hn
    have hmult : ∀ l, l ≤ L' → ∀ j, F.mult (j, l) = if j = l % 2 then radii.length else 0 := by
      intro l hl j
      split_ifs with hj
      · have := Shells.lookup_js (sph_table_ok (W := W) (M := M)) hb (j := l) (by omega)
        rw [hj]
        refine Eq.trans this ?_
        simp [Shells.kept]
      · show (FType.lookupLast F.js (j, l)).getD 0 = 0
        rw [lookupLast_absent]
        · rfl
        · rw [hmap]
          intro h
          obtain ⟨l', -, e⟩ := List.mem_map.1 h
          have e1 := congrArg Prod.fst e
          have e2 := congrArg Prod.snd e
          simp only at e1 e2
          subst e2
          exact hj e1.symm
    unfold O3.tensorIrreps
    simp only [List.map_map]
    have hbnd : ∀ k ∈ List.range' ((m.2 : ℤ) - n.2).natAbs (m.2 + n.2 + 1 - ((m.2 : ℤ) - n.2).natAbs), k ≤ L' := fun k hk => by
      rw [List.mem_range'_1] at hk
      omega
    generalize List.range' ((m.2 : ℤ) - n.2).natAbs (m.2 + n.2 + 1 - ((m.2 : ℤ) - n.2).natAbs) = ks at hbnd ⊢
    induction ks with
    | nil => simp
    | cons k ks ih =>
      rw [List.map_cons, List.sum_cons, ih fun k' hk' => hbnd k' (List.mem_cons_of_mem _ hk')]
      simp only [Function.comp_apply, mul_one]
      rw [hmult k (hbnd k (List.mem_cons_self ..))]
      by_cases hp : (m.1 + n.1) % 2 = k % 2
      · rw [if_pos hp, List.filter_cons_of_pos (by simpa using hp), List.length_cons]; ring
      · rw [if_neg hp, List.filter_cons_of_neg (by simpa using hp), zero_add]
  rcases SKB.C38_wigner_eckart (O3.kgroup W M cg) F rin rout (0, 0) hT hE hin hout hcg' hFn hFok hst with h | ⟨s, g1, g2, g3, g4, g5⟩
  · left
    refine ⟨hstep (bind_eq h1 (by rw [show SKB.init (O3.table W M).size (0, 0) F (WE.init (O3.kgroup W M cg) F) rin rout = _ from h.1]; rfl)), fun hLn hfn _ => ?_⟩
    refine List.sum_eq_zero fun x hx => ?_
    obtain ⟨m, hm, rfl⟩ := List.mem_map.1 hx
    refine List.sum_eq_zero fun x hx => ?_
    obtain ⟨n, hn, rfl⟩ := List.mem_map.1 hx
    rw [← hpair hLn hfn m hm n hn]
    rcases WE.init_spec (O3.kgroup W M cg) F m n hT hE (hin.ok m hm) (fun p hp => ((hcg' m hm n hn).2 p hp).1) (hcg' m hm n hn).1 (fun p hp => ((hcg' m hm n hn).2 p hp).2) hFn with h' | ⟨b, h', -⟩
    · exact h'.2
    · rw [h.2 m hm n hn] at h'; simp at h'
  · right
    refine ⟨s, F, hstep (bind_eq h1 (bind_eq g1 rfl)), g2, g3, fun hLn hfn => ?_, g5⟩
    rw [g4]
    congr 1
    refine List.map_congr_left fun m hm => ?_
    congr 1
    exact List.map_congr_left fun n hn => hpair hLn hfn m hm n hn

section Subgroup

variable {H J' : Type} [DecidableEq J'] {El : H → Prop} {op : H → H → H} {one : H}

/-- **C81** for a subgroup of O(3) which is realised as the group of the matrices `Aᵀ ρ(h) A`, when the irreps of O(3) are restricted correctly: every kernel of `kernels_O3_subgroup_act_R3` is steerable
under these matrices. -/
theorem C81_subgroup (hW : ∀ l, l ≠ 0 → l ≤ M → Wigner l (W l)) (hL : L ≤ M) (hlaw : ∀ k, k + 2 ≤ L → HarmonicLaw W M cg k) (K : KGroup H J') (trivial : J')
    (ri : ℕ × ℕ → Except Err (NpMat ℝ × List J')) {P : H → Except Err O3.Elem} {Ch : O3.Elem → Except Err (Option H)} {A : Mat3} {ρ : H → Mat3} {eqH : H → H → Prop} {mulH : H → H → H}
    (hP : RealisesAs O3El act3 El eqH mulH A ρ P Ch) (hone : El one) (hR : RestrictsCorrectly (O3.table W M) K.T El P ri) (rin rout : Rep H J') (radii sigma : List ℝ)
    (filter : Option (ℕ × ℕ → ℕ → Bool)) (junk : ℕ → ℝ) (hT : K.T.Valid El op one) (hE : EndoValid K.T K.typ El) (hin : rin.WF K.T El) (hout : rout.WF K.T El)
    (hcg : ∀ m ∈ rin.irreps, ∀ n ∈ rout.irreps, ∀ p ∈ K.tensor m n, K.T.ok p.1 = true ∧ ∀ g, El g → Intertwines (K.T.mat n g) (K.T.mat m g) (K.T.mat p.1 g) (K.cg n m p.1))
    (hlen : radii.length = sigma.length) (hr : ∀ r ∈ radii, 0 ≤ r) (hs : ∀ s ∈ sigma, 0 < s) :
    (kernelsO3Subgroup W M cg K (restrictedIrrep3 W M K.T "O(3)" trivial ri) rin rout radii sigma L filter junk = .error .emptyBasis ∧
      (filter = none → radii ≠ [] → ∀ m ∈ rin.irreps, ∀ n ∈ rout.irreps, ∀ l ≤ L, ∀ p ∈ K.tensor m n, p.1 ∈ (restrictedIrrep3 W M K.T "O(3)" trivial ri (l % 2, l)).irreps → (K.cg n m p.1).mult = 0)) ∨
    ∃ s F, kernelsO3Subgroup W M cg K (restrictedIrrep3 W M K.T "O(3)" trivial ri) rin rout radii sigma L filter junk = .ok (s, F) ∧ s.rows = rout.size ∧ s.cols = rin.size ∧ 0 < s.dim ∧
      ∀ e < s.dim, SteerableKernel El (fun h p => Matrix.mulVec (A.transpose * ρ h * A) p) rin.mat rout.mat fun x => SKB.sample (O3.table W M).size F s x e := by
  have hTO := O3.table_valid hW
  rcases C81_steerable hW hL hlaw radii sigma hlen hr hs filter junk with ⟨h, h0⟩ | ⟨b, cobs, h1, hb, -, hjs, -, hst⟩
  · refine .inl ⟨?_, fun hf hr => absurd (h0 hf) hr⟩
    unfold kernelsO3Subgroup
    rw [h]; rfl
  set F := sphericalBasis junk b cobs radii sigma with hF
  have hmap : F.js.map Prod.fst = (List.range (L + 1)).map (fun l => (l % 2, l)) := hjs
  have hFn : (F.js.map Prod.fst).Nodup := by
    rw [hmap]
    exact List.Nodup.map_on (fun x _ y _ e => congrArg Prod.snd e) List.nodup_range
  set res := restrictedIrrep3 W M K.T "O(3)" trivial ri with hresd
  have hres : ∀ e ∈ F.js, (res e.1).WF K.T El ∧ (res e.1).size = (O3.table W M).size e.1 ∧ ∀ h g, El h → P h = .ok g → (res e.1).mat h ≈ (O3.table W M).mat e.1 g := by
    intro e he
    have : e.1 ∈ F.js.map Prod.fst := List.mem_map.2 ⟨e, he, rfl⟩
    rw [hmap] at this
    obtain ⟨l, hl, he'⟩ := List.mem_map.1 this
    rw [List.mem_range] at hl
    have hok : (O3.table W M).ok e.1 = true := by
      rw [← he']
      exact O3.table_ok (by show l % 2 ≤ 1; omega) (by show l ≤ M; omega)
    obtain ⟨r', h1, h2, h3, -, h5⟩ := C13_restrict (O3.table W M) K.T O3El El op one P ri _ _ hTO hT hone
      (fun h g hh hg => by
        obtain ⟨g', e1, e2, -⟩ := hP.parent_ok h hh
        rw [hg] at e1
        rw [Except.ok.inj e1]; exact e2) hR [] "O(3)" trivial _ (irrepRep_wf hTO hok (by rw [O3.table_size]; omega) "irrep" ∅) (by simp)
    have : res e.1 = r' := by
      rw [hresd]
      unfold restrictedIrrep3
      rw [h1]
    rw [this]
    exact ⟨h2, h3, h5⟩
  rcases SKB.C38_restricted K F res P (fun h p => Matrix.mulVec (A.transpose * ρ h * A) p) rin rout (0, 0) hT hE hin hout hcg hFn hst
    (fun h hh => by
      obtain ⟨g, e1, e2, e3⟩ := hP.parent_ok h hh
      exact ⟨g, e1, e2, by rw [e3]⟩) hres with h | ⟨s, g1, g2, g3, g4, g5⟩
  · refine .inl ⟨?_, fun hf hr m hm n hn l hl p hp hmem => ?_⟩
    · unfold kernelsO3Subgroup
      exact bind_eq h1 (by rw [h.1]; rfl)
    subst hf
    rcases RWE.init_spec K F (O3.table W M).size res m n hT hE (hin.ok m hm) (fun p hp => (hcg m hm n hn p hp).1) (fun p hp => (hcg m hm n hn p hp).2) hFn
      (fun e he => ⟨(hres e he).1, (hres e he).2.1⟩) with h' | ⟨b', h', -⟩
    · have hx : ((l % 2, l), radii.length) ∈ F.js := by
        show _ ∈ b.js
        rw [(Shells.init_spec (sph_table_ok (W := W) (M := M)) hb).2.2.2.1]
        exact List.mem_map.2 ⟨l, List.mem_range.2 (by omega), by simp [Shells.kept, ShellKind.id, ShellKind.sph]⟩
      have h1 := List.sum_eq_zero_iff.1 h'.2 _ (List.mem_map.2 ⟨_, hx, rfl⟩)
      have hn : 0 < radii.length := List.length_pos_of_ne_nil hr
      have h2 := List.sum_eq_zero_iff.1 ((Nat.mul_eq_zero.1 h1).resolve_left hn.ne') _ (List.mem_map.2 ⟨p, hp, rfl⟩)
      have h3 : 0 < (res (l % 2, l)).irreps.count p.1 := List.count_pos_iff.2 hmem
      have h4 : 0 < (K.typ p.1).sumsq := by cases K.typ p.1 <;> simp [IrrType.sumsq]
      rcases Nat.mul_eq_zero.1 h2 with h5 | h5
      · exact (Nat.mul_eq_zero.1 h5).resolve_left h3.ne'
      · omega
    · rw [h.2 m hm n hn] at h'; simp at h'
  · right
    refine ⟨s, F, ?_, g2, g3, ?_, g5⟩
    · unfold kernelsO3Subgroup
      exact bind_eq h1 (bind_eq g1 rfl)
    · have g1' := g1
      unfold SKB.init at g1'
      cases hc : SKB.cellsIn K.T.size (RWE.init K F (O3.table W M).size res) rout.irreps 0 0 rin.irreps with
      | error e => rw [hc] at g1'; simp [bind, Except.bind] at g1'
      | ok cells =>
        rw [hc] at g1'
        simp only [bind, Except.bind] at g1'
        split_ifs at g1' with hd
        rw [← Except.ok.inj g1']
        exact Nat.pos_of_ne_zero hd

end Subgroup

end Escnn
