import Verif.Model.Mask
import Verif.Lemmas.Equivariant
import Verif.Props.C43_Plane
import Verif.Props.C50_Gated

/-!
# C60: the mask depends on the distance to the centre, and masking commutes with the rotations and flips of the grid
-/

namespace Escnn

open NdArr

variable {d : ℕ} {B S G Id : Type} {El : G → Prop}

theorem mem_pixels {s : ℕ} : ∀ {d : ℕ} {k : Fin d → ℕ}, k ∈ pixels s d ↔ ∀ i, k i < s
  | 0, k => by
    simp only [pixels, List.mem_singleton]
    exact ⟨fun _ i => i.elim0, fun _ => funext fun i => i.elim0⟩
  | d + 1, k => by
    simp only [pixels, List.mem_flatMap, List.mem_range, List.mem_map]
    constructor
    · rintro ⟨a, ha, k', hk', rfl⟩ i
      refine Fin.cases ?_ (fun i => ?_) i
      · simpa using ha
      · simpa using mem_pixels.1 hk' i
    · intro h
      exact ⟨k 0, h 0, Fin.tail k, mem_pixels.2 fun i => h i.succ, Fin.cons_self_tail k⟩

/-- A loop which assigns a value to each index of a list. -/
theorem foldlM_update {K : Type} [DecidableEq K] (v : K → Except Err ℝ) (w : K → ℝ) : ∀ (ks : List K) (m : K → ℝ), (∀ k ∈ ks, v k = .ok (w k)) →
    ∃ m', (ks.foldlM (fun (m : K → ℝ) k => (do let a ← v k; .ok (Function.update m k a) : Except Err (K → ℝ))) m) = .ok m' ∧ (∀ k ∈ ks, m' k = w k) ∧ ∀ k, k ∉ ks → m' k = m k
  | [], m, _ => ⟨m, rfl, by simp, fun _ _ => rfl⟩
  | k :: ks, m, h => by
    obtain ⟨m', h1, h2, h3⟩ := foldlM_update v w ks (Function.update m k (w k)) fun k' hk' => h k' (List.mem_cons_of_mem _ hk')
    refine ⟨m', ?_, ?_, ?_⟩
    · simp only [List.foldlM_cons, h k List.mem_cons_self, bind, Except.bind]
      exact h1
    · intro k' hk'
      by_cases hm : k' ∈ ks
      · exact h2 k' hm
      · obtain rfl : k' = k := (List.mem_cons.1 hk').resolve_right hm
        rw [h3 k' hm, Function.update_self]
    · intro k' hk'
      simp only [List.mem_cons, not_or] at hk'
      rw [h3 k' hk'.2, Function.update_of_ne hk'.1]

/-- The square of the distance of a pixel to the centre of the grid. -/
theorem dist_coord (s : ℕ) (k : Fin d → ℕ) : ∑ i, ((k i : ℝ) - ((s : ℝ) - 1) / 2) ^ 2 = ∑ a, coord (fun _ => s) k a ^ 2 := by
  refine Fintype.sum_equiv Fin.revPerm _ _ fun i => ?_
  simp only [coord, Fin.revPerm_apply, Fin.rev_rev, mul_pow]
  split_ifs <;> ring

/-- **C60** For all sizes, dimensions, margins and `sigma ≠ 0` the mask has the given size, its value at each pixel is the value at the (squared) distance of the pixel to the centre of the grid of a function `f` which
does not depend on the pixel: `f` is 1 up to the radius `R = |(1 - margin / 100) (s - 1) / 2|` and `exp (-(r² - R²) / sigma²)` from there on. -/
theorem C60_mask (s d : ℕ) (margin sigma : ℝ) (hs : sigma ≠ 0) : ∃ (m : NdArr d Unit) (f : ℝ → ℝ), buildMask s d margin sigma = .ok m ∧ (∀ i, m.shape i = s) ∧
    (∀ k ∈ Box m.shape, m.get () k = f (∑ a, coord m.shape k a ^ 2)) ∧
    let R : ℝ := |(1 - margin / 100) * ((s - 1) / 2)|
    (∀ r, r ≤ R ^ 2 → f r = 1) ∧ (∀ r, R ^ 2 ≤ r → f r = Real.exp (-(r - R ^ 2) / sigma ^ 2)) ∧ Antitone f := by
  classical
  set c : ℝ := ((s : ℝ) - 1) / 2 with hc
  set t : ℝ := (c - margin / 100 * c) ^ 2 with ht
  let f : ℝ → ℝ := fun r => if r > t then Real.exp ((t - r) / sigma ^ 2) else 1
  have h2 : sigma ^ 2 ≠ 0 := pow_ne_zero 2 hs
  have hp : 0 < sigma ^ 2 := by positivity
  obtain ⟨m', e1, e2, -⟩ := foldlM_update (fun k => maskValue c t sigma k) (fun k => f (∑ i, ((k i : ℝ) - c) ^ 2)) (pixels s d) (fun _ => 0) (by
    intro k _
    simp only [maskValue, f, if_neg h2]
    split_ifs <;> rfl)
  have hRt : |(1 - margin / 100) * (((s : ℝ) - 1) / 2)| ^ 2 = t := by rw [sq_abs, ht, hc]; ring
  refine ⟨⟨fun _ => s, fun _ => m'⟩, f, ?_, fun _ => rfl, fun k hk => ?_, ?_, ?_, ?_⟩
  · simp only [buildMask, ← hc, ← ht, bind, Except.bind]
    simp only [bind, Except.bind] at e1
    rw [e1]
  · show m' k = _
    rw [e2 k (mem_pixels.2 hk), dist_coord]
  · intro r hr
    rw [hRt] at hr
    exact if_neg (not_lt.2 hr)
  · intro r hr
    rw [hRt] at hr ⊢
    rcases hr.eq_or_lt with h | h
    · simp only [f]
      rw [if_neg (by rw [h]; exact lt_irrefl _), ← h, sub_self, neg_zero, zero_div, Real.exp_zero]
    · simp only [f]
      rw [if_pos h, neg_sub]
  · intro r r' hr
    simp only [f]
    split_ifs with h1 h2 h2
    · exact Real.exp_le_exp.2 (div_le_div_of_nonneg_right (by linarith) hp.le)
    · exact Real.exp_le_one_iff.2 (div_nonpos_of_nonpos_of_nonneg (by linarith) hp.le)
    · exact absurd (lt_of_lt_of_le h2 hr) h1
    · exact le_refl _

/-- **C60** Masking commutes with the action for all elements of the group which preserve the grid: for all sizes, margins, types and inputs of the size of the mask. -/
theorem C60_equivariant {t : FType S (Rep G Id)} (ht : t.Square El) (s : ℕ) (margin sigma : ℝ) (hs : sigma ≠ 0) : ∃ m : MaskModule d S (Rep G Id), MaskModule.init t s margin sigma = .ok m ∧
    ∀ (base : G → NpMat ℝ) (interp : NdArr d (B × ℕ) → NpMat ℝ → Except Err (NdArr d (B × ℕ))) (x : GMap d B S (Rep G Id)), x.type = t → x.map.chans = t.size Rep.size → (∀ i, x.map.shape i = s) →
    ∀ g, El g → IsSignedPerm d (base g) → ∃ y gx gy gy', m.forward Rep.size x = .ok y ∧ y.type = t ∧ y.map.chans = t.size Rep.size ∧ x.transform base interp g = .ok gx ∧ m.forward Rep.size gx = .ok gy ∧
      y.transform base interp g = .ok gy' ∧ gy.type = gy'.type ∧ gy.map ≈ gy'.map := by
  obtain ⟨mask, f, e1, e2, e3, -⟩ := C60_mask s d margin sigma hs
  refine ⟨⟨t, mask⟩, by simp only [MaskModule.init, bind, Except.bind, e1], ?_⟩
  rintro base interp ⟨x, t'⟩ rfl hc hsh g hg ⟨hr, hcc, σ, ε, hε, hMg⟩
  simp only at hc hsh ht ⊢
  have hS : Signed d (base g) σ ε := ⟨hr, hcc, hε, hMg⟩
  have hms : mask.shape = fun _ => s := funext e2
  have hxs : x.shape = fun _ => s := funext hsh
  have hfw : ∀ y : FMap d B, y.chans = t'.size Rep.size → y.shape = (fun _ => s) →
      MaskModule.forward Rep.size ⟨t', mask⟩ ⟨y, t'⟩ = .ok ⟨⟨y.chans, y.shape, fun b c k => y.get b c k * mask.get () k⟩, t'⟩ := by
    intro y h1 h2
    unfold MaskModule.forward
    rw [if_pos rfl, if_pos (h2.trans hms.symm)]
    exact if_pos h1
  obtain ⟨gx, a1, a2, a3⟩ := transformFibers_act ht hg (⟨x.chans, x.get⟩ : FTensor B (Fin d → ℕ)) hc
  obtain ⟨gy, b1, b2, b3⟩ := transformFibers_act ht hg (⟨x.chans, fun b c k => x.get b c k * mask.get () k⟩ : FTensor B (Fin d → ℕ)) hc
  obtain ⟨s1, c1, c2⟩ := GMap.transform_square ht base interp hg hS x hc a1
  obtain ⟨s2, d1, d2⟩ := GMap.transform_square ht base interp hg hS ⟨x.chans, x.shape, fun b c k => x.get b c k * mask.get () k⟩ hc b1
  have hs1 : s1 = fun _ => s := by rw [c2, hxs]
  have hs2 : s2 = fun _ => s := by rw [d2]; simp only [hxs]
  refine ⟨_, _, _, _, hfw x hc hxs, rfl, hc, c1, hfw _ a2 hs1, d1, rfl, a2.trans b2.symm, hs1.trans hs2.symm, fun b c hcl k hk => ?_⟩
  simp only at hcl hk ⊢
  rw [hs1] at hk
  have hk' : ∀ i, k i < x.shape (arrPerm σ i) := fun i => by rw [hxs]; exact hk i
  have hkb := source_box (δ := arrSign σ ε) hk'
  have hmask : mask.get () k = mask.get () (source x.shape (arrPerm σ) (arrSign σ ε) k) := by
    rw [e3 k (by rw [hms]; exact hk), e3 _ (by rw [hms, ← hxs]; exact hkb), hms]
    congr 1
    refine Fintype.sum_equiv σ _ _ fun a => ?_
    have := coord_source (shape := x.shape) (σ := σ) hε hk' a
    rw [hxs] at this ⊢
    simp only at this ⊢
    rw [this, mul_pow]
    rcases hε a with h | h <;> rw [h] <;> ring
  rw [hmask, a2, FType.size_eq] at *
  obtain ⟨j, r, o, hj, ho, rfl⟩ := exists_field hcl
  rw [a3 j r hj b o _ ho, b3 j r hj b o _ ho, Finset.sum_mul]
  exact Finset.sum_congr rfl fun i _ => by ring

/-- A 3 × 3 mask: the corners are damped, all other pixels are kept. -/
example : ∃ m, buildMask 3 2 0 2 = .ok m ∧ m.get () ![0, 0] = Real.exp (-(1 / 4)) ∧ m.get () ![1, 2] = 1 := by
  obtain ⟨m, f, h1, h2, h3, h4, h5, -⟩ := C60_mask 3 2 0 2 (by norm_num)
  have hsh : m.shape = fun _ => 3 := funext h2
  refine ⟨m, h1, ?_, ?_⟩
  · rw [h3 _ (by rw [hsh]; intro i; fin_cases i <;> simp), hsh, h5]
    · congr 1
      simp [coord, Fin.sum_univ_two, Fin.rev]
      norm_num
    · simp [coord, Fin.sum_univ_two, Fin.rev]
      norm_num
  · rw [h3 _ (by rw [hsh]; intro i; fin_cases i <;> simp), hsh, h4]
    simp [coord, Fin.sum_univ_two, Fin.rev]
    norm_num

/-- Fields of the irreps 0 and 1 of `C_4` on the 5 × 5 grid, rotated by 90 degrees. -/
example (f : Unit → ℕ → (Fin 2 → ℕ) → ℝ) (interp : NdArr 2 (Unit × ℕ) → NpMat ℝ → Except Err (NdArr 2 (Unit × ℕ))) : ∃ (m : MaskModule 2 Unit (Rep ℤ ℕ)) (y gx gy gy' : GMap 2 Unit Unit (Rep ℤ ℕ)),
    MaskModule.init convDemo 5 10 2 = .ok m ∧ m.forward Rep.size ⟨⟨3, fun _ => 5, f⟩, convDemo⟩ = .ok y ∧ GMap.transform (Cyclic.irrepMat 4 1) interp ⟨⟨3, fun _ => 5, f⟩, convDemo⟩ 1 = .ok gx ∧
    m.forward Rep.size gx = .ok gy ∧ y.transform (Cyclic.irrepMat 4 1) interp 1 = .ok gy' ∧ gy.map ≈ gy'.map := by
  obtain ⟨m, h, h'⟩ := C60_equivariant (d := 2) (B := Unit) (El := fun g => Cyclic.isElement 4 g = true) (t := convDemo) (fun r hr g hg => (GatedNL.wf_square convDemo_wf) r hr g hg) 5 10 2 (by norm_num)
  obtain ⟨y, gx, gy, gy', h1, -, -, h2, h3, h4, -, h5⟩ := h' (Cyclic.irrepMat 4 1) interp ⟨⟨3, fun _ => 5, f⟩, convDemo⟩ rfl rfl (fun _ => rfl) 1 (by decide) (Cyclic.signedPerm 1)
  exact ⟨m, y, gx, gy, gy', h, h1, h2, h3, h4, h5⟩

end Escnn
