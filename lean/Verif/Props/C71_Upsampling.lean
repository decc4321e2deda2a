import Verif.Lemmas.Upsampling
import Verif.Props.C43_Plane

/-!
# C71: upsampling commutes with the symmetries of the grid
-/

namespace Escnn

open NpMat NdArr

namespace Upsampling

variable {n : ℕ} {B G J S : Type} {T : IrrepTable G J} {El : G → Prop} {op : G → G → G} {one : G}

/-- What the constructor accepts. -/
theorem init_spec {gdim : S → ℕ} {t : FType S (Rep G J)} {scale : Option ℚ} {size : Option (Fin n → ℕ)} {mode : String} {align : Bool} {m : Upsampling n S (Rep G J)}
    (h : init gdim t scale size mode align = .ok m) :
    m = ⟨t, size, scale, mode, if mode ≠ "nearest" then some align else none⟩ ∧ (size = none ∨ scale = none) ∧ (mode = "nearest" ∨ (n = 2 ∧ mode = "bilinear") ∨ (n = 3 ∧ mode = "trilinear")) := by
  unfold init at h
  split_ifs at h with h1 h2 h3 h4 h5
  · exact ⟨by rw [if_pos h5]; exact (Except.ok.inj h).symm, h3, h4⟩
  · exact ⟨by rw [if_neg h5]; exact (Except.ok.inj h).symm, h3, h4⟩

/-- **C71** Which arguments the constructors accept, and which modules they make: a space of the right dimension, not both a size and a scale factor, and a mode of the dimension. -/
theorem C71_init {gdim : S → ℕ} {t : FType S (Rep G J)} {scale : Option ℚ} {size : Option (Fin n → ℕ)} {mode : String} {align : Bool} {m : Upsampling n S (Rep G J)} :
    init gdim t scale size mode align = .ok m ↔
      (m = ⟨t, size, scale, mode, if mode = "nearest" then none else some align⟩ ∧ gdim t.gspace = n ∧ (size = none ∨ scale = none) ∧
        ((n = 2 ∧ (mode = "nearest" ∨ mode = "bilinear")) ∨ (n = 3 ∧ (mode = "nearest" ∨ mode = "trilinear")))) := by
  unfold init
  constructor
  · intro h
    split_ifs at h with h1 h2 h3 h4 h5 <;> cases h
    · refine ⟨by rw [if_neg h5], not_not.1 h2, by tauto, ?_⟩
      have : n = 2 ∨ n = 3 := by omega
      tauto
    · refine ⟨by rw [if_pos (not_not.1 h5)], not_not.1 h2, by tauto, ?_⟩
      have : n = 2 ∨ n = 3 := by omega
      tauto
  · rintro ⟨rfl, h2, h3, h4⟩
    rw [if_neg (by omega), if_neg (not_not.2 h2), if_neg (not_not.2 h3), if_neg (by tauto)]
    by_cases h : mode = "nearest" <;> simp [h]

example : init (fun _ : Unit => 3) (⟨(), []⟩ : FType Unit (Rep ℤ ℕ)) none (some fun _ : Fin 3 => 2) "trilinear" false = .ok ⟨⟨(), []⟩, some fun _ => 2, none, "trilinear", some false⟩ :=
  C71_init.2 ⟨by rw [if_neg (by decide)], rfl, .inr rfl, .inr ⟨rfl, .inr rfl⟩⟩

theorem interpolate_ok {size : Option (Fin n → ℕ)} {scale : Option ℚ} {mode : String} {align : Option Bool} {x : FMap n B} (h1 : size.isSome ≠ scale.isSome) (h2 : ∀ i, 0 < x.shape i)
    (h3 : ∀ i, 0 < interpSize size scale i (x.shape i)) (h4 : (mode = "nearest" ∧ align = none) ∨ (mode = "bilinear" ∧ n = 2) ∨ (mode = "trilinear" ∧ n = 3)) :
    ∃ y, interpolate size scale mode align x = .ok y ∧ y.chans = x.chans := by
  unfold interpolate
  rw [if_neg h1, if_neg (not_not.2 ⟨h2, h3⟩)]
  rcases h4 with ⟨rfl, rfl⟩ | h4
  · rw [if_pos rfl, if_neg (by simp)]
    exact ⟨_, rfl, rfl⟩
  · have : mode ≠ "nearest" := by rcases h4 with ⟨rfl, -⟩ | ⟨rfl, -⟩ <;> decide
    rw [if_neg this, if_pos h4]
    exact ⟨_, rfl, rfl⟩

theorem forward_ok {m : Upsampling n S (Rep G J)} {x y : FMap n B} (h : interpolate m.size m.scale m.mode m.align x = .ok y) (hy : y.chans = m.inType.size Rep.size) :
    m.forward Rep.size ⟨x, m.inType⟩ = .ok ⟨y, m.inType⟩ := by
  unfold forward
  rw [if_neg (by simp)]
  show (interpolate m.size m.scale m.mode m.align x >>= _) = _
  rw [h]
  exact if_pos hy

/-- The general case: the sizes of the output are moved like those of the input, and along each mirrored axis the sampling points are symmetric. -/
theorem equivariant (hT : T.Valid El op one) {m : Upsampling n S (Rep G J)} (hwf : ∀ r ∈ m.inType.reprs, r.WF T El) (base : G → NpMat ℝ)
    (interp : NdArr n (B × ℕ) → NpMat ℝ → Except Err (NdArr n (B × ℕ))) {g : G} (hg : El g) {σ : Equiv.Perm (Fin n)} {ε : Fin n → ℝ} (hS : Signed n (base g) σ ε) {x y : FMap n B}
    (hx : x.chans = m.inType.size Rep.size) (hy : interpolate m.size m.scale m.mode m.align x = .ok y) (hyc : y.chans = x.chans)
    (hu : ∀ i j W, interpSize m.size m.scale j W = interpSize m.size m.scale i W)
    (hn : m.mode = "nearest" → ∀ i, (∀ t, m.scale = some t → 0 < t ∧ (interpSize m.size m.scale i (x.shape i) : ℚ) = x.shape i * t) ∧ x.shape i ∣ interpSize m.size m.scale i (x.shape i))
    (hl : m.mode ≠ "nearest" → ∀ i, InterpFit (m.align.getD false) m.scale (x.shape i) (interpSize m.size m.scale i (x.shape i))) :
    ∃ gx gy gy', m.forward Rep.size ⟨x, m.inType⟩ = .ok ⟨y, m.inType⟩ ∧ GMap.transform base interp ⟨x, m.inType⟩ g = .ok ⟨gx, m.inType⟩ ∧ m.forward Rep.size ⟨gx, m.inType⟩ = .ok ⟨gy, m.inType⟩ ∧
      GMap.transform base interp ⟨y, m.inType⟩ g = .ok ⟨gy', m.inType⟩ ∧ gy ≈ gy' := by
  obtain ⟨gx, h1, h2⟩ := GMap.transform_moved hT hwf base interp hg hS x hx
  obtain ⟨gy, h3, h4⟩ := h2.interpolate hy (fun i W => hu _ _ W) (fun h i => ⟨(hn h i).1, fun _ => (hn h i).2⟩) fun h i _ => hl h i
  obtain ⟨gy', h5, h6⟩ := GMap.transform_moved hT hwf base interp hg hS y (hyc.trans hx)
  exact ⟨gx, gy, gy', forward_ok hy (hyc.trans hx), h1, forward_ok h3 (h4.chans.trans (hyc.trans hx)), h5, h4.unique h6⟩

/-- **C71** With a positive integer `scale_factor` every mode commutes with the elements which act on the grid by a signed permutation matrix, for each choice of `align_corners`, every field type and every feature map
(which need not be square). -/
theorem C71_scale (hT : T.Valid El op one) {gdim : S → ℕ} {t : FType S (Rep G J)} (hwf : ∀ r ∈ t.reprs, r.WF T El) {s : ℕ} (hs : 0 < s) {mode : String} {align : Bool} {m : Upsampling n S (Rep G J)}
    (hm : init gdim t (some (s : ℚ)) none mode align = .ok m) (base : G → NpMat ℝ) (interp : NdArr n (B × ℕ) → NpMat ℝ → Except Err (NdArr n (B × ℕ))) {g : G} (hg : El g) (hM : IsSignedPerm n (base g))
    (x : FMap n B) (hx : x.chans = t.size Rep.size) (hpos : ∀ i, 0 < x.shape i) :
    ∃ y gx gy gy', m.forward Rep.size ⟨x, t⟩ = .ok ⟨y, t⟩ ∧ GMap.transform base interp ⟨x, t⟩ g = .ok ⟨gx, t⟩ ∧ m.forward Rep.size ⟨gx, t⟩ = .ok ⟨gy, t⟩ ∧
      GMap.transform base interp ⟨y, t⟩ g = .ok ⟨gy', t⟩ ∧ gy ≈ gy' := by
  obtain ⟨hMr, hMc, σ, ε, hε, hMg⟩ := hM
  have hS : Signed n (base g) σ ε := ⟨hMr, hMc, hε, hMg⟩
  obtain ⟨rfl, -, hmode⟩ := init_spec hm
  have hsz : ∀ (i : Fin n) (W : ℕ), interpSize none (some (s : ℚ)) i W = W * s := fun i W => by
    show ⌊(W : ℚ) * (s : ℚ)⌋.toNat = _
    rw [← Nat.cast_mul, Int.floor_natCast]
    rfl
  obtain ⟨y, hy, hyc⟩ := interpolate_ok (size := none) (scale := some (s : ℚ)) (mode := mode) (align := if mode ≠ "nearest" then some align else none) (x := x) (by simp) hpos
    (fun i => by rw [hsz]; exact Nat.mul_pos (hpos i) hs) (by
      by_cases h : mode = "nearest"
      · exact .inl ⟨h, by rw [if_neg (not_not.2 h)]⟩
      · tauto)
  obtain ⟨gx, gy, gy', h⟩ := equivariant (m := ⟨t, none, some (s : ℚ), mode, if mode ≠ "nearest" then some align else none⟩) hT hwf base interp hg hS hx hy hyc (fun i j W => by rw [hsz, hsz])
    (fun _ i => by
      simp only [hsz]
      refine ⟨fun u hu => ?_, dvd_mul_right _ _⟩
      obtain rfl := Option.some.inj hu
      exact ⟨by exact_mod_cast hs, by push_cast; rfl⟩)
    (fun hne i => by
      simp only [hsz]
      have hmd : mode ≠ "nearest" := hne
      rw [if_pos hmd, Option.getD_some]
      unfold InterpFit
      have := hpos i
      split_ifs with ha
      · by_cases h1 : x.shape i = 1
        · exact .inr h1
        · exact .inl (lt_of_lt_of_le (by omega : 1 < x.shape i) (Nat.le_mul_of_pos_right _ hs))
      · intro u hu
        obtain rfl := Option.some.inj hu
        exact ⟨by exact_mod_cast hs, by push_cast; rfl⟩)
  exact ⟨y, gx, gy, gy', h⟩

/-- **C71** With the same `size` along each axis the linear modes commute with these elements (with `align_corners` the size must not be 1 unless the input has one pixel), and `nearest` does if each size of the input
divides the size of the output. -/
theorem C71_size (hT : T.Valid El op one) {gdim : S → ℕ} {t : FType S (Rep G J)} (hwf : ∀ r ∈ t.reprs, r.WF T El) {M : ℕ} (hM0 : 0 < M) {mode : String} {align : Bool} {m : Upsampling n S (Rep G J)}
    (hm : init gdim t none (some fun _ => M) mode align = .ok m) (base : G → NpMat ℝ) (interp : NdArr n (B × ℕ) → NpMat ℝ → Except Err (NdArr n (B × ℕ))) {g : G} (hg : El g) (hM : IsSignedPerm n (base g))
    (x : FMap n B) (hx : x.chans = t.size Rep.size) (hpos : ∀ i, 0 < x.shape i) (hnear : mode = "nearest" → ∀ i, x.shape i ∣ M) (hcorner : mode ≠ "nearest" → align = true → ∀ i, 1 < M ∨ x.shape i = 1) :
    ∃ y gx gy gy', m.forward Rep.size ⟨x, t⟩ = .ok ⟨y, t⟩ ∧ GMap.transform base interp ⟨x, t⟩ g = .ok ⟨gx, t⟩ ∧ m.forward Rep.size ⟨gx, t⟩ = .ok ⟨gy, t⟩ ∧
      GMap.transform base interp ⟨y, t⟩ g = .ok ⟨gy', t⟩ ∧ gy ≈ gy' := by
  obtain ⟨hMr, hMc, σ, ε, hε, hMg⟩ := hM
  have hS : Signed n (base g) σ ε := ⟨hMr, hMc, hε, hMg⟩
  obtain ⟨rfl, -, hmode⟩ := init_spec hm
  obtain ⟨y, hy, hyc⟩ := interpolate_ok (size := some fun _ => M) (scale := none) (mode := mode) (align := if mode ≠ "nearest" then some align else none) (x := x) (by simp) hpos (fun i => hM0) (by
      by_cases h : mode = "nearest"
      · exact .inl ⟨h, by rw [if_neg (not_not.2 h)]⟩
      · tauto)
  obtain ⟨gx, gy, gy', h⟩ := equivariant (m := ⟨t, some fun _ => M, none, mode, if mode ≠ "nearest" then some align else none⟩) hT hwf base interp hg hS hx hy hyc (fun i j W => rfl)
    (fun hne i => ⟨fun u hu => by simp at hu, hnear hne i⟩)
    (fun hne i => by
      have hmd : mode ≠ "nearest" := hne
      simp only [if_pos hmd, Option.getD_some]
      unfold InterpFit
      split_ifs with ha
      · exact hcorner hmd ha i
      · intro u hu
        simp at hu)
  exact ⟨y, gx, gy, gy', h⟩

/-- Scalar fields of `C_4`. -/
noncomputable def scalars : FType Unit (Rep ℤ ℕ) := ⟨(), [irrepRep (Cyclic.table 4) "irrep_0" ∅ 0]⟩

theorem scalars_size : scalars.size Rep.size = 1 := by simp [scalars, FType.size_eq, irrepRep, Rep.size, eye, Cyclic.table, Cyclic.irrepSize]

theorem scalars_wf : ∀ r ∈ scalars.reprs, r.WF (Cyclic.table 4) fun g => Cyclic.isElement 4 g = true := by
  intro r hr
  obtain rfl : r = _ := List.mem_singleton.1 hr
  exact irrepRep_wf (Cyclic.table_valid 4 (by norm_num)) rfl (by decide) _ _

/-- The half turn of a scalar image. -/
theorem half_turn (interp : NdArr 2 (B × ℕ) → NpMat ℝ → Except Err (NdArr 2 (B × ℕ))) (x : FMap 2 B) (hx : x.chans = 1) :
    ∃ y, GMap.transform (Cyclic.irrepMat 4 1) interp ⟨x, scalars⟩ 2 = .ok ⟨y, scalars⟩ ∧ y.chans = 1 ∧ y.shape = x.shape ∧
      ∀ b, ∀ k ∈ Box y.shape, y.get b 0 k = x.get b 0 fun i => x.shape i - 1 - k i := by
  have hS : Signed 2 (Cyclic.irrepMat 4 1 2) 1 fun _ => -1 := by
    have e0 : Cyclic.irrepMat 4 1 2 = psi (Cyclic.radians 4 2) 1 := by simp [Cyclic.irrepMat]
    have e1 : Cyclic.radians 4 2 = Real.pi := by unfold Cyclic.radians; push_cast; ring
    rw [e0, e1]
    refine ⟨rfl, rfl, fun _ => .inr rfl, fun i j => ?_⟩
    fin_cases i <;> fin_cases j <;> simp [psi, of2]
  have hg : Cyclic.isElement 4 2 = true := by decide
  obtain ⟨y, h1, h2⟩ := GMap.transform_moved (Cyclic.table_valid 4 (by norm_num)) scalars_wf (Cyclic.irrepMat 4 1) interp hg hS x (hx.trans scalars_size.symm)
  have hp : arrPerm (1 : Equiv.Perm (Fin 2)) = 1 := by
    ext i
    simp [arrPerm_apply]
  have hd : ∀ i, arrSign (1 : Equiv.Perm (Fin 2)) (fun _ => -1) i = -1 := by
    intro i
    unfold arrSign
    rw [hp]
    rcases axisSign_cases i with h | h <;> simp [h]
  refine ⟨y, h1, h2.chans.trans hx, funext fun i => by rw [h2.shape, hp]; rfl, fun b k hk => ?_⟩
  rw [h2.get b 0 (by omega) k hk, hx, Finset.sum_range_one]
  have e : source x.shape (arrPerm 1) (arrSign 1 fun _ => -1) k = fun i => x.shape i - 1 - k i := by
    funext i
    unfold source
    rw [hd, if_pos rfl, hp]
    rfl
  rw [e]
  have : (scalars.fiberRep 2).get 0 0 = 1 := by
    simp [scalars, FType.fiberRep, irrepRep, Cyclic.table, Cyclic.irrepMat, blockDiag, eye, mul, diag2]
  rw [this, one_mul]

/-- **C71** For the half turn and `mode="nearest"` the condition is necessary: if the module commutes with it on all the scalar images of `W × W` pixels, then `W` divides the size of the output. -/
theorem C71_nearest_iff {W M : ℕ} (hW : 0 < W) (hM : 0 < M) {align : Bool} {m : Upsampling 2 Unit (Rep ℤ ℕ)} (hm : init (fun _ => 2) scalars none (some fun _ => M) "nearest" align = .ok m)
    (interp : NdArr 2 (Unit × ℕ) → NpMat ℝ → Except Err (NdArr 2 (Unit × ℕ))) :
    (∀ f : Unit → ℕ → (Fin 2 → ℕ) → ℝ, ∃ y gx gy gy', m.forward Rep.size ⟨⟨1, fun _ => W, f⟩, scalars⟩ = .ok ⟨y, scalars⟩ ∧
      GMap.transform (Cyclic.irrepMat 4 1) interp ⟨⟨1, fun _ => W, f⟩, scalars⟩ 2 = .ok ⟨gx, scalars⟩ ∧ m.forward Rep.size ⟨gx, scalars⟩ = .ok ⟨gy, scalars⟩ ∧
      GMap.transform (Cyclic.irrepMat 4 1) interp ⟨y, scalars⟩ 2 = .ok ⟨gy', scalars⟩ ∧ gy ≈ gy') ↔ W ∣ M := by
  constructor
  · intro h
    obtain ⟨rfl, -, -⟩ := init_spec hm
    rw [← nearest_rev_iff hW hM]
    intro o ho
    obtain ⟨y, gx, gy, gy', h1, h2, h3, h4, -, h6, h7⟩ := h fun _ _ k => k 0
    obtain ⟨gx', e1, e2, e3, e4⟩ := half_turn interp (⟨1, fun _ => W, fun _ _ k => k 0⟩ : FMap 2 Unit) rfl
    obtain rfl : gx = gx' := by
      rw [h2] at e1
      exact congrArg GMap.map (Except.ok.inj e1)
    have hn : ∀ x : FMap 2 Unit, x.chans = 1 → (x.shape = fun _ => W) → ∀ y, Upsampling.forward Rep.size ⟨scalars, some fun _ => M, none, "nearest", if "nearest" ≠ "nearest" then some align else none⟩ ⟨x, scalars⟩ =
        .ok ⟨y, scalars⟩ → y = ⟨1, fun _ => M, fun b c o => x.get b c fun i => nearestIndex none W M (o i)⟩ := by
      intro x hx hs y hy
      have : interpolate (some fun _ => M) none "nearest" (if "nearest" ≠ "nearest" then some align else none) x = .ok ⟨1, fun _ => M, fun b c o => x.get b c fun i => nearestIndex none W M (o i)⟩ := by
        unfold interpolate
        rw [if_neg (by simp), if_neg (not_not.2 ⟨fun i => by rw [hs]; exact hW, fun _ => hM⟩), if_pos rfl, if_neg (by simp)]
        simp only [hx, hs, interpSize]
      have h' := forward_ok (m := ⟨scalars, some fun _ => M, none, "nearest", if "nearest" ≠ "nearest" then some align else none⟩) this scalars_size.symm
      rw [h'] at hy
      exact (congrArg GMap.map (Except.ok.inj hy)).symm
    obtain rfl := hn _ rfl rfl _ h1
    obtain rfl := hn _ e2 e3 _ h3
    obtain ⟨gy2, f1, f2, f3, f4⟩ := half_turn interp (⟨1, fun _ => M, fun _ _ o => ((nearestIndex none W M (o 0) : ℕ) : ℝ)⟩ : FMap 2 Unit) rfl
    obtain rfl : gy' = gy2 := by
      rw [h4] at f1
      exact congrArg GMap.map (Except.ok.inj f1)
    have h8 := h7 () 0 Nat.one_pos (fun _ => M - 1 - o) fun i => show M - 1 - o < M by omega
    have hl : nearestIndex none W M (M - 1 - o) < W := by
      unfold nearestIndex
      omega
    rw [f4 () _ (by rw [f3]; exact fun i => show M - 1 - o < M by omega)] at h8
    simp only at h8
    rw [e4 () _ (by rw [e3]; exact fun i => hl)] at h8
    simp only [Nat.cast_inj] at h8
    have e : ∀ o < M, nearestIndex none W M o = o * W / M := fun o ho => nearestIndex_div hM (by simp) ho hW
    rw [show M - 1 - (M - 1 - o) = o by omega, e o ho] at h8
    rw [e _ (by omega)] at h8 hl
    generalize (M - 1 - o) * W / M = u at h8 hl ⊢
    generalize o * W / M = v at h8 ⊢
    omega
  · intro h f
    exact C71_size (Cyclic.table_valid 4 (by norm_num)) scalars_wf hM hm _ interp (by decide) (Cyclic.signedPerm 2) ⟨1, fun _ => W, f⟩ scalars_size.symm (fun _ => hW) (fun _ _ => h) (by simp)

/-- **C71** `mode="nearest"` does not commute with the half turn when an image of 2 × 2 pixels is resized to 3 × 3. -/
theorem C71_nearest_violated : ¬ ∀ (m : Upsampling 2 Unit (Rep ℤ ℕ)), init (fun _ => 2) scalars none (some fun _ => 3) "nearest" false = .ok m →
    ∀ f : Unit → ℕ → (Fin 2 → ℕ) → ℝ, ∃ y gx gy gy', m.forward Rep.size ⟨⟨1, fun _ => 2, f⟩, scalars⟩ = .ok ⟨y, scalars⟩ ∧
      GMap.transform (Cyclic.irrepMat 4 1) (fun _ _ => .error .notImplemented) ⟨⟨1, fun _ => 2, f⟩, scalars⟩ 2 = .ok ⟨gx, scalars⟩ ∧ m.forward Rep.size ⟨gx, scalars⟩ = .ok ⟨gy, scalars⟩ ∧
      GMap.transform (Cyclic.irrepMat 4 1) (fun _ _ => .error .notImplemented) ⟨y, scalars⟩ 2 = .ok ⟨gy', scalars⟩ ∧ gy ≈ gy' := by
  intro h
  have := (C71_nearest_iff (W := 2) (M := 3) (by norm_num) (by norm_num) (align := false) rfl fun _ _ => .error .notImplemented).1 (h _ rfl)
  omega

/-- **C71** With `align_corners=True` and the size 1 the output is the first pixel of the image, whatever its size: the module does not commute with the half turn. -/
theorem C71_align_violated {W : ℕ} (hW : 1 < W) : ¬ ∀ (m : Upsampling 2 Unit (Rep ℤ ℕ)), init (fun _ => 2) scalars none (some fun _ => 1) "bilinear" true = .ok m →
    ∀ f : Unit → ℕ → (Fin 2 → ℕ) → ℝ, ∃ y gx gy gy', m.forward Rep.size ⟨⟨1, fun _ => W, f⟩, scalars⟩ = .ok ⟨y, scalars⟩ ∧
      GMap.transform (Cyclic.irrepMat 4 1) (fun _ _ => .error .notImplemented) ⟨⟨1, fun _ => W, f⟩, scalars⟩ 2 = .ok ⟨gx, scalars⟩ ∧ m.forward Rep.size ⟨gx, scalars⟩ = .ok ⟨gy, scalars⟩ ∧
      GMap.transform (Cyclic.irrepMat 4 1) (fun _ _ => .error .notImplemented) ⟨y, scalars⟩ 2 = .ok ⟨gy', scalars⟩ ∧ gy ≈ gy' := by
  intro h
  obtain ⟨y, gx, gy, gy', h1, h2, h3, h4, -, h6, h7⟩ := h ⟨scalars, some fun _ => 1, none, "bilinear", some true⟩ rfl fun _ _ k => k 0
  obtain ⟨gx', e1, e2, e3, e4⟩ := half_turn (fun _ _ => .error .notImplemented) (⟨1, fun _ => W, fun _ _ k => k 0⟩ : FMap 2 Unit) rfl
  obtain rfl : gx = gx' := by
    rw [h2] at e1
    exact congrArg GMap.map (Except.ok.inj e1)
  have hn : ∀ x : FMap 2 Unit, x.chans = 1 → (x.shape = fun _ => W) → ∀ y, Upsampling.forward Rep.size ⟨scalars, some fun _ => 1, none, "bilinear", some true⟩ ⟨x, scalars⟩ = .ok ⟨y, scalars⟩ →
      y.chans = 1 ∧ y.shape = (fun _ => 1) ∧ ∀ b c, y.get b c (fun _ => 0) = x.get b c fun _ => 0 := by
    intro x hx hs y hy
    obtain ⟨z, hz, hz1, hz2⟩ : ∃ z, interpolate (some fun _ => 1) none "bilinear" (some true) x = .ok z ∧ z.chans = 1 ∧ (z.shape = fun _ => 1) ∧ ∀ b c, z.get b c (fun _ => 0) = x.get b c fun _ => 0 := by
      unfold interpolate
      rw [if_neg (by simp), if_neg (not_not.2 ⟨fun i => by rw [hs]; show 0 < W; omega, fun _ => Nat.one_pos⟩), if_neg (by decide), if_pos (by simp)]
      refine ⟨_, rfl, hx, rfl, fun b c => ?_⟩
      simp only [hs]
      have hw : ∀ k < W, interpWeight W (interpSource true (interpRatio true none W 1) 0) k = if k = 0 then 1 else 0 := by
        intro k hk
        have : interpSource true (interpRatio true none W 1) 0 = 0 := by simp [interpSource, interpRatio]
        rw [this, interpWeight_hat (by omega) le_rfl hk, min_eq_left (by rw [sub_nonneg]; exact_mod_cast hW.le)]
        split_ifs with h
        · simp [h]
        · have : (1 : ℝ) ≤ k := by exact_mod_cast Nat.one_le_iff_ne_zero.2 h
          rw [zero_sub, abs_neg, abs_of_nonneg (by linarith), max_eq_left (by linarith)]
      rw [Finset.sum_eq_single fun _ => 0]
      · simp only [Option.getD_some, interpSize]
        rw [Finset.prod_eq_one fun i _ => by rw [hw 0 (by omega), if_pos rfl], one_mul]
      · intro k hk hne
        obtain ⟨i, hi⟩ := Function.ne_iff.1 hne
        have hk' := Finset.mem_range.1 (Fintype.mem_piFinset.1 hk i)
        simp only [Option.getD_some, interpSize]
        rw [Finset.prod_eq_zero (Finset.mem_univ i) (by rw [hw _ hk', if_neg hi]), zero_mul]
      · intro h
        exact absurd (Fintype.mem_piFinset.2 fun i => Finset.mem_range.2 (show 0 < W by omega)) h
    have h' := forward_ok (m := ⟨scalars, some fun _ => 1, none, "bilinear", some true⟩) hz (hz1.trans scalars_size.symm)
    rw [h'] at hy
    obtain rfl : z = y := congrArg GMap.map (Except.ok.inj hy)
    exact ⟨hz1, hz2⟩
  obtain ⟨hyc, a1, a2⟩ := hn _ rfl rfl _ h1
  obtain ⟨b0, b1, b2⟩ := hn _ e2 e3 _ h3
  obtain ⟨gy2, f1, f2, f3, f4⟩ := half_turn (fun _ _ => .error .notImplemented) y hyc
  obtain rfl : gy' = gy2 := by
    rw [h4] at f1
    exact congrArg GMap.map (Except.ok.inj f1)
  have h8 := h7 () 0 (by rw [b0]; exact Nat.one_pos) (fun _ => 0) (by rw [b1]; exact fun i => Nat.one_pos)
  rw [f4 () _ (by rw [f3, a1]; exact fun i => Nat.one_pos), b2, e4 () _ (by rw [e3]; exact fun i => show 0 < W by omega)] at h8
  simp only [a1] at h8
  rw [a2] at h8
  simp only [Nat.sub_zero, Nat.cast_zero, Nat.cast_eq_zero] at h8
  omega

/-- An image of 5 × 8 pixels with a scalar and a vector field, enlarged three times, with `align_corners`. -/
example (f : Unit → ℕ → (Fin 2 → ℕ) → ℝ) (interp : NdArr 2 (Unit × ℕ) → NpMat ℝ → Except Err (NdArr 2 (Unit × ℕ))) (g : ℤ) (hg : Cyclic.isElement 4 g = true) :
    ∃ m, init (n := 2) (fun _ => 2) convDemo (some (3 : ℕ)) none "bilinear" true = .ok m ∧ ∃ y gx gy gy', m.forward Rep.size ⟨⟨3, ![5, 8], f⟩, convDemo⟩ = .ok ⟨y, convDemo⟩ ∧
      GMap.transform (Cyclic.irrepMat 4 1) interp ⟨⟨3, ![5, 8], f⟩, convDemo⟩ g = .ok ⟨gx, convDemo⟩ ∧ m.forward Rep.size ⟨gx, convDemo⟩ = .ok ⟨gy, convDemo⟩ ∧
      GMap.transform (Cyclic.irrepMat 4 1) interp ⟨y, convDemo⟩ g = .ok ⟨gy', convDemo⟩ ∧ gy ≈ gy' :=
  ⟨_, rfl, C71_scale (gdim := fun _ => 2) (mode := "bilinear") (align := true) (Cyclic.table_valid 4 (by norm_num)) convDemo_wf (s := 3) (by norm_num) rfl _ interp hg (Cyclic.signedPerm g) _ (by simp [convDemo, FType.size_eq, irrepRep, Rep.size, eye, Cyclic.table, Cyclic.irrepSize])
    (by intro i; fin_cases i <;> simp)⟩

end Upsampling

end Escnn
