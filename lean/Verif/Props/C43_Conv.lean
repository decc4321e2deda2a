import Verif.Lemmas.Conv
import Verif.Lemmas.KernelIface
import Verif.Props.C42_Linear
import Verif.Props.C28_Modules
import Verif.Props.C65_KernelsR2

/-!
# C43: convolution with a steerable kernel is equivariant
-/

namespace Escnn

open NpMat NdArr

variable {n : ℕ} {B : Type}

/-- **C43** The points of `get_grid_coords` are closed under every signed permutation matrix (rotations by 90 degrees, reflections), for each dimension, kernel size and dilation. -/
theorem C43_grid (k dil : ℕ) (M : NpMat ℝ) (hM : IsSignedPerm n M) (p : Fin n → ℝ) (hp : p ∈ gridCoords n k dil) : (fun a : Fin n => ∑ b : Fin n, M.get a b * p b) ∈ gridCoords n k dil := by
  obtain ⟨i, hi, hpi⟩ := List.mem_iff_getElem.1 hp
  rw [gridCoords_length] at hi
  obtain ⟨v, rfl⟩ := exists_flatIndex hi
  obtain ⟨hr, hc, σ, ε, hε, hg⟩ := hM
  have hS : Signed n M σ ε := ⟨hr, hc, hε, hg⟩
  obtain ⟨u, rfl⟩ := (sourceFin_bij (k := k) (arrPerm σ) (arrSign σ ε)).2 v
  have h1 := gridCoords_get dil (sourceFin (arrPerm σ) (arrSign σ ε) u)
  rw [List.getElem?_eq_getElem (by rw [gridCoords_length]; exact hi), hpi] at h1
  obtain rfl := Option.some.inj h1
  have h2 := gridCoords_get dil u
  refine List.mem_of_getElem? (i := flatIndex k u) ?_
  rw [h2]
  congr 1
  funext a
  rw [grid_source hS u a, Finset.mul_sum]
  exact Finset.sum_congr rfl fun b _ => by ring

/-- The types of a grouped convolution repeat. -/
theorem repeat_offset {R : Type} {sz : R → ℕ} {L : List R} {m groups : ℕ} (hm : 0 < m) (hlen : L.length = groups * m) (hrep : ∀ i < L.length, L[i]? = L[i % m]?) {t : ℕ} (ht : t < groups) {k : ℕ} (hk : k ≤ m) :
    chanOffset sz L (t * m + k) = t * chanOffset sz L m + chanOffset sz L k := by
  have step : ∀ t < groups, ∀ k ≤ m, chanOffset sz L (t * m + k) = chanOffset sz L (t * m) + chanOffset sz L k := by
    intro t ht k
    induction k with
    | zero => intro _; simp
    | succ k ih =>
      intro hk
      have hlt : t * m + k < L.length := by
        rw [hlen]
        calc t * m + k < t * m + m := by omega
          _ = (t + 1) * m := by ring
          _ ≤ groups * m := Nat.mul_le_mul_right _ ht
      have hk0 : k < L.length := lt_of_le_of_lt (Nat.le_add_left k (t * m)) hlt
      have h1 := hrep _ hlt
      rw [Nat.mul_comm t m, Nat.mul_add_mod, Nat.mod_eq_of_lt (by omega), Nat.mul_comm m t] at h1
      have h2 := List.getElem?_eq_getElem hk0
      rw [← Nat.add_assoc, chanOffset_succ (h1.trans h2), chanOffset_succ h2, ih (by omega), Nat.add_assoc]
  have hmul : ∀ t ≤ groups, chanOffset sz L (t * m) = t * chanOffset sz L m := by
    intro t
    induction t with
    | zero => intro _; simp
    | succ t ih =>
      intro ht
      rw [Nat.succ_mul, step t ht m le_rfl, ih (by omega), Nat.succ_mul]
  rw [step t ht k hk, hmul t ht.le]

section

variable {G J S : Type} {T : IrrepTable G J} {El : G → Prop} {op : G → G → G} {one : G}

/-- The representation of a repeated type acts on the groups of channels separately. -/
theorem fiberRep_groups {t : FType S (Rep G J)} (hwf : ∀ r ∈ t.reprs, r.WF T El) {groups m : ℕ} (hm : 0 < m) (hlen : t.reprs.length = groups * m) (hrep : ∀ i < t.reprs.length, t.reprs[i]? = t.reprs[i % m]?)
    {g : G} (hg : El g) {s : S} {s' : ℕ} (hs' : s' = FType.size Rep.size (⟨s, t.reprs.take m⟩ : FType S (Rep G J))) (hgr : 0 < groups) :
    t.size Rep.size = groups * s' ∧
    (∀ i < groups, ∀ c < s', ∀ f : ℕ → ℝ, ∑ c' ∈ Finset.range (groups * s'), (t.fiberRep g).get (i * s' + c) c' * f c' =
      ∑ c' ∈ Finset.range s', ((⟨s, t.reprs.take m⟩ : FType S (Rep G J)).fiberRep g).get c c' * f (i * s' + c')) ∧
    ∀ o < groups * s', ∀ f : ℕ → ℕ → ℝ, ∑ o' ∈ Finset.range (groups * s'), (t.fiberRep g).get o o' * f o' (o' / s') = ∑ o' ∈ Finset.range (groups * s'), (t.fiberRep g).get o o' * f o' (o / s') := by
  have hs : s' = chanOffset Rep.size t.reprs m := by rw [hs', FType.size_eq]; rfl
  have hml : m ≤ t.reprs.length := by rw [hlen]; exact Nat.le_mul_of_pos_left _ hgr
  have htot : (t.reprs.map Rep.size).sum = groups * s' := by
    rw [← chanOffset_length, hlen]
    obtain ⟨q, rfl⟩ : ∃ q, groups = q + 1 := ⟨groups - 1, by omega⟩
    have := repeat_offset (sz := Rep.size) hm hlen hrep (show q < q + 1 by omega) (k := m) le_rfl
    rw [Nat.succ_mul, this, hs, Nat.succ_mul]
  have hρ : ∀ r ∈ t.reprs, (r.mat g).rows = r.size ∧ (r.mat g).cols = r.size := fun r hr => ⟨(hwf r hr).rows hg, (hwf r hr).cols hg⟩
  have hρ' : ∀ r ∈ t.reprs.take m, (r.mat g).rows = r.size ∧ (r.mat g).cols = r.size := fun r hr => hρ r (List.mem_of_mem_take hr)
  have hfield : ∀ i < groups, ∀ k r, (t.reprs.take m)[k]? = some r → k < m ∧ t.reprs[i * m + k]? = some r := by
    intro i hi k r hk
    have hkm : k < m := by
      have := (List.getElem?_eq_some_iff.1 hk).1
      rw [List.length_take] at this
      omega
    have hlt : i * m + k < t.reprs.length := by
      rw [hlen]
      calc i * m + k < i * m + m := by omega
        _ = (i + 1) * m := by ring
        _ ≤ groups * m := Nat.mul_le_mul_right _ hi
    have h1 := hrep _ hlt
    rw [Nat.mul_comm i m, Nat.mul_add_mod, Nat.mod_eq_of_lt hkm, Nat.mul_comm m i] at h1
    exact ⟨hkm, by rw [h1, ← hk, List.getElem?_take, if_pos hkm]⟩
  refine ⟨by rw [FType.size_eq, htot], fun i hi c hc f => ?_, fun o ho f => ?_⟩
  · have hc' : c < ((t.reprs.take m).map Rep.size).sum := by rw [hs'] at hc; rwa [FType.size_eq] at hc
    obtain ⟨k, r, a, hk, ha, rfl⟩ := exists_field hc'
    obtain ⟨hkm, hk2⟩ := hfield i hi k r hk
    have hoff := repeat_offset (sz := Rep.size) hm hlen hrep hi hkm.le
    have hoff' : chanOffset Rep.size (t.reprs.take m) k = chanOffset Rep.size t.reprs k := chanOffset_take _ _ _ hkm.le
    have h1 := blockDiag_row (ρ := fun r : Rep G J => r.mat g) hρ hk2 ha f
    have h2 := blockDiag_row (ρ := fun r : Rep G J => r.mat g) hρ' hk ha fun j => f (i * s' + j)
    rw [htot, hoff, ← hs] at h1
    have hsz' : ((t.reprs.take m).map Rep.size).sum = s' := by rw [hs', FType.size_eq]
    rw [hsz'] at h2
    rw [FType.fiberRep, FType.fiberRep, h2, hoff', ← Nat.add_assoc, h1]
    exact Finset.sum_congr rfl fun j _ => by rw [Nat.add_assoc]
  · have ho' : o < (t.reprs.map Rep.size).sum := by rw [htot]; exact ho
    obtain ⟨K, r, a, hK, ha, rfl⟩ := exists_field ho'
    have hKlt := (List.getElem?_eq_some_iff.1 hK).1
    have hi : K / m < groups := by rw [Nat.div_lt_iff_lt_mul hm, ← hlen]; exact hKlt
    have hkm : K % m < m := Nat.mod_lt _ hm
    have hKe : K / m * m + K % m = K := by rw [Nat.mul_comm]; exact Nat.div_add_mod K m
    have hoff := repeat_offset (sz := Rep.size) hm hlen hrep hi hkm.le
    rw [hKe, ← hs] at hoff
    have hk : (t.reprs.take m)[K % m]? = some r := by
      rw [List.getElem?_take, if_pos hkm, ← hrep K hKlt, hK]
    have hb : ∀ j < r.size, (K / m * s' + chanOffset Rep.size t.reprs (K % m) + j) / s' = K / m := by
      intro j hj
      have := chanOffset_lt (sz := Rep.size) hk hj
      rw [chanOffset_take _ _ _ hkm.le] at this
      have hsz' : ((t.reprs.take m).map Rep.size).sum = s' := by rw [hs', FType.size_eq]
      rw [hsz'] at this
      rw [Nat.add_assoc, Nat.mul_comm, Nat.mul_add_div (by omega), Nat.div_eq_of_lt this, Nat.add_zero]
    have h1 := blockDiag_row (ρ := fun r : Rep G J => r.mat g) hρ hK ha fun o' => f o' (o' / s')
    have h2 := blockDiag_row (ρ := fun r : Rep G J => r.mat g) hρ hK ha fun o' => f o' ((chanOffset Rep.size t.reprs K + a) / s')
    rw [htot] at h1 h2
    rw [FType.fiberRep, h1, h2]
    refine Finset.sum_congr rfl fun j hj => ?_
    rw [hoff, hb j (Finset.mem_range.1 hj), hb a ha]

/-- A transformed feature map. -/
theorem GMap.transform_moved {t : FType S (Rep G J)} (hT : T.Valid El op one) (hwf : ∀ r ∈ t.reprs, r.WF T El) (base : G → NpMat ℝ)
    (interp : NdArr n (B × ℕ) → NpMat ℝ → Except Err (NdArr n (B × ℕ))) {g : G} (hg : El g) {σ : Equiv.Perm (Fin n)} {ε : Fin n → ℝ} (hS : Signed n (base g) σ ε) (x : FMap n B) (hx : x.chans = t.size Rep.size) :
    ∃ y, GMap.transform base interp ⟨x, t⟩ g = .ok ⟨y, t⟩ ∧ Moved (arrPerm σ) (arrSign σ ε) (t.fiberRep g) x y := by
  obtain ⟨hr, hc⟩ := fiberRep_shape hwf hT hg
  have h1 : t.transformFibers (⟨x.chans, x.get⟩ : FTensor B (Fin n → ℕ)) g = .ok (chanMul (t.fiberRep g) ⟨x.chans, x.get⟩) := matChannels_ok (hc.trans hx.symm)
  obtain ⟨z, hz, hs, hget⟩ := linearTransform_signed interp ⟨x.shape, fun l k => (chanMul (t.fiberRep g) (⟨x.chans, x.get⟩ : FTensor B (Fin n → ℕ))).get l.1 l.2 k⟩ hS
  refine ⟨⟨(t.fiberRep g).rows, z.shape, fun b c k => z.get (b, c) k⟩, ?_, hr.trans hx.symm, hc.trans hx.symm, hr.trans hx.symm, hs, fun b c _ k _ => ?_⟩
  · simp only [GMap.transform, bind, Except.bind, h1, hz]
    exact if_pos hr
  · simp only [hget]
    show ∑ i ∈ Finset.range (t.fiberRep g).cols, _ = _
    rw [hc, ← hx]

/-- The step of the convolution after the padding. -/
theorem conv_stage {Ai A' Ao : NpMat ℝ} {F : Kern} {k stride dil groups : ℕ} {b : Option (ℕ → ℝ)} {M : NpMat ℝ} {σ : Equiv.Perm (Fin n)} {ε : Fin n → ℝ} (hS : Signed n M σ ε) {x y : FMap n B}
    (h : Moved (arrPerm σ) (arrSign σ ε) Ai x y) (hk : 0 < k) (hs : 0 < stride) (hd : 0 < dil) (hg : 0 < groups) (hmod : F.rows % groups = 0) (hch : x.chans = groups * F.cols)
    (hsize : ∀ i, dil * (k - 1) + 1 ≤ x.shape i) (hdiv : ∀ i, stride ∣ x.shape i - dil * (k - 1) - 1)
    (hro : Ao.rows = F.rows) (hco : Ao.cols = F.rows) (hr' : A'.rows = F.cols) (hc' : A'.cols = F.cols)
    (hA : ∀ t < groups, ∀ c < F.cols, ∀ f : ℕ → ℝ, ∑ c' ∈ Finset.range (groups * F.cols), Ai.get (t * F.cols + c) c' * f c' = ∑ c' ∈ Finset.range F.cols, A'.get c c' * f (t * F.cols + c'))
    (hO : ∀ o < F.rows, ∀ f : ℕ → ℕ → ℝ, ∑ o' ∈ Finset.range F.rows, Ao.get o o' * f o' (o' / (F.rows / groups)) = ∑ o' ∈ Finset.range F.rows, Ao.get o o' * f o' (o / (F.rows / groups)))
    (hF : ∀ (i j : ℕ) (v : Fin n → ℝ), (gridCoords n k dil)[i]? = some v → (gridCoords n k dil)[j]? = some (fun a : Fin n => ∑ b : Fin n, M.get a b * v b) → mul (F.at j) A' ≈ mul Ao (F.at i))
    (hb : ∀ o < F.rows, ∑ o' ∈ Finset.range F.rows, Ao.get o o' * Linear.biasAt b o' = Linear.biasAt b o) :
    ∃ x' y', convValid F k stride dil groups b x = .ok x' ∧ convValid F k stride dil groups b y = .ok y' ∧ x'.chans = F.rows ∧ Moved (arrPerm σ) (arrSign σ ε) Ao x' y' := by
  obtain ⟨x', hx', hxr⟩ : ∃ x', convValid F k stride dil groups b x = .ok x' ∧ x'.chans = F.rows := ⟨_, if_pos ⟨hk, hs, hd, hg, hmod, hch, hsize⟩, rfl⟩
  have hF' : ∀ (u : Fin n → Fin k), ∀ o < F.rows, ∀ c' < F.cols, ∑ c ∈ Finset.range F.cols, F.get o c (flatIndex k u) * A'.get c c' =
      ∑ o' ∈ Finset.range F.rows, Ao.get o o' * F.get o' c' (flatIndex k (sourceFin (arrPerm σ) (arrSign σ ε) u)) := by
    intro u o ho c' hc0
    have e := hF (flatIndex k (sourceFin (arrPerm σ) (arrSign σ ε) u)) (flatIndex k u) _ (gridCoords_get dil _) (by
      rw [gridCoords_get dil u]
      congr 1
      funext a
      rw [grid_source hS u a, Finset.mul_sum]
      exact Finset.sum_congr rfl fun b _ => by ring)
    have := e.2.2 o c' ho (hc'.symm ▸ hc0)
    simp only [mul, Kern.at] at this
    rw [hco] at this
    exact this
  obtain ⟨y', h1, h2⟩ := h.conv hx' hro hco hdiv hA hO hF' hb
  exact ⟨x', y', hx', h1, hxr, h2⟩

/-- **C43** Convolution with any filter which is steerable on the grid (`κ(g x) ρin(g) = ρout(g) κ(x)` whenever `x` and `g x` are points of the grid) and a bias fixed by the output
representation commutes with the action of `g`, if `g` acts on the base space by a signed permutation matrix: rotations by 90 degrees and reflections.  For every filter, kernel size, padding (the same on each
axis), padding mode, dilation, feature map and every stride which divides the range of the kernel; stride 1 always does. -/
theorem C43_conv (hT : T.Valid El op one) {inT outT : FType S (Rep G J)} (hin : ∀ r ∈ inT.reprs, r.WF T El) (hout : ∀ r ∈ outT.reprs, r.WF T El) (base : G → NpMat ℝ)
    (interp : NdArr n (B × ℕ) → NpMat ℝ → Except Err (NdArr n (B × ℕ))) (F : Kern) (k stride dil : ℕ) (p : Fin n → ℕ) (m : PadMode) (b : Option (ℕ → ℝ)) (hk : 0 < k) (hs : 0 < stride) (hd : 0 < dil)
    (hp : ∀ i j, p i = p j) (hr : F.rows = outT.size Rep.size) (hc : F.cols = inT.size Rep.size) {g : G} (hg : El g) (hM : IsSignedPerm n (base g))
    (hF : ∀ (i j : ℕ) (v : Fin n → ℝ), (gridCoords n k dil)[i]? = some v → (gridCoords n k dil)[j]? = some (fun a : Fin n => ∑ b : Fin n, (base g).get a b * v b) →
      mul (F.at j) (inT.fiberRep g) ≈ mul (outT.fiberRep g) (F.at i))
    (hb : ∀ o < F.rows, ∑ o' ∈ Finset.range F.rows, (outT.fiberRep g).get o o' * Linear.biasAt b o' = Linear.biasAt b o)
    (x : FMap n B) (hx : x.chans = inT.size Rep.size) (hsize : ∀ i, dil * (k - 1) + 1 ≤ x.shape i + 2 * p i) (hpad : ∀ i, padOk m (x.shape i) (p i))
    (hdiv : ∀ i, stride ∣ x.shape i + 2 * p i - dil * (k - 1) - 1) :
    ∃ x1 y gx gx1 gy gy', padMap m p x = .ok x1 ∧ convValid F k stride dil 1 b x1 = .ok y ∧ GMap.transform base interp ⟨x, inT⟩ g = .ok ⟨gx, inT⟩ ∧
      padMap m p gx = .ok gx1 ∧ convValid F k stride dil 1 b gx1 = .ok gy ∧ GMap.transform base interp ⟨y, outT⟩ g = .ok ⟨gy', outT⟩ ∧ gy ≈ gy' := by
  obtain ⟨hMr, hMc, σ, ε, hε, hMg⟩ := hM
  have hS : Signed n (base g) σ ε := ⟨hMr, hMc, hε, hMg⟩
  obtain ⟨hri, hci⟩ := fiberRep_shape hin hT hg
  obtain ⟨hro, hco⟩ := fiberRep_shape hout hT hg
  obtain ⟨gx, hgx, hmv⟩ := GMap.transform_moved hT hin base interp hg hS x hx
  obtain ⟨x1, h1, hx1, hx1c⟩ : ∃ x1, padMap m p x = .ok x1 ∧ (∀ i, x1.shape i = x.shape i + 2 * p i) ∧ x1.chans = x.chans := ⟨_, if_pos hpad, fun _ => rfl, rfl⟩
  obtain ⟨gx1, hgx1, hmv1⟩ := hmv.pad m hp h1
  obtain ⟨y, gy, h2, h3, h4, h5⟩ := conv_stage (b := b) hS hmv1 hk hs hd Nat.one_pos (Nat.mod_one F.rows) (by rw [hx1c, hx, hc, one_mul]) (fun i => by rw [hx1]; exact hsize i)
    (fun i => by rw [hx1]; exact hdiv i) (hro.trans hr.symm) (hco.trans hr.symm) (hri.trans hc.symm) (hci.trans hc.symm)
    (fun t ht c _ f => by
      obtain rfl : t = 0 := by omega
      simp) (fun o ho f => Finset.sum_congr rfl fun o' ho' => by
        rw [Nat.div_one, Nat.div_eq_of_lt ho, Nat.div_eq_of_lt (Finset.mem_range.1 ho')]) hF hb
  obtain ⟨gy', h6, h7⟩ := GMap.transform_moved hT hout base interp hg hS y (h4.trans hr)
  exact ⟨x1, y, gx, gx1, gy, gy', h1, h2, hgx, hgx1, h3, h6, h5.unique h7⟩

end

namespace RdConv

variable {G J J' S P A : Type} [DecidableEq J] [DecidableEq J'] {El : G → Prop} {op : G → G → G} {one : G}

/-- The type given to the basis expansion. -/
theorem groupType_spec {R : Type} {groups : ℕ} (hg : 0 < groups) {inT outT t : FType S R} (h : groupType groups inT outT = .ok t) :
    ∃ mi mo, inT.reprs.length = groups * mi ∧ (∀ i < inT.reprs.length, inT.reprs[i]? = inT.reprs[i % mi]?) ∧ outT.reprs.length = groups * mo ∧
      (∀ i < outT.reprs.length, outT.reprs[i]? = outT.reprs[i % mo]?) ∧ t = ⟨inT.gspace, inT.reprs.take mi⟩ := by
  unfold groupType at h
  split_ifs at h with h1 h2 h3
  · obtain ⟨mi, hmi⟩ := Nat.dvd_of_mod_eq_zero h2.1
    obtain ⟨mo, hmo⟩ := Nat.dvd_of_mod_eq_zero h2.2
    have e1 : inT.reprs.length / groups = mi := by rw [hmi, Nat.mul_div_cancel_left _ hg]
    have e2 : outT.reprs.length / groups = mo := by rw [hmo, Nat.mul_div_cancel_left _ hg]
    rw [e1, e2] at h3
    rw [e1] at h
    obtain ⟨-, h4, h5⟩ := indexSelect_nat.1 h
    refine ⟨mi, mo, hmi, h3.1, hmo, h3.2, ?_⟩
    have hlen := h5.length_eq
    rw [List.length_range] at hlen
    have hle : mi ≤ inT.reprs.length := by rw [hmi]; exact Nat.le_mul_of_pos_left _ hg
    have h6 : t.reprs = inT.reprs.take mi := by
      refine List.ext_getElem? fun i => ?_
      by_cases hi : i < mi
      · have := h5.get (i := i) (by simpa using hi) (by omega)
        simp only [List.get_eq_getElem, List.getElem_range] at this
        rw [List.getElem?_take, if_pos hi, this, List.getElem?_eq_getElem]
      · rw [List.getElem?_eq_none (by omega), List.getElem?_eq_none (by rw [List.length_take]; omega)]
    cases t
    simp only at h4 h6
    rw [h4, h6]
  · obtain rfl : groups = 1 := by omega
    obtain rfl := Except.ok.inj h
    refine ⟨inT.reprs.length, outT.reprs.length, by simp, fun i hi => by rw [Nat.mod_eq_of_lt hi], by simp, fun i hi => by rw [Nat.mod_eq_of_lt hi], by simp⟩

/-- The padding of `forward`. -/
theorem pad_stage {R : Type} (l : RdConv n S R A) {τ : Equiv.Perm (Fin n)} {δ : Fin n → ℝ} {M : NpMat ℝ} {x gx : FMap n B} (h : Moved τ δ M x gx) (hp : ∀ i j, l.axes i = l.axes j)
    (hpad : ∀ i, padOk l.mode (x.shape i) (l.axes i)) :
    ∃ x1 gx1, (∀ F b, l.convolve F b x = convValid F l.kernelSize l.stride l.dilation l.groups b x1) ∧ (∀ F b, l.convolve F b gx = convValid F l.kernelSize l.stride l.dilation l.groups b gx1) ∧
      Moved τ δ M x1 gx1 ∧ x1.chans = x.chans ∧ ∀ i, x1.shape i = x.shape i + 2 * l.axes i := by
  obtain ⟨x1, h1, hx1, hx1c⟩ : ∃ x1, padMap l.mode l.axes x = .ok x1 ∧ (∀ i, x1.shape i = x.shape i + 2 * l.axes i) ∧ x1.chans = x.chans := ⟨_, if_pos hpad, fun _ => rfl, rfl⟩
  obtain ⟨gx1, h2, h3⟩ := h.pad l.mode hp h1
  by_cases hm : l.mode = .zeros
  · refine ⟨x1, gx1, fun F b => ?_, fun F b => ?_, h3, hx1c, hx1⟩
    · rw [hm] at h1
      rw [convolve, if_pos hm, convNd]
      simp only [bind, Except.bind, h1]
    · rw [hm] at h2
      rw [convolve, if_pos hm, convNd]
      simp only [bind, Except.bind, h2]
  · obtain ⟨x2, h4, hx2, hx2c⟩ : ∃ x2, padMap .zeros (fun _ => 0) x1 = .ok x2 ∧ (∀ i, x2.shape i = x1.shape i + 2 * 0) ∧ x2.chans = x1.chans := ⟨_, if_pos fun _ => trivial, fun _ => rfl, rfl⟩
    obtain ⟨gx2, h5, h6⟩ := h3.pad .zeros (fun _ _ => rfl) h4
    refine ⟨x2, gx2, fun F b => ?_, fun F b => ?_, h6, hx2c.trans hx1c, fun i => by rw [hx2, hx1, Nat.mul_zero, Nat.add_zero]⟩
    · rw [convolve, if_neg hm]
      simp only [bind, Except.bind, h1, convNd, h4]
    · rw [convolve, if_neg hm]
      simp only [bind, Except.bind, h2, convNd, h5]

/-- **C43** for the modules `R2Conv`, `R3Conv`: for all field types (whose representations are told apart by their escaped names, C34), weights, bias weights, groups, kernel sizes, padding modes, dilations, feature
maps and each element acting by a signed permutation of the axes.  `mk` builds the kernel bases on the base space with points `P`.  If no kernels exist the constructor raises `ValueError`. -/
theorem C43_module {T : IrrepTable G J'} {triv : J'} (hT : T.Valid El op one) (hone : El one) (ht : T.IsTrivial El triv) {act : G → P → P} {Fsize : J → ℕ} (F : FBasis J P A)
    (mk : Rep G J' → Rep G J' → Except Err (SKB J J' A)) (toPt : (Fin n → ℝ) → P) (base : G → NpMat ℝ)
    (hbase : ∀ g, El g → IsSignedPerm n (base g) → ∀ v : Fin n → ℝ, act g (toPt v) = toPt fun a : Fin n => ∑ b : Fin n, (base g).get a b * v b)
    (interp : NdArr n (B × ℕ) → NpMat ℝ → Except Err (NdArr n (B × ℕ)))
    (inT outT : FType S (Rep G J')) (hsp : inT.gspace = outT.gspace) (hin : ∀ r ∈ inT.reprs, r.WF T El) (hout : ∀ r ∈ outT.reprs, r.WF T El) (hne : inT.reprs ≠ []) (hne' : outT.reprs ≠ [])
    (gdim : S → ℕ) (hgd : gdim inT.gspace ≤ n) (filt : Option (Attr (SAttr J J' A) → Bool))
    {uin uout : List (Rep G J')} (hui : ∀ r, r ∈ uin ↔ r ∈ inT.reprs) (hun : uin.Nodup) (huo : ∀ r, r ∈ uout ↔ r ∈ outT.reprs) (hon : uout.Nodup)
    (hni : ∀ r ∈ inT.reprs, ∀ r' ∈ inT.reprs, escName r.name = escName r'.name → r = r') (hno : ∀ r ∈ outT.reprs, ∀ r' ∈ outT.reprs, escName r.name = escName r'.name → r = r')
    (hser : ∀ i ∈ inT.reprs, ∀ o ∈ outT.reprs, SKB.Serves El act Fsize F i o (mk i o))
    (k : ℕ) (hk : 0 < k) (padding : Padding) (p : Fin n → ℕ) (hpa : padding.axes n = .ok p) (hp : ∀ i j, p i = p j) (stride dil : ℕ) (hs : 0 < stride) (hd : 0 < dil) (mode : PadMode) (hm : mode ≠ .other)
    (groups : ℕ) (hg : 0 < groups) (inT' : FType S (Rep G J')) (hgt : groupType groups inT outT = .ok inT') (bias : Bool) (w0 : ℕ → ℝ) :
    (init T.size triv gdim (fun pts => kernGen Fsize F (pts.map toPt) mk) filt uin uout inT outT k padding stride dil mode groups bias w0 = .error .value ∧
      ∃ m, Blocks.init Rep.name Rep.size (Blocks.blockFor (kernGen Fsize F ((gridCoords n k dil).map toPt) mk) filt (k ^ n)) uin uout inT'.reprs outT.reprs (k ^ n) = .ok m ∧ m.dim = 0) ∨
    ∃ l, init T.size triv gdim (fun pts => kernGen Fsize F (pts.map toPt) mk) filt uin uout inT outT k padding stride dil mode groups bias w0 = .ok l ∧
      ∀ w bw g, El g → IsSignedPerm n (base g) → ∀ x : FMap n B, x.chans = inT.size Rep.size → (∀ i, dil * (k - 1) + 1 ≤ x.shape i + 2 * p i) → (∀ i, padOk mode (x.shape i) (p i)) →
        (∀ i, stride ∣ x.shape i + 2 * p i - dil * (k - 1) - 1) →
        ∃ y gx gy gy', forward { l with weights := w, bias := bw } ⟨x, inT⟩ = .ok ⟨y, outT⟩ ∧ GMap.transform base interp ⟨x, inT⟩ g = .ok ⟨gx, inT⟩ ∧
          forward { l with weights := w, bias := bw } ⟨gx, inT⟩ = .ok ⟨gy, outT⟩ ∧ GMap.transform base interp ⟨y, outT⟩ g = .ok ⟨gy', outT⟩ ∧ gy ≈ gy' := by
  obtain ⟨mi, mo, hli, hri, hlo, hro, rfl⟩ := groupType_spec hg hgt
  have hmi : 0 < mi := Nat.pos_of_ne_zero fun h => hne (List.length_eq_zero_iff.1 (by rw [hli, h, Nat.mul_zero]))
  have hmo : 0 < mo := Nat.pos_of_ne_zero fun h => hne' (List.length_eq_zero_iff.1 (by rw [hlo, h, Nat.mul_zero]))
  have hmem : ∀ r, r ∈ inT.reprs.take mi ↔ r ∈ inT.reprs := fun r => ⟨List.mem_of_mem_take, fun h => by
    obtain ⟨i, hi, rfl⟩ := List.mem_iff_getElem.1 h
    refine List.mem_of_getElem? (i := i % mi) ?_
    rw [List.getElem?_take, if_pos (Nat.mod_lt _ hmi), ← hri i hi, List.getElem?_eq_getElem hi]⟩
  set inT' : FType S (Rep G J') := ⟨inT.gspace, inT.reprs.take mi⟩ with hinT'
  have hpl : 0 < ((gridCoords n k dil).map toPt).length := by rw [List.length_map, gridCoords_length]; positivity
  obtain ⟨-, m, hm1, hw⟩ := Blocks.steerable_filter (pts := (gridCoords n k dil).map toPt) hone inT' outT hpl (fun r => (hui r).trans (hmem r).symm) hun huo hon
    (fun r hr r' hr' => hni r ((hmem r).1 hr) r' ((hmem r').1 hr')) hno (fun r hr => hin r ((hmem r).1 hr)) hout (fun i hi o ho => hser i ((hmem i).1 hi) o ho) filt
  rw [List.length_map, gridCoords_length] at hm1
  have hinit : init T.size triv gdim (fun pts => kernGen Fsize F (pts.map toPt) mk) filt uin uout inT outT k padding stride dil mode groups bias w0 =
      if m.dim = 0 then .error .value else .ok ⟨inT, outT, k, padding, p, stride, dil, mode, groups, m, if bias then Bias.expansion T.size triv outT.reprs else none, w0, fun _ => 0, true,
        some ⟨outT.size Rep.size, inT'.size Rep.size, fun _ _ _ => 0⟩, some ((if bias then Bias.expansion T.size triv outT.reprs else none).map fun _ _ => 0)⟩ := by
    rw [init, if_neg (by rintro (h | h) <;> [exact h hsp; omega])]
    simp only [bind, Except.bind, hpa, if_neg hm, hgt]
    rw [hm1]
  by_cases hdim : m.dim = 0
  · exact .inl ⟨by rw [hinit, if_pos hdim], m, hm1, hdim⟩
  rw [hinit, if_neg hdim]
  refine .inr ⟨_, rfl, fun w bw g hgel hM x hx hsize hpad hdiv => ?_⟩
  obtain ⟨f, hf, hfr, hfc, hst⟩ := hw (fun _ => Nat.pos_of_ne_zero hdim) w
  set be := if bias then Bias.expansion T.size triv outT.reprs else none with hbe
  have hM0 := hM
  obtain ⟨hMr, hMc, σ, ε, hε, hMg⟩ := hM
  have hS : Signed n (base g) σ ε := ⟨hMr, hMc, hε, hMg⟩
  obtain ⟨hri1, hci1⟩ := fiberRep_shape hin hT hgel
  obtain ⟨hri2, hci2⟩ := fiberRep_shape (t := inT') (fun r hr => hin r ((hmem r).1 hr)) hT hgel
  obtain ⟨hro1, hco1⟩ := fiberRep_shape hout hT hgel
  obtain ⟨gx, hgx, hmv⟩ := GMap.transform_moved hT hin base interp hgel hS x hx
  obtain ⟨hsi, hA, -⟩ := fiberRep_groups hin hmi hli hri hgel (s := inT.gspace) (s' := inT'.size Rep.size) rfl hg
  obtain ⟨hso, -, hO⟩ := fiberRep_groups hout hmo hlo hro hgel (s := outT.gspace) rfl hg
  set so := FType.size Rep.size (⟨outT.gspace, outT.reprs.take mo⟩ : FType S (Rep G J')) with hsoe
  have hdivo : f.rows / groups = so := by rw [hfr, hso, Nat.mul_div_cancel_left _ hg]
  set l : RdConv n S (Rep G J') (SAttr J J' A) := ⟨inT, outT, k, padding, p, stride, dil, mode, groups, m, be, w, bw, true,
        some ⟨outT.size Rep.size, inT'.size Rep.size, fun _ _ _ => 0⟩, some (be.map fun _ _ => 0)⟩ with hl
  have hfw : ∀ z : FMap n B, forward l ⟨z, inT⟩ = (l.convolve f (be.map fun E => Bias.expand E bw) z >>= fun y => GMap.mk' Rep.size y outT) := by
    intro z
    rw [forward, if_neg (by simp [hl]), current, if_neg (by simp [hl])]
    simp only [bind, Except.bind, expandParameters, hl, hf]
  obtain ⟨x1, gx1, hc1, hc2, hmv1, hx1c, hx1s⟩ := pad_stage l hmv hp hpad
  obtain ⟨y, gy, h2, h3, h4, h5⟩ := conv_stage (F := f) (b := be.map fun E => Bias.expand E bw) (k := k) (stride := stride) (dil := dil) (groups := groups) (A' := inT'.fiberRep g) (Ao := outT.fiberRep g)
    hS hmv1 hk hs hd hg (by rw [hfr, hso]; exact Nat.mul_mod_right _ _)
    (by rw [hx1c, hx, hfc, hsi]) (fun i => by rw [hx1s]; exact hsize i) (fun i => by rw [hx1s]; exact hdiv i) (hro1.trans hfr.symm) (hco1.trans hfr.symm) (hri2.trans hfc.symm) (hci2.trans hfc.symm)
    (by rw [hfc]; exact hA) (by rw [hdivo, hfr, hso]; exact hO)
    (fun i j v hi hj => hst g hgel i j (toPt v) (by rw [List.getElem?_map, hi]; rfl) (by rw [List.getElem?_map, hj, hbase g hgel hM0]; rfl))
    (fun o ho => by
      cases hB : be with
      | none => simp [Linear.biasAt]
      | some E =>
        have hE' : Bias.expansion T.size triv outT.reprs = some E := by
          rw [hbe] at hB
          split_ifs at hB
          exact hB
        rw [hfr] at ho ⊢
        exact Linear.bias_fixed hT ht hout hE' bw hgel ho)
  obtain ⟨gy', h6, h7⟩ := GMap.transform_moved hT hout base interp hgel hS y (h4.trans hfr)
  refine ⟨y, gx, gy, gy', ?_, hgx, ?_, h6, h5.unique h7⟩
  · rw [hfw, hc1]
    simp only [hl, bind, Except.bind] at h2 ⊢
    rw [h2]
    exact if_pos (h4.trans hfr)
  · rw [hfw, hc2]
    simp only [hl, bind, Except.bind] at h3 ⊢
    rw [h3]
    exact if_pos (h5.chans.trans (h4.trans hfr))

end RdConv

end Escnn
