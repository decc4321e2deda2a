import Verif.Spec.Equivariant
import Verif.Lemmas.MatKinds
import Verif.Lemmas.BlockRows
import Verif.Lemmas.Fields
import Verif.Props.C25_TransformFibers
import Verif.Props.C44_GridAction

/-!
# Equivariance, field by field
-/

namespace Escnn

open NpMat

variable {B P P' S G Id C : Type} {El : G → Prop}

/-- The matrices of the representations of a type have the right shape. -/
def FType.Square (El : G → Prop) (t : FType S (Rep G Id)) : Prop := ∀ r ∈ t.reprs, ∀ g, El g → (r.mat g).rows = r.size ∧ (r.mat g).cols = r.size

/-- `gx` is `x` with every field transformed by `g`. -/
def FieldAct (t : FType S (Rep G Id)) (g : G) (x gx : FTensor B P) : Prop :=
  ∀ (k : ℕ) (r : Rep G Id), t.reprs[k]? = some r → ∀ b o p, o < r.size →
    gx.get b (chanOffset Rep.size t.reprs k + o) p = ∑ j ∈ Finset.range r.size, (r.mat g).get o j * x.get b (chanOffset Rep.size t.reprs k + j) p

theorem transformFibers_act {t : FType S (Rep G Id)} (ht : t.Square El) {g : G} (hg : El g) (x : FTensor B P) (hx : x.chans = t.size Rep.size) :
    ∃ gx, t.transformFibers x g = .ok gx ∧ gx.chans = t.size Rep.size ∧ FieldAct t g x gx := by
  have hsz := blockDiag_map_size (rs := t.reprs) (ρ := fun r : Rep G Id => r.mat g) (sz := Rep.size) (fun r hr => ht r hr g hg)
  rw [FType.size_eq] at hx ⊢
  refine ⟨_, matChannels_ok (hsz.2.trans hx.symm), hsz.1, fun k r hk b o p ho => ?_⟩
  show ∑ i ∈ Finset.range (blockDiag _).cols, _ = _
  rw [hsz.2]
  exact blockDiag_row (fun r hr => ht r hr g hg) hk ho fun i => x.get b i p

/-- A module is equivariant if its output is, field by field. -/
theorem FibreEquivariant.of_fields {inT outT : FType S (Rep G Id)} (hin : inT.Square El) (hout : outT.Square El)
    {f : GTensor B P S (Rep G Id) C → Except Err (GTensor B P' S (Rep G Id) C)} (Φ : FTensor B P → ℕ → ℕ → B → P' → ℝ)
    (hf : ∀ x : GTensor B P S (Rep G Id) C, x.type = inT → x.tensor.chans = inT.size Rep.size → ∃ y, f x = .ok y ∧ y.type = outT ∧ y.coords = x.coords ∧
      y.tensor.chans = outT.size Rep.size ∧
      ∀ (k : ℕ) (r : Rep G Id), outT.reprs[k]? = some r → ∀ o < r.size, ∀ b p, y.tensor.get b (chanOffset Rep.size outT.reprs k + o) p = Φ x.tensor k o b p)
    (heq : ∀ g, El g → ∀ x gx : FTensor B P, x.chans = inT.size Rep.size → gx.chans = inT.size Rep.size → FieldAct inT g x gx →
      ∀ (k : ℕ) (r : Rep G Id), outT.reprs[k]? = some r → ∀ o < r.size, ∀ b p, Φ gx k o b p = ∑ j ∈ Finset.range r.size, (r.mat g).get o j * Φ x k j b p) :
    FibreEquivariant El inT outT f := by
  intro x hx hc g hg
  obtain ⟨y, hy1, hy2, hy3, hy4, hy5⟩ := hf x hx hc
  obtain ⟨gx, h1, h2, h3⟩ := transformFibers_act hin hg x.tensor hc
  obtain ⟨gy', h4, h5, h6⟩ := transformFibers_act hout hg y.tensor hy4
  obtain ⟨gy, e1, e2, e3, e4, e5⟩ := hf ⟨gx, inT, x.coords⟩ rfl h2
  refine ⟨y, ⟨gx, inT, x.coords⟩, gy, ⟨gy', outT, y.coords⟩, hy1, hy2, hy4, ?_, e1, ?_, e2, by rw [e3, hy3], e4.trans h5.symm, ?_⟩
  · rw [GTensor.transformFibers, hx]
    simp only [bind, Except.bind, h1]
    exact if_pos h2
  · rw [GTensor.transformFibers, hy2]
    simp only [bind, Except.bind, h4]
    exact if_pos h5
  · intro b c p hcc
    rw [e4, FType.size_eq] at hcc
    obtain ⟨k, r, o, hk, ho, rfl⟩ := exists_field hcc
    rw [e5 k r hk o ho, h6 k r hk b o p ho, heq g hg x.tensor gx hc h2 h3 k r hk o ho]
    refine Finset.sum_congr rfl fun j hj => ?_
    rw [hy5 k r hk j (Finset.mem_range.1 hj)]

/-- A module is local if its output is, field by field. -/
theorem PositionLocal.of_fields {R : Type} {sz : R → ℕ} {inT outT : FType S R} {f : GTensor B P S R C → Except Err (GTensor B P S R C)} (Φ : FTensor B P → ℕ → ℕ → B → P → ℝ)
    (hf : ∀ x : GTensor B P S R C, x.type = inT → x.tensor.chans = inT.size sz → ∃ y, f x = .ok y ∧ y.type = outT ∧ y.coords = x.coords ∧
      y.tensor.chans = outT.size sz ∧
      ∀ (k : ℕ) (r : R), outT.reprs[k]? = some r → ∀ o < sz r, ∀ b p, y.tensor.get b (chanOffset sz outT.reprs k + o) p = Φ x.tensor k o b p)
    (hloc : ∀ (σ : P → P) (x : FTensor B P) k o b p, Φ ⟨x.chans, fun b c p => x.get b c (σ p)⟩ k o b p = Φ x k o b (σ p)) : PositionLocal sz inT f := by
  intro σ x y h1 h2 hy
  obtain ⟨y1, e1, e2, e3, e4, e5⟩ := hf x h1 h2
  obtain rfl : y1 = y := by rw [e1] at hy; exact Except.ok.inj hy
  obtain ⟨y', f1, f2, f3, f4, f5⟩ := hf { x with tensor := ⟨x.tensor.chans, fun b c p => x.tensor.get b c (σ p)⟩ } h1 h2
  refine ⟨y', f1, f2.trans e2.symm, f3.trans e3.symm, f4.trans e4.symm, fun b c p hc => ?_⟩
  rw [f4, FType.size_eq] at hc
  obtain ⟨k, r, o, hk, ho, rfl⟩ := exists_field hc
  rw [f5 k r hk o ho]
  show _ = y1.tensor.get b _ (σ p)
  rw [e5 k r hk o ho, hloc]

/-- The action on feature maps: on the fibres, then on the positions. -/
theorem GMap.transform_square {n : ℕ} {t : FType S (Rep G Id)} (ht : t.Square El) (base : G → NpMat ℝ) (interp : NdArr n (B × ℕ) → NpMat ℝ → Except Err (NdArr n (B × ℕ))) {g : G} (hg : El g)
    {σ : Equiv.Perm (Fin n)} {ε : Fin n → ℝ} (hS : NdArr.Signed n (base g) σ ε) (x : FMap n B) (hx : x.chans = t.size Rep.size) {gx : FTensor B (Fin n → ℕ)}
    (h : t.transformFibers ⟨x.chans, x.get⟩ g = .ok gx) :
    ∃ s, GMap.transform base interp ⟨x, t⟩ g = .ok ⟨⟨gx.chans, s, fun b c p => gx.get b c (NdArr.source x.shape (NdArr.arrPerm σ) (NdArr.arrSign σ ε) p)⟩, t⟩ ∧
      s = fun i => x.shape (NdArr.arrPerm σ i) := by
  obtain ⟨gx', h1, h2, -⟩ := transformFibers_act ht hg (⟨x.chans, x.get⟩ : FTensor B (Fin n → ℕ)) hx
  obtain rfl : gx' = gx := by rw [h] at h1; exact (Except.ok.inj h1).symm
  obtain ⟨z, hz, hs, hget⟩ := NdArr.linearTransform_signed interp ⟨x.shape, fun l k => gx'.get l.1 l.2 k⟩ hS
  refine ⟨z.shape, ?_, funext hs⟩
  simp only [GMap.transform, bind, Except.bind, h, hz]
  rw [GMap.mk', if_pos h2]
  simp only [hget]

/-- A local module which commutes with the action on the fibres commutes with the action on the feature maps. -/
theorem FibreEquivariant.onGrid {n : ℕ} {inT outT : FType S (Rep G Id)} (hin : inT.Square El) (hout : outT.Square El)
    {f : GTensor B (Fin n → ℕ) S (Rep G Id) Unit → Except Err (GTensor B (Fin n → ℕ) S (Rep G Id) Unit)} (hf : FibreEquivariant El inT outT f) (hl : PositionLocal Rep.size inT f) (base : G → NpMat ℝ) :
    GridEquivariant El base inT outT (onGrid f) := by
  intro interp x hx hc g hg hM
  obtain ⟨hr, hcc, σ, ε, hε, hMg⟩ := hM
  have hS : NdArr.Signed n (base g) σ ε := ⟨hr, hcc, hε, hMg⟩
  obtain ⟨m, t⟩ := x
  obtain rfl : t = inT := hx
  simp only at hc
  obtain ⟨y, gx, gy, gy', h1, h2, h3, h4, h5, h6, h7, -, h8⟩ := hf ⟨⟨m.chans, m.get⟩, t, ()⟩ rfl hc g hg
  obtain ⟨gxt, a1, a2, -⟩ := transformFibers_act hin hg (⟨m.chans, m.get⟩ : FTensor B (Fin n → ℕ)) hc
  obtain ⟨gyt, b1, b2, -⟩ := transformFibers_act hout hg y.tensor h3
  obtain rfl : gx = ⟨gxt, t, ()⟩ := by
    rw [GTensor.transformFibers] at h4
    simp only [bind, Except.bind, a1] at h4
    rw [GTensor.mk', if_pos a2] at h4
    exact (Except.ok.inj h4).symm
  obtain rfl : gy' = ⟨gyt, outT, ()⟩ := by
    rw [GTensor.transformFibers, h2] at h6
    simp only [bind, Except.bind, b1] at h6
    rw [GTensor.mk', if_pos b2] at h6
    exact (Except.ok.inj h6).symm
  obtain ⟨s, e1, e2⟩ := GMap.transform_square hin base interp hg hS m hc a1
  obtain ⟨s', e3, e4⟩ := GMap.transform_square hout base interp hg hS ⟨y.tensor.chans, m.shape, y.tensor.get⟩ h3 b1
  obtain ⟨gz, f1, f2, -, f4⟩ := hl (NdArr.source m.shape (NdArr.arrPerm σ) (NdArr.arrSign σ ε)) _ _ rfl a2 h5
  refine ⟨⟨⟨y.tensor.chans, m.shape, y.tensor.get⟩, y.type⟩, _, ⟨⟨gz.tensor.chans, s, gz.tensor.get⟩, gz.type⟩, _, ?_, h2, h3, e1, ?_, by rw [h2]; exact e3, ?_, ?_⟩
  · simp only [Escnn.onGrid, bind, Except.bind, h1]
  · simp only [Escnn.onGrid, bind, Except.bind]
    simp only at f1
    rw [f1]
  · show gz.type = outT
    rw [f2, h7]
  · refine ⟨f4.1.trans h8.1, e2.trans e4.symm, fun b c hc k _ => ?_⟩
    have hc' : c < gy.tensor.chans := by rw [← f4.1]; exact hc
    have := f4.2 b c k hc
    simp only at this ⊢
    rw [this, h8.2 b c _ hc']

end Escnn
