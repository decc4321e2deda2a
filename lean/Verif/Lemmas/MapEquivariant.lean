import Verif.Spec.MapEquivariant
import Verif.Lemmas.Equivariant
import Verif.Props.C47_Shapes

/-!
# Modules which process each channel of a feature map
-/

namespace Escnn

variable {n : ℕ} {B S G Id : Type} {El : G → Prop}

theorem GMap.transformFibers_act {t : FType S (Rep G Id)} (ht : t.Square El) {g : G} (hg : El g) (x : GMap n B S (Rep G Id)) (hx : x.type = t) (hc : x.map.chans = t.size Rep.size) :
    ∃ gx, x.transformFibers g = .ok gx ∧ gx.type = t ∧ gx.map.chans = t.size Rep.size ∧ gx.map.shape = x.map.shape ∧
      FieldAct t g (⟨x.map.chans, x.map.get⟩ : FTensor B (Fin n → ℕ)) ⟨gx.map.chans, gx.map.get⟩ := by
  obtain ⟨z, h1, h2, h3⟩ := Escnn.transformFibers_act ht hg (⟨x.map.chans, x.map.get⟩ : FTensor B (Fin n → ℕ)) hc
  refine ⟨⟨⟨z.chans, x.map.shape, z.get⟩, t⟩, ?_, rfl, h2, rfl, h3⟩
  rw [GMap.transformFibers, hx]
  simp only [bind, Except.bind, h1]
  exact if_pos h2

/-- A module is equivariant if its output is, field by field. -/
theorem MapFibreEquivariant.of_fields {inT outT : FType S (Rep G Id)} (hin : inT.Square El) (hout : outT.Square El) {f : GMap n B S (Rep G Id) → Except Err (GMap n B S (Rep G Id))}
    (Φ : FMap n B → ℕ → ℕ → B → (Fin n → ℕ) → ℝ) (sh : (Fin n → ℕ) → Fin n → ℕ)
    (hf : ∀ x y : GMap n B S (Rep G Id), x.type = inT → x.map.chans = inT.size Rep.size → f x = .ok y → y.type = outT ∧ y.map.chans = outT.size Rep.size ∧ y.map.shape = sh x.map.shape ∧
      ∀ (k : ℕ) (r : Rep G Id), outT.reprs[k]? = some r → ∀ o < r.size, ∀ b p, y.map.get b (chanOffset Rep.size outT.reprs k + o) p = Φ x.map k o b p)
    (htot : ∀ x x' y : GMap n B S (Rep G Id), f x = .ok y → x'.type = x.type → x'.map.chans = x.map.chans → x'.map.shape = x.map.shape → ∃ y', f x' = .ok y')
    (heq : ∀ g, El g → ∀ x gx : FMap n B, gx.shape = x.shape → FieldAct inT g (⟨x.chans, x.get⟩ : FTensor B (Fin n → ℕ)) ⟨gx.chans, gx.get⟩ →
      ∀ (k : ℕ) (r : Rep G Id), outT.reprs[k]? = some r → ∀ o < r.size, ∀ b p, Φ gx k o b p = ∑ j ∈ Finset.range r.size, (r.mat g).get o j * Φ x k j b p) :
    MapFibreEquivariant El inT outT f := by
  intro x y hx hc hy
  obtain ⟨a1, a2, a3, a4⟩ := hf x y hx hc hy
  refine ⟨a1, a2, fun g hg => ?_⟩
  obtain ⟨gx, h1, h2, h3, h4, h5⟩ := GMap.transformFibers_act hin hg x hx hc
  obtain ⟨gy', e1, e2, e3, e4, e5⟩ := GMap.transformFibers_act hout hg y a1 a2
  obtain ⟨gy, hgy⟩ := htot x gx y hy (h2.trans hx.symm) (h3.trans hc.symm) h4
  obtain ⟨b1, b2, b3, b4⟩ := hf gx gy h2 h3 hgy
  refine ⟨gx, gy, gy', h1, hgy, e1, b1.trans e2.symm, b2.trans e3.symm, by rw [b3, e4, a3, h4], fun b c hcc p _ => ?_⟩
  rw [b2, FType.size_eq] at hcc
  obtain ⟨k, r, o, hk, ho, rfl⟩ := exists_field hcc
  rw [b4 k r hk o ho, heq g hg x.map gx.map h4 h5 k r hk o ho]
  have := e5 k r hk b o p ho
  simp only at this
  rw [this]
  exact Finset.sum_congr rfl fun j hj => by rw [a4 k r hk j (Finset.mem_range.1 hj)]

/-- The operation computes each channel of its output from the same channel of its input; `F shape` computes a channel, and `sh shape` is the shape of the output. -/
structure Channelwise (pool : FMap n B → Except Err (FMap n B)) (F : (Fin n → ℕ) → ((Fin n → ℕ) → ℝ) → (Fin n → ℕ) → ℝ) (sh : (Fin n → ℕ) → Fin n → ℕ) : Prop where
  spec : ∀ x y, pool x = .ok y → y.chans = x.chans ∧ y.shape = sh x.shape ∧ ∀ b c p, y.get b c p = F x.shape (x.get b c) p
  total : ∀ x x' y, pool x = .ok y → x'.shape = x.shape → ∃ y', pool x' = .ok y'

theorem Channelwise.comp {pool pool' : FMap n B → Except Err (FMap n B)} {F F' sh sh'} (h : Channelwise pool F sh) (h' : Channelwise pool' F' sh') :
    Channelwise (fun x => do pool' (← pool x)) (fun s v p => F' (sh s) (F s v) p) (fun s => sh' (sh s)) := by
  constructor
  · intro x y hy
    obtain ⟨z, h1, h2⟩ := bind_ok hy
    obtain ⟨a1, a2, a3⟩ := h.spec x z h1
    obtain ⟨b1, b2, b3⟩ := h'.spec z y h2
    refine ⟨b1.trans a1, by rw [b2, a2], fun b c p => ?_⟩
    rw [b3, a2]
    congr 1
    funext q
    exact a3 b c q
  · intro x x' y hy hs
    obtain ⟨z, h1, h2⟩ := bind_ok hy
    obtain ⟨z', h3⟩ := h.total x x' z h1 hs
    obtain ⟨y', h4⟩ := h'.total z z' y h2 (by rw [(h.spec x z h1).2.1, (h.spec x' z' h3).2.1, hs])
    exact ⟨y', by simp only [bind, Except.bind, h3, h4]⟩

/-- `F` is linear. -/
def LinearPool (F : (Fin n → ℕ) → ((Fin n → ℕ) → ℝ) → (Fin n → ℕ) → ℝ) : Prop :=
  ∀ (s : Fin n → ℕ) (m : ℕ) (a : ℕ → ℝ) (v : ℕ → (Fin n → ℕ) → ℝ) (p : Fin n → ℕ), F s (fun q => ∑ j ∈ Finset.range m, a j * v j q) p = ∑ j ∈ Finset.range m, a j * F s (v j) p

theorem LinearPool.comp {F F' : (Fin n → ℕ) → ((Fin n → ℕ) → ℝ) → (Fin n → ℕ) → ℝ} (h : LinearPool F) (h' : LinearPool F') (sh : (Fin n → ℕ) → Fin n → ℕ) : LinearPool (fun s v p => F' (sh s) (F s v) p) := by
  intro s m a v p
  beta_reduce
  rw [show F s (fun q => ∑ j ∈ Finset.range m, a j * v j q) = fun q => ∑ j ∈ Finset.range m, a j * F s (v j) q from funext fun q => h s m a v q]
  exact h' _ m a _ p

section
variable {pool : FMap n B → Except Err (FMap n B)} {F : (Fin n → ℕ) → ((Fin n → ℕ) → ℝ) → (Fin n → ℕ) → ℝ} {sh : (Fin n → ℕ) → Fin n → ℕ} {t : FType S (Rep G Id)}
  {f : GMap n B S (Rep G Id) → Except Err (GMap n B S (Rep G Id))}

theorem Channelwise.fields (h : Channelwise pool F sh) (hf : ∀ x, x.type = t → f x = do GMap.mk' Rep.size (← pool x.map) t) :
    (∀ x y : GMap n B S (Rep G Id), x.type = t → x.map.chans = t.size Rep.size → f x = .ok y → y.type = t ∧ y.map.chans = t.size Rep.size ∧ y.map.shape = sh x.map.shape ∧
      ∀ (k : ℕ) (r : Rep G Id), t.reprs[k]? = some r → ∀ o < r.size, ∀ b p, y.map.get b (chanOffset Rep.size t.reprs k + o) p = F x.map.shape (x.map.get b (chanOffset Rep.size t.reprs k + o)) p) := by
  intro x y hx hc hy
  rw [hf x hx] at hy
  obtain ⟨z, h1, h2⟩ := bind_ok hy
  obtain ⟨rfl, h3⟩ := GMap.mk'_ok h2
  obtain ⟨a1, a2, a3⟩ := h.spec _ _ h1
  exact ⟨rfl, h3, a2, fun k r _ o _ b p => a3 b _ p⟩

theorem Channelwise.defined (h : Channelwise pool F sh) (hf : ∀ x, x.type = t → f x = do GMap.mk' Rep.size (← pool x.map) t) (hf' : ∀ x, x.type ≠ t → f x = .error .assertion) :
    ∀ x x' y : GMap n B S (Rep G Id), f x = .ok y → x'.type = x.type → x'.map.chans = x.map.chans → x'.map.shape = x.map.shape → ∃ y', f x' = .ok y' := by
  intro x x' y hy ht hc hs
  by_cases hx : x.type = t
  · rw [hf x hx] at hy
    obtain ⟨z, h1, h2⟩ := bind_ok hy
    obtain ⟨-, h3⟩ := GMap.mk'_ok h2
    obtain ⟨z', h4⟩ := h.total _ _ _ h1 hs
    refine ⟨⟨z', t⟩, ?_⟩
    rw [hf x' (ht.trans hx)]
    simp only [bind, Except.bind, h4]
    exact if_pos (by rw [(h.spec _ _ h4).1, hc, ← (h.spec _ _ h1).1, h3])
  · rw [hf' x hx] at hy
    cases hy

/-- An operation on each channel commutes with permutations of the channels. -/
theorem Channelwise.perm (h : Channelwise pool F sh) (hf : ∀ x, x.type = t → f x = do GMap.mk' Rep.size (← pool x.map) t) (hf' : ∀ x, x.type ≠ t → f x = .error .assertion)
    (ht : ∀ r ∈ t.reprs, ∀ g, El g → IsPermMat r.size (r.mat g)) : MapFibreEquivariant El t t f := by
  have hsq : t.Square El := fun r hr g hg => ⟨(ht r hr g hg).1, (ht r hr g hg).2.1⟩
  refine MapFibreEquivariant.of_fields hsq hsq (fun x k o b p => F x.shape (x.get b (chanOffset Rep.size t.reprs k + o)) p) sh (h.fields hf) (h.defined hf hf') ?_
  intro g hg x gx hs hact k r hk o ho b p
  obtain ⟨σ, hσ⟩ := (ht r (List.mem_of_getElem? hk) g hg).perm
  rw [hσ (fun j => F x.shape (x.get b (chanOffset Rep.size t.reprs k + j)) p) ⟨o, ho⟩, hs]
  congr 1
  funext q
  have := hact k r hk b o q ho
  simp only at this
  rw [this]
  exact hσ (fun j => x.get b (chanOffset Rep.size t.reprs k + j) q) ⟨o, ho⟩

/-- A linear operation on each channel commutes with every linear action on the channels. -/
theorem Channelwise.linear (h : Channelwise pool F sh) (hlin : LinearPool F) (hf : ∀ x, x.type = t → f x = do GMap.mk' Rep.size (← pool x.map) t) (hf' : ∀ x, x.type ≠ t → f x = .error .assertion)
    (ht : t.Square El) : MapFibreEquivariant El t t f := by
  refine MapFibreEquivariant.of_fields ht ht (fun x k o b p => F x.shape (x.get b (chanOffset Rep.size t.reprs k + o)) p) sh (h.fields hf) (h.defined hf hf') ?_
  intro g hg x gx hs hact k r hk o ho b p
  beta_reduce
  rw [hs, ← hlin x.shape r.size (fun j => (r.mat g).get o j) (fun j q => x.get b (chanOffset Rep.size t.reprs k + j) q) p]
  congr 1
  funext q
  have := hact k r hk b o q ho
  simpa only using this

end

end Escnn
