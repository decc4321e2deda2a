import Verif.Model.GTensor

/-!
# Two computations which give related values or the same exception
-/

namespace Escnn

/-- Related values or the same exception. -/
def ExRel {α β : Type} (R : α → β → Prop) : Except Err α → Except Err β → Prop
  | .ok a, .ok b => R a b
  | .error e, .error e' => e = e'
  | _, _ => False

namespace ExRel

theorem refl {α : Type} {R : α → α → Prop} (h : ∀ a, R a a) (x : Except Err α) : ExRel R x x := by
  cases x
  · rfl
  · exact h _

theorem of_eq {α : Type} {R : α → α → Prop} (h : ∀ a, R a a) {x y : Except Err α} (e : x = y) : ExRel R x y := e ▸ refl h x

theorem bind {α β γ δ : Type} {R : α → β → Prop} {S : γ → δ → Prop} {x : Except Err α} {y : Except Err β} {f : α → Except Err γ} {g : β → Except Err δ} (h : ExRel R x y)
    (hf : ∀ a b, R a b → ExRel S (f a) (g b)) : ExRel S (x >>= f) (y >>= g) := by
  cases x with
  | error e => cases y with
    | error e' => exact h
    | ok b => exact h.elim
  | ok a => cases y with
    | error e' => exact h.elim
    | ok b => exact hf a b h

theorem mapE {α β γ : Type} {R : β → γ → Prop} {f : α → Except Err β} {g : α → Except Err γ} : ∀ {L : List α}, (∀ a ∈ L, ExRel R (f a) (g a)) →
    ExRel (List.Forall₂ R) (mapE f L) (Escnn.mapE g L)
  | [], _ => List.Forall₂.nil
  | a :: L, h => by
    unfold Escnn.mapE
    have h1 := h a (by simp)
    have h2 := mapE fun a ha => h a (List.mem_cons_of_mem _ ha)
    cases hf : f a <;> cases hg : g a <;> rw [hf, hg] at h1
    · exact h1
    · exact h1.elim
    · exact h1.elim
    · cases hM : Escnn.mapE f L <;> cases hN : Escnn.mapE g L <;> rw [hM, hN] at h2
      · exact h2
      · exact h2.elim
      · exact h2.elim
      · exact List.Forall₂.cons h1 h2

theorem ok_left {α β : Type} {R : α → β → Prop} {x : Except Err α} {y : Except Err β} (h : ExRel R x y) {a : α} (hx : x = .ok a) : ∃ b, y = .ok b ∧ R a b := by
  subst hx
  cases y with
  | error e => exact h.elim
  | ok b => exact ⟨b, rfl, h⟩

theorem bind_ok {α β : Type} {m : Except Err α} {f : α → Except Err β} {y : β} (h : (m >>= f) = .ok y) : ∃ a, m = .ok a ∧ f a = .ok y := by
  cases m with
  | error e => cases h
  | ok a => exact ⟨a, rfl, h⟩

end ExRel

end Escnn
