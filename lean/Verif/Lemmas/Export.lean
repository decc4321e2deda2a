import Verif.Spec.Export
import Verif.Model.Export
import Verif.Lemmas.Conv
import Verif.Props.C47_Shapes

/-!
# Operations on feature maps which are equal on their shapes
-/

namespace Escnn

open NdArr

variable {n : ℕ} {B S G Id A : Type}

theorem SameResult.bind {X Y X' Y' : Type} {R : X → Y → Prop} {Q : X' → Y' → Prop} {r : Except Err X} {r' : Except Err Y} (h : SameResult R r r') {f : X → Except Err X'} {g : Y → Except Err Y'}
    (hf : ∀ a b, R a b → SameResult Q (f a) (g b)) : SameResult Q (r >>= f) (r' >>= g) := by
  rcases h with ⟨y, w, rfl, rfl, hR⟩ | ⟨⟨e, rfl⟩, e', rfl⟩
  · exact hf y w hR
  · exact .inr ⟨⟨e, rfl⟩, e', rfl⟩

theorem SameResult.ite {X Y : Type} {R : X → Y → Prop} {c c' : Prop} [Decidable c] [Decidable c'] (hc : c ↔ c') {a : Except Err X} {b : Except Err Y} (h : c → SameResult R a b) (e e' : Err) :
    SameResult R (if c then a else .error e) (if c' then b else .error e') := by
  by_cases h1 : c
  · rw [if_pos h1, if_pos (hc.1 h1)]; exact h h1
  · rw [if_neg h1, if_neg fun h2 => h1 (hc.2 h2)]; exact .inr ⟨⟨e, rfl⟩, e', rfl⟩

theorem SameResult.ok {X Y : Type} {R : X → Y → Prop} {a : X} {b : Y} (h : R a b) : SameResult R (.ok a) (.ok b) := .inl ⟨a, b, rfl, rfl, h⟩

theorem padMap_congr (m : PadMode) (p : Fin n → ℕ) {x z : FMap n B} (h : x ≈ z) : SameResult (fun y w => y ≈ w) (padMap m p x) (padMap m p z) := by
  obtain ⟨h1, h2, h3⟩ := h
  unfold padMap
  classical
  refine SameResult.ite (by rw [h2]) (fun hok => SameResult.ok ⟨h1, by simp only [h2], fun b c hc k hk => ?_⟩) _ _
  have hk' : ∀ i, k i < x.shape i + 2 * p i := hk
  simp only [← h2]
  by_cases hs : ∀ i, (padIndex m (x.shape i) ((k i : ℤ) - p i)).isSome
  · rw [if_pos hs, if_pos hs]
    refine h3 b c hc _ fun i => ?_
    obtain ⟨q, hq⟩ := Option.isSome_iff_exists.1 (hs i)
    rw [hq]
    have := hk' i
    exact padIndex_lt (hok i) (by omega) (by omega) hq
  · rw [if_neg hs, if_neg hs]

theorem convValid_congr (F : Kern) (k stride dil groups : ℕ) (b : Option (ℕ → ℝ)) {x z : FMap n B} (h : x ≈ z) : SameResult (fun y w => y ≈ w) (convValid F k stride dil groups b x) (convValid F k stride dil groups b z) := by
  obtain ⟨h1, h2, h3⟩ := h
  unfold convValid
  classical
  refine SameResult.ite (by rw [h1, h2]) (fun hok => SameResult.ok ⟨rfl, by simp only [h2], fun s o ho p hp => ?_⟩) _ _
  obtain ⟨hk, hs, hd, hg, hmod, hch, hw⟩ := hok
  have hp' : ∀ i, p i < (x.shape i - dil * (k - 1) - 1) / stride + 1 := hp
  have ho' : o < F.rows := ho
  simp only
  congr 1
  refine Finset.sum_congr rfl fun c hc => Finset.sum_congr rfl fun u _ => ?_
  congr 1
  have hdiv : F.rows / groups * groups = F.rows := Nat.div_mul_cancel (Nat.dvd_of_mod_eq_zero hmod)
  have ht : o / (F.rows / groups) < groups := Nat.div_lt_of_lt_mul (by rw [hdiv]; exact ho')
  refine h3 s _ ?_ _ fun i => ?_
  · rw [hch]
    have := Finset.mem_range.1 hc
    nlinarith
  · have e1 : p i ≤ (x.shape i - dil * (k - 1) - 1) / stride := Nat.lt_succ_iff.1 (hp' i)
    have e2 : p i * stride ≤ x.shape i - dil * (k - 1) - 1 := (Nat.mul_le_mul_right _ e1).trans (Nat.div_mul_le_self _ _)
    have e3 : (u i : ℕ) * dil ≤ dil * (k - 1) := by rw [mul_comm]; exact Nat.mul_le_mul_left _ (by have := (u i).isLt; omega)
    have e4 := hw i
    show p i * stride + (u i : ℕ) * dil < x.shape i
    omega

theorem convNd_congr (F : Kern) (k stride : ℕ) (p : Fin n → ℕ) (dil groups : ℕ) (b : Option (ℕ → ℝ)) {x z : FMap n B} (h : x ≈ z) :
    SameResult (fun y w => y ≈ w) (convNd F k stride p dil groups b x) (convNd F k stride p dil groups b z) := (padMap_congr .zeros p h).bind fun _ _ h => convValid_congr F k stride dil groups b h

theorem backPos_lt {w stride dil pad u p q : ℕ} (h : backPos w stride dil pad u p = some q) : q < w := by
  unfold backPos at h
  split_ifs at h with hc
  cases h
  exact hc.2.2

theorem convTransposeNd_congr (W : Kern) (k stride : ℕ) (pad opad : Fin n → ℕ) (dil groups : ℕ) (b : Option (ℕ → ℝ)) {x z : FMap n B} (h : x ≈ z) :
    SameResult (fun y w => y ≈ w) (convTransposeNd W k stride pad opad dil groups b x) (convTransposeNd W k stride pad opad dil groups b z) := by
  obtain ⟨h1, h2, h3⟩ := h
  unfold convTransposeNd
  classical
  refine SameResult.ite (by rw [h1, h2]) (fun hok => SameResult.ok ⟨rfl, by simp only [h2], fun s o ho p hp => ?_⟩) _ _
  obtain ⟨hk, hs, hd, hg, hch, hmod, hw⟩ := hok
  have ho' : o < W.cols * groups := ho
  simp only [← h2]
  congr 1
  refine Finset.sum_congr rfl fun c hc => Finset.sum_congr rfl fun u _ => ?_
  by_cases hb : ∀ i, (backPos (x.shape i) stride dil (pad i) (u i) (p i)).isSome
  · rw [if_pos hb, if_pos hb]
    congr 1
    refine h3 s _ ?_ _ fun i => ?_
    · rw [hch]
      have ht : o / W.cols < groups := Nat.div_lt_of_lt_mul ho'
      have hdiv : W.rows / groups * groups = W.rows := Nat.div_mul_cancel (Nat.dvd_of_mod_eq_zero hmod)
      have := Finset.mem_range.1 hc
      nlinarith
    · obtain ⟨q, hq⟩ := Option.isSome_iff_exists.1 (hb i)
      rw [hq]
      exact backPos_lt hq
  · rw [if_neg hb, if_neg hb]

theorem mk'_holds {t : FType S (Rep G Id)} {y w : FMap n B} (h : y ≈ w) (hc : y.chans = t.size Rep.size) : SameResult (HoldsMap t) (GMap.mk' Rep.size y t) (.ok w) := .inl ⟨⟨y, t⟩, w, if_pos hc, rfl, rfl, hc, h⟩

/-- A module which checks the type, computes a function of the tensor, and wraps the result. -/
theorem wrap_same {inT outT : FType S (Rep G Id)} {f : GMap n B S (Rep G Id) → Except Err (GMap n B S (Rep G Id))} {k h : FMap n B → Except Err (FMap n B)}
    (hf : ∀ x, x.type = inT → f x = (k x.map >>= fun y => GMap.mk' Rep.size y outT)) (hk : ∀ x z, x ≈ z → x.chans = inT.size Rep.size → SameResult (fun y w => y ≈ w) (k x) (h z))
    (hc : ∀ x y, x.chans = inT.size Rep.size → k x = .ok y → y.chans = outT.size Rep.size) : SameFunction (HoldsMap inT) (HoldsMap outT) f h := by
  intro x z ⟨h1, h2, h3⟩
  rw [hf x h1]
  rcases hk _ _ h3 h2 with ⟨y, w, e1, e2, e3⟩ | ⟨⟨e, e1⟩, e', e2⟩
  · have := mk'_holds e3 (hc _ _ h2 e1)
    rw [e1, e2]
    exact this
  · rw [e1, e2]
    exact .inr ⟨⟨e, rfl⟩, e', rfl⟩

end Escnn
