import Verif.Lemmas.Export
import Verif.Lemmas.LabelLoop
import Verif.Lemmas.StatLoop

/-!
# Exported modules on tensors whose positions are one index, and the loops which write the buffers
-/

namespace Escnn

variable {B P S G Id C : Type}

/-- A module which checks the type, computes a function of the tensor, and wraps the result. -/
theorem wrapT_same {inT outT : FType S (Rep G Id)} {f : GTensor B P S (Rep G Id) C → Except Err (GTensor B P S (Rep G Id) C)} {k h : FTensor B P → Except Err (FTensor B P)}
    (hf : ∀ x, x.type = inT → f x = (k x.tensor >>= fun y => GTensor.mk' Rep.size y outT x.coords))
    (hk : ∀ x z : FTensor B P, x ≈ z → x.chans = inT.size Rep.size → SameResult (fun y w => y ≈ w) (k x) (h z))
    (hc : ∀ x y : FTensor B P, x.chans = inT.size Rep.size → k x = .ok y → y.chans = outT.size Rep.size) : SameFunction (HoldsTensor inT) (HoldsTensor outT) f h := by
  intro x z ⟨h1, h2, h3⟩
  rw [hf x h1]
  rcases hk _ _ h3 h2 with ⟨y, w, e1, e2, e3⟩ | ⟨⟨e, e1⟩, e', e2⟩
  · rw [e1, e2]
    exact .inl ⟨⟨y, outT, x.coords⟩, w, if_pos (hc _ _ h2 e1), rfl, rfl, hc _ _ h2 e1, e3⟩
  · rw [e1, e2]
    exact .inr ⟨⟨e, rfl⟩, e', rfl⟩

/-- Two tensors are equal if they agree on all the fields. -/
theorem equiv_of_fields {t : FType S (Rep G Id)} {x y : FTensor B P} (h1 : x.chans = t.size Rep.size) (h2 : y.chans = t.size Rep.size)
    (h : ∀ (k : ℕ) r, t.reprs[k]? = some r → ∀ o < r.size, ∀ b p, x.get b (chanOffset Rep.size t.reprs k + o) p = y.get b (chanOffset Rep.size t.reprs k + o) p) : x ≈ y := by
  refine ⟨h1.trans h2.symm, fun b c p hc => ?_⟩
  rw [h1, FType.size_eq] at hc
  obtain ⟨k, r, o, hk, ho, rfl⟩ := exists_field hc
  exact h k r hk o ho b p

theorem writeLoop_of_grouped {L : Type} [DecidableEq L] {F : L → Except Err (FTensor Unit Unit)} {tab : List (L × Bool × List ℕ)} {x res : FTensor Unit Unit} {ls : List L} :
    ∀ {out : FTensor Unit Unit}, groupedLoop (fun l _ => F l) tab tab x out ls = .ok res → writeLoop F tab out ls = .ok res := by
  induction ls with
  | nil => exact fun h => h
  | cons l ls ih =>
    intro out h
    unfold groupedLoop at h
    obtain ⟨i, h1, h⟩ := bind_ok h
    obtain ⟨d, -, h⟩ := bind_ok h
    obtain ⟨e, h3, h⟩ := bind_ok h
    obtain ⟨o, h4, h⟩ := bind_ok h
    obtain ⟨out', h5, h6⟩ := bind_ok h
    obtain rfl : i = o := Except.ok.inj (h1.symm.trans h4)
    unfold writeLoop
    simp only [h1, h3, h5, bind, Except.bind]
    exact ih h6

theorem writeLoop_steps {L : Type} [DecidableEq L] {F : L → Except Err (FTensor Unit Unit)} {tab : List (L × Bool × List ℕ)} {res : FTensor Unit Unit} {ls : List L} :
    ∀ {out : FTensor Unit Unit}, writeLoop F tab out ls = .ok res → ∀ l ∈ ls, ∃ e, F l = .ok e := by
  induction ls with
  | nil => simp
  | cons l ls ih =>
    intro out h
    unfold writeLoop at h
    obtain ⟨i, h1, h⟩ := bind_ok h
    obtain ⟨e, h3, h⟩ := bind_ok h
    obtain ⟨out', h5, h⟩ := bind_ok h
    intro l' hl'
    rcases List.mem_cons.1 hl' with rfl | hl'
    · exact ⟨e, h3⟩
    · exact ih h l' hl'

/-- The loop over the names writes the values `v r n o` of entry `o` of the `n`-th field with the representation `r`. -/
theorem nameWrite {t : FType S (Rep G Id)} (hpos : ∀ r ∈ t.reprs, 0 < r.size) (hn : NamesApart t.reprs) {uniq : List (Rep G Id)} (hnd : uniq.Nodup) (hu : ∀ r, r ∈ uniq ↔ r ∈ t.reprs)
    {tab : List (String × Bool × List ℕ)} (htab : runTable Rep.size t (t.reprs.map Rep.name) = .ok tab) {F : String → Except Err (FTensor Unit Unit)} (v : Rep G Id → ℕ → ℕ → ℝ)
    (hF : ∀ r ∈ t.reprs, F r.name = .ok (fieldVec ((t.reprs.map Rep.name).count r.name) r.size (v r))) (u : ℕ → ℝ) :
    ∃ res, writeLoop F tab (chanVec (t.size Rep.size) u) (uniq.map Rep.name) = .ok res ∧
      ∀ (k : ℕ) r, t.reprs[k]? = some r → ∀ o < r.size, vecOf res (chanOffset Rep.size t.reprs k + o) = v r ((labelled (t.reprs.map Rep.name) r.name).idxOf k) o := by
  obtain ⟨res, h1, -, h3⟩ := nameLoop_run hpos hn hnd hu htab (F := fun l _ => F l) (x := chanVec (t.size Rep.size) u) (out := chanVec (t.size Rep.size) u) rfl rfl (fun r n _ _ o _ => v r n o)
    (fun r hr d f _ e2 _ _ => ⟨⟨(t.reprs.map Rep.name).count r.name, r.size, fun _ i o _ => v r i o⟩, hF r hr, e2.symm, rfl, fun _ _ _ _ _ _ _ => rfl⟩)
  exact ⟨res, writeLoop_of_grouped h1, fun k r hk o ho => h3 k r hk () o () ho⟩

/-- The loop over the sizes. -/
theorem sizeWrite {t : FType S (Rep G Id)} {tab : List (ℕ × Bool × List ℕ)} (htab : Tab Rep.size t.reprs (t.reprs.map Rep.size) tab) {F : ℕ → Except Err (FTensor Unit Unit)} (v : ℕ → ℕ → ℝ)
    (hF : ∀ s ∈ t.reprs.map Rep.size, F s = .ok (fieldVec ((t.reprs.map Rep.size).count s) s fun i _ => v s i)) (u : ℕ → ℝ) :
    ∃ res, writeLoop F tab (chanVec (t.size Rep.size) u) (keysInOrder (t.reprs.map Rep.size)) = .ok res ∧
      ∀ (k : ℕ) r, t.reprs[k]? = some r → ∀ o < r.size, vecOf res (chanOffset Rep.size t.reprs k + o) = v r.size ((labelled (t.reprs.map Rep.size) r.size).idxOf k) := by
  obtain ⟨res, h1, -, h3⟩ := labelLoop_tab (sz := Rep.size) (t := t) (labels := t.reprs.map Rep.size) (by simp) (s := id) (fun k l r hl hr => by
      rw [List.getElem?_map, hr] at hl
      simpa using hl) htab (keysInOrder_nodup _) (fun s => mem_keysInOrder) (F := fun l _ => F l) (x := chanVec (t.size Rep.size) u) (out := chanVec (t.size Rep.size) u) rfl rfl (fun s n _ _ _ _ => v s n)
    (fun s hs d f _ e2 _ _ => ⟨⟨(t.reprs.map Rep.size).count s, s, fun _ i _ _ => v s i⟩, hF s hs, e2.symm, rfl, fun _ _ _ _ _ _ _ => rfl⟩)
  exact ⟨res, writeLoop_of_grouped h1, fun k r hk o ho => h3 k r.size (by rw [List.getElem?_map, hk]; rfl) () o () ho⟩

end Escnn
