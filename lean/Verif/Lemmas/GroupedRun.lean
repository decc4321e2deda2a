import Verif.Lemmas.RunTable

/-!
# Group-wise processing with any order of the labels
-/

namespace Escnn

variable {B P P' S R R' L : Type} [DecidableEq L] {sz : R → ℕ}

theorem labelled_nodup (labels : List L) (l : L) : (labelled labels l).Nodup := List.nodup_range.filter _

/-- `d` holds the fields of `x` with label `l`, one after the other. -/
def Holds (sz : R → ℕ) (rs : List R) (labels : List L) (s : ℕ) (x : FTensor B P) (l : L) (d : FTensor B P) : Prop :=
  d.chans = (labelled labels l).length * s ∧
    ∀ n k : ℕ, (labelled labels l)[n]? = some k → ∀ b o p, o < s → d.get b (n * s + o) p = x.get b (chanOffset sz rs k + o) p

/-- Group-wise processing in terms of fields: if for each label `l` the `n`-th field of the result computed by `F l` is `φ l n k`, where `k` is the position of the `n`-th field with that label,
the loop writes `φ l n k` to the channels of field `k` of the output. -/
theorem groupedLoop_run {rs : List R} {rs' : List R'} {sz' : R' → ℕ} {labels ls : List L} {tin tout : List (L × Bool × List ℕ)} {s s' : L → ℕ}
    {F : L → FTensor B P → Except Err (FTensor B P')} {x : FTensor B P} {out : FTensor B P'} (φ : L → ℕ → ℕ → B → ℕ → P' → ℝ)
    (hls : ls.Nodup) (hmem : ∀ l, l ∈ ls ↔ l ∈ labels)
    (hl : labels.length = rs.length) (hl' : labels.length = rs'.length)
    (hs : ∀ (k : ℕ) l r, labels[k]? = some l → rs[k]? = some r → sz r = s l) (hs' : ∀ (k : ℕ) l r, labels[k]? = some l → rs'[k]? = some r → sz' r = s' l)
    (hin : Tab sz rs labels tin) (hout : Tab sz' rs' labels tout)
    (hx : x.chans = (rs.map sz).sum) (ho : out.chans = (rs'.map sz').sum)
    (hF : ∀ l ∈ labels, ∀ d : FTensor B P, Holds sz rs labels (s l) x l d → ∃ e, F l d = .ok e ∧ e.chans = (labelled labels l).length * s' l ∧
      ∀ n k : ℕ, (labelled labels l)[n]? = some k → ∀ b o p, o < s' l → e.get b (n * s' l + o) p = φ l n k b o p) :
    ∃ res, groupedLoop F tin tout x out ls = .ok res ∧ res.chans = (rs'.map sz').sum ∧
      ∀ (k : ℕ) l, labels[k]? = some l → ∀ b o p, o < s' l → res.get b (chanOffset sz' rs' k + o) p = φ l ((labelled labels l).idxOf k) k b o p := by
  obtain ⟨res, h1, h2, h3, -⟩ := groupedLoop_spec (F := F) (tin := tin) (tout := tout) (x := x) (I := labelIdx sz rs labels) (O := labelIdx sz' rs' labels)
    (E := fun l => ⟨(labelled labels l).length * s' l, fun b c p => φ l (c / s' l) ((labelled labels l).getD (c / s' l) 0) b (c % s' l) p⟩) ls out
    (fun l hl => hin l ((hmem l).1 hl)) (fun l _ i hi => by rw [hx]; exact labelIdx_lt hi)
    (fun l hl => hout l ((hmem l).1 hl)) (fun l _ i hi => by rw [ho]; exact labelIdx_lt hi)
    (fun l _ => labelIdx_nodup hl' l) (fun l _ l' _ i hi hi' => labelIdx_disjoint hi hi') hls
    (fun l hlm d hd1 hd2 => by
      have hlen := labelIdx_length hl l (s l) (sz := sz) (fun k r => hs k l r)
      obtain ⟨e, e1, e2, e3⟩ := hF l ((hmem l).1 hlm) d ⟨by rw [hd1, hlen], fun n k hn b o p ho => hd2 b _ _ p (labelIdx_get hl l (s l) (fun k r => hs k l r) hn ho)⟩
      refine ⟨e, e1, e2, fun b c p hc => ?_⟩
      rw [e2] at hc
      have hs0 : 0 < s' l := by
        rcases Nat.eq_zero_or_pos (s' l) with h | h
        · simp [h] at hc
        · exact h
      have hn : c / s' l < (labelled labels l).length := Nat.div_lt_of_lt_mul (by rw [Nat.mul_comm]; exact hc)
      have := e3 (c / s' l) _ (List.getElem?_eq_getElem hn) b (c % s' l) p (Nat.mod_lt _ hs0)
      rw [Nat.div_add_mod'] at this
      simp only [this]
      congr 1
      simp [List.getD, hn])
    (fun l _ => (labelIdx_length hl' l (s' l) (fun k r => hs' k l r)).symm)
  refine ⟨res, h1, h2.trans ho, fun k l hk b o p hos => ?_⟩
  have hkm : k ∈ labelled labels l := mem_labelled.2 hk
  have hn : (labelled labels l)[(labelled labels l).idxOf k]? = some k := by
    rw [List.getElem?_eq_getElem (List.idxOf_lt_length_of_mem hkm), List.getElem_idxOf]
  have := h3 l ((hmem l).2 (List.mem_of_getElem? hk)) b _ _ p (labelIdx_get hl' l (s' l) (fun k r => hs' k l r) hn hos)
  have hs0 : 0 < s' l := by omega
  rw [this]
  simp only
  rw [Nat.mul_comm, Nat.mul_add_div hs0, Nat.div_eq_of_lt hos, Nat.mul_add_mod, Nat.mod_eq_of_lt hos, add_zero]
  simp [List.getD, hn]

/-- What `view(b, n, s, ...)` gives. -/
theorem Holds.toFields {rs : List R} {labels : List L} {s : ℕ} {x d : FTensor B P} {l : L} (h : Holds sz rs labels s x l d) :
    ∃ f, d.toFields (labelled labels l).length s = .ok f ∧ f.n = (labelled labels l).length ∧ f.size = s ∧
      ∀ n k : ℕ, (labelled labels l)[n]? = some k → ∀ b o p, o < s → f.get b n o p = x.get b (chanOffset sz rs k + o) p :=
  ⟨_, if_pos h.1, rfl, rfl, h.2⟩

theorem FieldsT.flat_get (f : FieldsT B P) (b : B) {n o : ℕ} (p : P) (ho : o < f.size) : f.flat.get b (n * f.size + o) p = f.get b n o p := by
  have hs0 : 0 < f.size := by omega
  simp only [FieldsT.flat]
  rw [Nat.mul_comm, Nat.mul_add_div hs0, Nat.div_eq_of_lt ho, Nat.mul_add_mod, Nat.mod_eq_of_lt ho, add_zero]

theorem labelled_length (labels : List L) (l : L) : (labelled labels l).length = labels.count l := by
  induction labels using List.reverseRecOn with
  | nil => rfl
  | append_singleton pre a ih =>
    rw [labelled_append, List.length_append, ih, List.count_append]
    congr 1
    by_cases h : a = l
    · simp [h]
    · simp [h]

end Escnn
