import Verif.Lemmas.PoolTables
import Verif.Spec.Invariant
import Verif.Props.C49_Norm
import Verif.Props.C50_Gated

/-!
# C55: group pooling and norm pooling are invariant
-/

namespace Escnn

variable {B P S G Id C L : Type} {El : G → Prop}

theorem maxOf_isGreatest {n : ℕ} (hn : 0 < n) (v : ℕ → ℝ) : IsGreatest (v '' Set.Iio n) (maxOf n v) := by
  have hne : (List.range n).map v ≠ [] := by simp; omega
  obtain ⟨a, ha⟩ := Option.isSome_iff_exists.1 (List.isSome_max?_iff.2 hne)
  have : maxOf n v = a := by rw [maxOf, ha]; rfl
  rw [this]
  rw [List.max?_eq_some_iff] at ha
  obtain ⟨h1, h2⟩ := ha
  obtain ⟨i, hi, e⟩ := List.mem_map.1 h1
  refine ⟨⟨i, List.mem_range.1 hi, e⟩, ?_⟩
  rintro _ ⟨j, hj, rfl⟩
  exact h2 _ (List.mem_map.2 ⟨j, List.mem_range.2 hj, rfl⟩)

theorem maxOf_congr {n : ℕ} {v w : ℕ → ℝ} (h : ∀ o < n, v o = w o) : maxOf n v = maxOf n w := by
  unfold maxOf
  rw [List.map_congr_left fun o ho => h o (List.mem_range.1 ho)]

theorem maxOf_perm {n : ℕ} (hn : 0 < n) (v w : ℕ → ℝ) (σ : Equiv.Perm (Fin n)) (h : ∀ i : Fin n, w i = v (σ i)) : maxOf n w = maxOf n v := by
  refine (maxOf_isGreatest hn w).unique ?_
  have : w '' Set.Iio n = v '' Set.Iio n := by
    ext z
    constructor
    · rintro ⟨i, hi, rfl⟩
      exact ⟨σ ⟨i, hi⟩, (σ ⟨i, hi⟩).2, (h ⟨i, hi⟩).symm⟩
    · rintro ⟨i, hi, rfl⟩
      refine ⟨σ.symm ⟨i, hi⟩, (σ.symm ⟨i, hi⟩).2, ?_⟩
      rw [h]
      simp
  rw [this]
  exact maxOf_isGreatest hn v

theorem fieldNormOf_congr {n : ℕ} {v w : ℕ → ℝ} (h : ∀ o < n, v o = w o) : fieldNormOf n v = fieldNormOf n w := by
  unfold fieldNormOf
  rw [Finset.sum_congr rfl fun o ho => by rw [h o (Finset.mem_range.1 ho)]]

theorem chanOffset_ones {rs : List (Rep G Id)} (h1 : ∀ r ∈ rs, r.size = 1) {k : ℕ} (hk : k ≤ rs.length) : chanOffset Rep.size rs k = k := by
  have : (rs.take k).map Rep.size = List.replicate k 1 := by
    rw [List.eq_replicate_iff]
    refine ⟨by simp; omega, fun z hz => ?_⟩
    obtain ⟨r', hr', rfl⟩ := List.mem_map.1 hz
    exact h1 r' (List.mem_of_mem_take hr')
  rw [chanOffset, this]
  simp

/-- A module whose output has one invariant number for each field. -/
theorem FibreInvariant.of_fields {inT outT : FType S (Rep G Id)} (hin : inT.Square El) (hlen : outT.reprs.length = inT.reprs.length) (h1 : ∀ r ∈ outT.reprs, r.size = 1)
    {f : GTensor B P S (Rep G Id) C → Except Err (GTensor B P S (Rep G Id) C)} (Ψ : FTensor B P → ℕ → B → P → ℝ)
    (hf : ∀ x : GTensor B P S (Rep G Id) C, x.type = inT → x.tensor.chans = inT.size Rep.size → ∃ y, f x = .ok y ∧ y.type = outT ∧ y.coords = x.coords ∧
      y.tensor.chans = outT.size Rep.size ∧ ∀ k < inT.reprs.length, ∀ b p, y.tensor.get b k p = Ψ x.tensor k b p)
    (heq : ∀ g, El g → ∀ x gx : FTensor B P, x.chans = inT.size Rep.size → gx.chans = inT.size Rep.size → FieldAct inT g x gx → ∀ k < inT.reprs.length, ∀ b p, Ψ gx k b p = Ψ x k b p) :
    FibreInvariant El inT outT f ∧ ((∀ r ∈ outT.reprs, ActsTrivially El r) → FibreEquivariant El inT outT f) := by
  constructor
  · intro x hx hc g hg
    obtain ⟨y, hy1, hy2, hy3, hy4, hy5⟩ := hf x hx hc
    obtain ⟨gx, e1, e2, e3⟩ := transformFibers_act hin hg x.tensor hc
    obtain ⟨gy, f1, f2, f3, f4, f5⟩ := hf ⟨gx, inT, x.coords⟩ rfl e2
    refine ⟨y, ⟨gx, inT, x.coords⟩, gy, hy1, hy2, hy4, ?_, f1, f2.trans hy2.symm, f3.trans hy3.symm, f4.trans hy4.symm, fun b c p hcc => ?_⟩
    · rw [GTensor.transformFibers, hx]
      simp only [bind, Except.bind, e1]
      exact if_pos e2
    · have hck : c < inT.reprs.length := by
        rw [f4, FType.size_eq, ← List.take_length (l := outT.reprs), show ((outT.reprs.take outT.reprs.length).map Rep.size).sum = chanOffset Rep.size outT.reprs outT.reprs.length from rfl,
          chanOffset_ones h1 le_rfl, hlen] at hcc
        exact hcc
      rw [f5 c hck, hy5 c hck]
      exact heq g hg x.tensor gx hc e2 e3 c hck b p
  · intro ht
    refine FibreEquivariant.of_fields hin (fun r hr g hg => by rw [h1 r hr]; exact ⟨((ht r hr).2 g hg).1, ((ht r hr).2 g hg).2.1⟩) (fun x k _ b p => Ψ x k b p) (fun x hx hc => ?_) ?_
    · obtain ⟨y, e1, e2, e3, e4, e5⟩ := hf x hx hc
      refine ⟨y, e1, e2, e3, e4, fun k r hk o ho b p => ?_⟩
      have hkl := (List.getElem?_eq_some_iff.1 hk).1
      rw [h1 r (List.mem_of_getElem? hk)] at ho
      obtain rfl : o = 0 := by omega
      rw [Nat.add_zero, chanOffset_ones h1 hkl.le]
      exact e5 k (hlen ▸ hkl) b p
    · intro g hg x gx hx hgx hact k r hk o ho b p
      have hkl := (List.getElem?_eq_some_iff.1 hk).1
      rw [h1 r (List.mem_of_getElem? hk)] at ho ⊢
      obtain rfl : o = 0 := by omega
      rw [heq g hg x gx hx hgx hact k (hlen ▸ hkl) b p, Finset.sum_range_one, ((ht r (List.mem_of_getElem? hk)).2 g hg).2.2, one_mul]

theorem PositionLocal.of_values {inT outT : FType S (Rep G Id)} (hlen : outT.reprs.length = inT.reprs.length) (h1 : ∀ r ∈ outT.reprs, r.size = 1)
    {f : GTensor B P S (Rep G Id) C → Except Err (GTensor B P S (Rep G Id) C)} (Ψ : FTensor B P → ℕ → B → P → ℝ)
    (hf : ∀ x : GTensor B P S (Rep G Id) C, x.type = inT → x.tensor.chans = inT.size Rep.size → ∃ y, f x = .ok y ∧ y.type = outT ∧ y.coords = x.coords ∧
      y.tensor.chans = outT.size Rep.size ∧ ∀ k < inT.reprs.length, ∀ b p, y.tensor.get b k p = Ψ x.tensor k b p)
    (hloc : ∀ (σ : P → P) (x : FTensor B P) k b p, Ψ ⟨x.chans, fun b c p => x.get b c (σ p)⟩ k b p = Ψ x k b (σ p)) : PositionLocal Rep.size inT f := by
  refine PositionLocal.of_fields (outT := outT) (fun x k _ b p => Ψ x k b p) (fun x hx hc => ?_) fun σ x k _ b p => hloc σ x k b p
  obtain ⟨y, e1, e2, e3, e4, e5⟩ := hf x hx hc
  refine ⟨y, e1, e2, e3, e4, fun k r hk o ho b p => ?_⟩
  have hkl := (List.getElem?_eq_some_iff.1 hk).1
  rw [h1 r (List.mem_of_getElem? hk)] at ho
  obtain rfl : o = 0 := by omega
  rw [Nat.add_zero, chanOffset_ones h1 hkl.le]
  exact e5 k (hlen ▸ hkl) b p

namespace PoolMap

theorem normInit_ok {triv : Rep G Id} (h1 : triv.size = 1) {t : FType S (Rep G Id)} (hpos : ∀ r ∈ t.reprs, 0 < r.size) :
    ∃ m, normInit triv t = .ok m ∧ m.inType = t ∧ m.outType = ⟨t.gspace, List.replicate t.reprs.length triv⟩ ∧ Tab Rep.size t.reprs (t.reprs.map Rep.size) m.tin ∧
      Tab Rep.size m.outType.reprs (t.reprs.map Rep.size) m.tout ∧ m.order.Nodup ∧ ∀ l, l ∈ m.order ↔ l ∈ t.reprs.map Rep.size := by
  obtain ⟨d, e1, e2, e3⟩ := poolTables_spec (sz := Rep.size) (sz' := Rep.size) t hpos (t.reprs.map Rep.size) (by simp) (List.replicate t.reprs.length triv) (by simp)
    (fun r hr => by rw [List.eq_of_mem_replicate hr, h1])
  refine ⟨⟨t, ⟨t.gspace, List.replicate t.reprs.length triv⟩, d.1, d.2, keysInOrder (t.reprs.map Rep.size)⟩, ?_, rfl, rfl, e2, e3, keysInOrder_nodup _, fun l => mem_keysInOrder⟩
  rw [normInit]
  simp only [bind, Except.bind, e1]
  rfl

theorem toFields_div (d : FTensor B P) {n s : ℕ} (hs : 0 < s) (hd : d.chans = n * s) : ∃ f, d.toFields (d.chans / s) s = .ok f ∧ f.n = n ∧ f.size = s ∧ ∀ b i o p, f.get b i o p = d.get b (i * s + o) p := by
  have e : d.chans / s = n := by rw [hd, Nat.mul_div_cancel _ hs]
  rw [e]
  refine ⟨_, if_pos hd, rfl, rfl, fun _ _ _ _ => rfl⟩

/-- What `NormPool` and `GroupPooling` compute. -/
theorem values_spec {triv : Rep G Id} (h1 : triv.size = 1) {t : FType S (Rep G Id)} (hpos : ∀ r ∈ t.reprs, 0 < r.size) {m : PoolMap ℕ S (Rep G Id)} (hm : normInit triv t = .ok m)
    {step : ℕ → FTensor B P → Except Err (FTensor B P)} (ψ : ℕ → (ℕ → ℝ) → ℝ) (hψ : ∀ l v w, (∀ o < l, v o = w o) → ψ l v = ψ l w)
    (hstep : ∀ s, 0 < s → ∀ (d : FTensor B P) n, d.chans = n * s → ∃ e, step s d = .ok e ∧ e.chans = n ∧ ∀ i < n, ∀ b p, e.get b i p = ψ s fun o => d.get b (i * s + o) p)
    (junk : B → ℕ → P → ℝ) (x : GTensor B P S (Rep G Id) C) (hx : x.type = t) (hc : x.tensor.chans = t.size Rep.size) :
    ∃ y, forward step junk m x = .ok y ∧ y.type = ⟨t.gspace, List.replicate t.reprs.length triv⟩ ∧ y.coords = x.coords ∧
      y.tensor.chans = (⟨t.gspace, List.replicate t.reprs.length triv⟩ : FType S (Rep G Id)).size Rep.size ∧
      ∀ (k : ℕ) r, t.reprs[k]? = some r → ∀ b p, y.tensor.get b k p = ψ r.size fun o => x.tensor.get b (chanOffset Rep.size t.reprs k + o) p := by
  obtain ⟨m', e1, e2, e3, e4, e5, e6, e7⟩ := normInit_ok h1 hpos
  obtain rfl : m = m' := Except.ok.inj (hm.symm.trans e1)
  obtain ⟨y, f1, f2, f3, f4, f5⟩ := forward_spec (step := step) (s := id) e2 (by simp) (by rw [e3]; simp) (by rw [e3]; exact fun r hr => by rw [List.eq_of_mem_replicate hr, h1])
    (fun k l r hk hr => by rw [List.getElem?_map, hr] at hk; simpa using hk) e4 e5 e6 e7 ψ hψ
    (fun l hl d n hd => by
      obtain ⟨r, hr, rfl⟩ := List.mem_map.1 hl
      exact hstep r.size (hpos r hr) d n hd) junk x hx hc
  exact ⟨y, f1, by rw [f2, e3], f3, by rw [f4, e3], fun k r hk b p => f5 k r.size (by rw [List.getElem?_map, hk]; rfl) b p⟩

theorem gpoolStep_spec (s : ℕ) (hs : 0 < s) (d : FTensor B P) (n : ℕ) (hd : d.chans = n * s) :
    ∃ e, gpoolStep s d = .ok e ∧ e.chans = n ∧ ∀ i < n, ∀ b p, e.get b i p = maxOf s fun o => d.get b (i * s + o) p := by
  obtain ⟨f, e1, e2, e3, e4⟩ := toFields_div d hs hd
  refine ⟨⟨f.n, fun b n p => maxOf s fun o => f.get b n o p⟩, ?_, e2, fun i _ b p => by simp only [e4]⟩
  rw [gpoolStep]
  simp only [bind, Except.bind, e1]
  exact if_neg hs.ne'

theorem normStep_spec (s : ℕ) (hs : 0 < s) (d : FTensor B P) (n : ℕ) (hd : d.chans = n * s) :
    ∃ e, normStep s d = .ok e ∧ e.chans = n ∧ ∀ i < n, ∀ b p, e.get b i p = fieldNormOf s fun o => d.get b (i * s + o) p := by
  obtain ⟨f, e1, e2, e3, e4⟩ := toFields_div d hs hd
  refine ⟨⟨f.n, fun b n p => fieldNormOf s fun o => f.get b n o p⟩, ?_, e2, fun i _ b p => by simp only [e4]⟩
  rw [normStep]
  simp only [bind, Except.bind, e1]

/-- **C55** The constructors: `NormPool` accepts each type; `GroupPooling` the types whose representations support pointwise nonlinearities. -/
theorem C55_init (triv : Rep G Id) (h1 : triv.size = 1) (t : FType S (Rep G Id)) (hpos : ∀ r ∈ t.reprs, 0 < r.size) :
    (∃ m, normInit triv t = .ok m ∧ m.inType = t ∧ m.outType = ⟨t.gspace, List.replicate t.reprs.length triv⟩) ∧
    ((∃ m, gpoolInit triv t = .ok m) ↔ ∀ r ∈ t.reprs, "pointwise" ∈ r.nonlin) := by
  obtain ⟨m, e1, e2, e3, -⟩ := normInit_ok h1 hpos
  refine ⟨⟨m, e1, e2, e3⟩, ?_, ?_⟩
  · rintro ⟨m', h⟩
    unfold gpoolInit at h
    split at h
    · assumption
    · cases h
  · intro h
    exact ⟨m, by rw [gpoolInit, if_pos h]; exact e1⟩

/-- **C55** `GroupPooling` returns the maximum of each field. -/
theorem C55_gpool_values (triv : Rep G Id) (h1 : triv.size = 1) (t : FType S (Rep G Id)) (hpos : ∀ r ∈ t.reprs, 0 < r.size) {m : PoolMap ℕ S (Rep G Id)} (hm : gpoolInit triv t = .ok m)
    (junk : B → ℕ → P → ℝ) (x : GTensor B P S (Rep G Id) C) (hx : x.type = t) (hc : x.tensor.chans = t.size Rep.size) :
    ∃ y, forward gpoolStep junk m x = .ok y ∧ y.type = ⟨t.gspace, List.replicate t.reprs.length triv⟩ ∧ y.coords = x.coords ∧ y.tensor.chans = t.reprs.length ∧
      ∀ (k : ℕ) r, t.reprs[k]? = some r → ∀ b p, IsGreatest {v | ∃ o < r.size, v = x.tensor.get b (((t.reprs.take k).map Rep.size).sum + o) p} (y.tensor.get b k p) := by
  have hm' : normInit triv t = .ok m := by
    unfold gpoolInit at hm
    split at hm
    · exact hm
    · cases hm
  obtain ⟨y, e1, e2, e3, e4, e5⟩ := values_spec (C := C) h1 hpos hm' maxOf (fun l v w => maxOf_congr) gpoolStep_spec junk x hx hc
  refine ⟨y, e1, e2, e3, by rw [e4, FType.size_eq]; simp [h1], fun k r hk b p => ?_⟩
  rw [e5 k r hk b p]
  have := maxOf_isGreatest (hpos r (List.mem_of_getElem? hk)) fun o => x.tensor.get b (chanOffset Rep.size t.reprs k + o) p
  convert this using 1
  ext z
  constructor
  · rintro ⟨o, ho, rfl⟩; exact ⟨o, ho, rfl⟩
  · rintro ⟨o, ho, rfl⟩; exact ⟨o, ho, rfl⟩

/-- **C55** `NormPool` returns the norm of each field. -/
theorem C55_norm_values (triv : Rep G Id) (h1 : triv.size = 1) (t : FType S (Rep G Id)) (hpos : ∀ r ∈ t.reprs, 0 < r.size) {m : PoolMap ℕ S (Rep G Id)} (hm : normInit triv t = .ok m)
    (junk : B → ℕ → P → ℝ) (x : GTensor B P S (Rep G Id) C) (hx : x.type = t) (hc : x.tensor.chans = t.size Rep.size) :
    ∃ y, forward normStep junk m x = .ok y ∧ y.type = ⟨t.gspace, List.replicate t.reprs.length triv⟩ ∧ y.coords = x.coords ∧ y.tensor.chans = t.reprs.length ∧
      ∀ (k : ℕ) r, t.reprs[k]? = some r → ∀ b p, y.tensor.get b k p = Real.sqrt (∑ o ∈ Finset.range r.size, x.tensor.get b (((t.reprs.take k).map Rep.size).sum + o) p ^ 2) := by
  obtain ⟨y, e1, e2, e3, e4, e5⟩ := values_spec (C := C) h1 hpos hm fieldNormOf (fun l v w => fieldNormOf_congr) normStep_spec junk x hx hc
  exact ⟨y, e1, e2, e3, by rw [e4, FType.size_eq]; simp [h1], fun k r hk b p => e5 k r hk b p⟩

/-- **C55** `GroupPooling` is invariant for permutation representations. -/
theorem C55_gpool (triv : Rep G Id) (h1 : triv.size = 1) (t : FType S (Rep G Id)) (hpos : ∀ r ∈ t.reprs, 0 < r.size) (hperm : ∀ r ∈ t.reprs, ∀ g, El g → IsPermMat r.size (r.mat g))
    {m : PoolMap ℕ S (Rep G Id)} (hm : gpoolInit triv t = .ok m) (junk : B → ℕ → P → ℝ) :
    FibreInvariant (B := B) (P := P) (C := C) El t ⟨t.gspace, List.replicate t.reprs.length triv⟩ (forward gpoolStep junk m) ∧
    (ActsTrivially El triv → FibreEquivariant (B := B) (P := P) (C := C) El t ⟨t.gspace, List.replicate t.reprs.length triv⟩ (forward gpoolStep junk m)) ∧
    PositionLocal (B := B) (P := P) (C := C) Rep.size t (forward gpoolStep junk m) := by
  have hm' : normInit triv t = .ok m := by
    unfold gpoolInit at hm
    split at hm
    · exact hm
    · cases hm
  have ht1 : ∀ r ∈ (⟨t.gspace, List.replicate t.reprs.length triv⟩ : FType S (Rep G Id)).reprs, r.size = 1 := fun r hr => by rw [List.eq_of_mem_replicate hr, h1]
  have hf := fun (x : GTensor B P S (Rep G Id) C) hx hc => values_spec (C := C) h1 hpos hm' maxOf (fun l v w => maxOf_congr) gpoolStep_spec junk x hx hc
  have hf' : ∀ x : GTensor B P S (Rep G Id) C, x.type = t → x.tensor.chans = t.size Rep.size → ∃ y, forward gpoolStep junk m x = .ok y ∧ y.type = ⟨t.gspace, List.replicate t.reprs.length triv⟩ ∧ y.coords = x.coords ∧
      y.tensor.chans = (⟨t.gspace, List.replicate t.reprs.length triv⟩ : FType S (Rep G Id)).size Rep.size ∧ ∀ k < t.reprs.length, ∀ b p, y.tensor.get b k p =
        maxOf ((t.reprs.map Rep.size).getD k 0) fun o => x.tensor.get b (chanOffset Rep.size t.reprs k + o) p := by
    intro x hx hc
    obtain ⟨y, e1, e2, e3, e4, e5⟩ := hf x hx hc
    refine ⟨y, e1, e2, e3, e4, fun k hk b p => ?_⟩
    rw [e5 k _ (List.getElem?_eq_getElem hk)]
    simp [List.getD, hk]
  have := FibreInvariant.of_fields (C := C) (El := El) (outT := ⟨t.gspace, List.replicate t.reprs.length triv⟩) (fun r hr g hg => ⟨(hperm r hr g hg).1, (hperm r hr g hg).2.1⟩) (by simp) ht1
    (fun x k b p => maxOf ((t.reprs.map Rep.size).getD k 0) fun o => x.get b (chanOffset Rep.size t.reprs k + o) p) hf' (by
      intro g hg x gx _ _ hact k hk b p
      have hr := List.getElem?_eq_getElem hk
      have hs : (t.reprs.map Rep.size).getD k 0 = t.reprs[k].size := by simp [List.getD, hk]
      rw [hs]
      obtain ⟨σ, hσ⟩ := (hperm _ (List.getElem_mem hk) g hg).perm
      refine maxOf_perm (hpos _ (List.getElem_mem hk)) _ _ σ fun i => ?_
      rw [hact k _ hr b i p i.2]
      exact hσ (fun o => x.get b (chanOffset Rep.size t.reprs k + o) p) i)
  refine ⟨this.1, fun htr => this.2 fun r hr => by rw [List.eq_of_mem_replicate hr]; exact htr, ?_⟩
  exact PositionLocal.of_values (outT := ⟨t.gspace, List.replicate t.reprs.length triv⟩) (by simp) ht1
    (fun x k b p => maxOf ((t.reprs.map Rep.size).getD k 0) fun o => x.get b (chanOffset Rep.size t.reprs k + o) p) hf' fun _ _ _ _ _ => rfl

/-- **C55** `NormPool` is invariant for orthogonal representations. -/
theorem C55_norm (triv : Rep G Id) (h1 : triv.size = 1) (t : FType S (Rep G Id)) (hpos : ∀ r ∈ t.reprs, 0 < r.size) (horth : Orthogonal El t)
    {m : PoolMap ℕ S (Rep G Id)} (hm : normInit triv t = .ok m) (junk : B → ℕ → P → ℝ) :
    FibreInvariant (B := B) (P := P) (C := C) El t ⟨t.gspace, List.replicate t.reprs.length triv⟩ (forward normStep junk m) ∧
    (ActsTrivially El triv → FibreEquivariant (B := B) (P := P) (C := C) El t ⟨t.gspace, List.replicate t.reprs.length triv⟩ (forward normStep junk m)) ∧
    PositionLocal (B := B) (P := P) (C := C) Rep.size t (forward normStep junk m) := by
  have ht1 : ∀ r ∈ (⟨t.gspace, List.replicate t.reprs.length triv⟩ : FType S (Rep G Id)).reprs, r.size = 1 := fun r hr => by rw [List.eq_of_mem_replicate hr, h1]
  have hf := fun (x : GTensor B P S (Rep G Id) C) hx hc => values_spec (C := C) h1 hpos hm fieldNormOf (fun l v w => fieldNormOf_congr) normStep_spec junk x hx hc
  have hf' : ∀ x : GTensor B P S (Rep G Id) C, x.type = t → x.tensor.chans = t.size Rep.size → ∃ y, forward normStep junk m x = .ok y ∧ y.type = ⟨t.gspace, List.replicate t.reprs.length triv⟩ ∧ y.coords = x.coords ∧
      y.tensor.chans = (⟨t.gspace, List.replicate t.reprs.length triv⟩ : FType S (Rep G Id)).size Rep.size ∧ ∀ k < t.reprs.length, ∀ b p, y.tensor.get b k p =
        fieldNormOf ((t.reprs.map Rep.size).getD k 0) fun o => x.tensor.get b (chanOffset Rep.size t.reprs k + o) p := by
    intro x hx hc
    obtain ⟨y, e1, e2, e3, e4, e5⟩ := hf x hx hc
    refine ⟨y, e1, e2, e3, e4, fun k hk b p => ?_⟩
    rw [e5 k _ (List.getElem?_eq_getElem hk)]
    simp [List.getD, hk]
  have := FibreInvariant.of_fields (C := C) (El := El) (outT := ⟨t.gspace, List.replicate t.reprs.length triv⟩) horth.square (by simp) ht1
    (fun x k b p => fieldNormOf ((t.reprs.map Rep.size).getD k 0) fun o => x.get b (chanOffset Rep.size t.reprs k + o) p) hf' (by
      intro g hg x gx _ _ hact k hk b p
      have hs : (t.reprs.map Rep.size).getD k 0 = t.reprs[k].size := by simp [List.getD, hk]
      rw [hs]
      exact hact.norm horth hg (List.getElem?_eq_getElem hk) b p)
  refine ⟨this.1, fun htr => this.2 fun r hr => by rw [List.eq_of_mem_replicate hr]; exact htr, ?_⟩
  exact PositionLocal.of_values (outT := ⟨t.gspace, List.replicate t.reprs.length triv⟩) (by simp) ht1
    (fun x k b p => fieldNormOf ((t.reprs.map Rep.size).getD k 0) fun o => x.get b (chanOffset Rep.size t.reprs k + o) p) hf' fun _ _ _ _ _ => rfl

end PoolMap

/-! ### The hypotheses hold in concrete cases; without them the claims are false -/

/-- Fields of two sizes, not sorted: the regular representation, the trivial one and the regular one again. -/
noncomputable def poolType : FType Unit (Rep Bool Unit) := ⟨(), [swapRep, trivRep, swapRep]⟩

theorem poolType_pos : ∀ r ∈ poolType.reprs, 0 < r.size := by
  intro r hr
  simp only [poolType, List.mem_cons, List.not_mem_nil, or_false] at hr
  rcases hr with rfl | rfl | rfl
  · exact two_pos
  · exact one_pos
  · exact two_pos

theorem poolType_perm : ∀ r ∈ poolType.reprs, ∀ g : Bool, True → IsPermMat r.size (r.mat g) := by
  intro r hr g _
  simp only [poolType, List.mem_cons, List.not_mem_nil, or_false] at hr
  rcases hr with rfl | rfl | rfl
  · exact swapRep_perm g
  · exact trivRep_perm g
  · exact swapRep_perm g

example : ∃ m, PoolMap.gpoolInit trivRep poolType = .ok m ∧ FibreInvariant (B := Unit) (P := Unit) (C := Unit) (fun _ => True) poolType ⟨(), List.replicate 3 trivRep⟩ (PoolMap.forward PoolMap.gpoolStep (fun _ _ _ => 7) m) := by
  obtain ⟨m, hm⟩ := (PoolMap.C55_init trivRep rfl poolType poolType_pos).2.2 (by
    intro r hr
    simp only [poolType, List.mem_cons, List.not_mem_nil, or_false] at hr
    rcases hr with rfl | rfl | rfl <;> simp [swapRep, trivRep])
  exact ⟨m, hm, (PoolMap.C55_gpool trivRep rfl poolType poolType_pos poolType_perm hm _).1⟩

example : ∃ m, PoolMap.normInit trivRep poolType = .ok m ∧ FibreInvariant (B := Unit) (P := Unit) (C := Unit) (fun _ => True) poolType ⟨(), List.replicate 3 trivRep⟩ (PoolMap.forward PoolMap.normStep (fun _ _ _ => 7) m) := by
  obtain ⟨m, hm, -⟩ := (PoolMap.C55_init trivRep rfl poolType poolType_pos).1
  exact ⟨m, hm, (PoolMap.C55_norm trivRep rfl poolType poolType_pos (fun r hr g hg => (poolType_perm r hr g hg).orth) hm _).1⟩

example : ActsTrivially (fun _ => True) trivRep := ⟨rfl, fun _ _ => ⟨rfl, rfl, by simp [trivRep, NpMat.eye]⟩⟩

/-- A representation of the group with two elements which is not orthogonal. -/
noncomputable def scaledSwapRep : Rep Bool Unit := ⟨"scaled_swap", [(), ()], NpMat.eye 2, NpMat.eye 2, fun g => ⟨2, 2, fun i j => if g then (if i = 0 ∧ j = 1 then 1 / 2 else if i = 1 ∧ j = 0 then 2 else 0) else (if i = j then 1 else 0)⟩, {"pointwise", "norm"}⟩

/-- **C55** `NormPool` accepts representations which are not orthogonal (norm.py does not look at `supported_nonlinearities`); its output then changes under the action. -/
theorem C55_norm_not_orthogonal_violated : ∃ m, PoolMap.normInit trivRep (⟨(), [scaledSwapRep]⟩ : FType Unit (Rep Bool Unit)) = .ok m ∧
    ¬ FibreInvariant (B := Unit) (P := Unit) (C := Unit) (fun _ => True) (⟨(), [scaledSwapRep]⟩ : FType Unit (Rep Bool Unit)) ⟨(), [trivRep]⟩ (PoolMap.forward PoolMap.normStep (fun _ _ _ => 0) m) := by
  have hpos : ∀ r ∈ (⟨(), [scaledSwapRep]⟩ : FType Unit (Rep Bool Unit)).reprs, 0 < r.size := by
    intro r hr
    simp only [List.mem_cons, List.not_mem_nil, or_false] at hr
    subst hr
    exact two_pos
  obtain ⟨m, hm, -⟩ := (PoolMap.C55_init trivRep rfl (⟨(), [scaledSwapRep]⟩ : FType Unit (Rep Bool Unit)) hpos).1
  refine ⟨m, hm, fun h => ?_⟩
  set t : FType Unit (Rep Bool Unit) := ⟨(), [scaledSwapRep]⟩ with ht
  have hsq : t.Square (fun _ : Bool => True) := by
    intro r hr g _
    simp only [ht, List.mem_cons, List.not_mem_nil, or_false] at hr
    subst hr
    exact ⟨rfl, rfl⟩
  have hsz : t.size Rep.size = 2 := by rw [FType.size_eq]; rfl
  obtain ⟨y, gx, gy, e1, e2, e3, e4, e5, e6, e7, e8⟩ := h ⟨⟨2, fun _ c _ => if c = 0 then 1 else 0⟩, t, ()⟩ rfl hsz.symm true trivial
  obtain ⟨gx', f1, f2, f3⟩ := transformFibers_act (P := Unit) hsq (g := true) trivial (⟨2, fun (_ : Unit) c _ => if c = 0 then 1 else 0⟩ : FTensor Unit Unit) hsz.symm
  have hgx : gx = ⟨gx', t, ()⟩ := by
    simp only [GTensor.transformFibers, bind, Except.bind, f1] at e4
    rw [GTensor.mk', if_pos f2] at e4
    exact (Except.ok.inj e4).symm
  subst hgx
  obtain ⟨y', a1, a2, a3, a4, a5⟩ := PoolMap.C55_norm_values (C := Unit) trivRep rfl t hpos hm (fun _ _ _ => 0) ⟨⟨2, fun (_ : Unit) c (_ : Unit) => if c = 0 then 1 else 0⟩, t, ()⟩ rfl hsz.symm
  obtain rfl : y = y' := Except.ok.inj (e1.symm.trans a1)
  obtain ⟨gy', b1, b2, b3, b4, b5⟩ := PoolMap.C55_norm_values (C := Unit) trivRep rfl t hpos hm (fun _ _ _ => 0) ⟨gx', t, ()⟩ rfl f2
  obtain rfl : gy = gy' := Except.ok.inj (e5.symm.trans b1)
  have h1 := a5 0 scaledSwapRep rfl () ()
  have h2 := b5 0 scaledSwapRep rfl () ()
  have h3 := e8.2 () 0 () (by rw [b4]; exact one_pos)
  have g0 := f3 0 scaledSwapRep rfl () 0 () two_pos
  have g1 := f3 0 scaledSwapRep rfl () 1 () one_lt_two
  have hs : scaledSwapRep.size = 2 := rfl
  simp only [List.take_zero, List.map_nil, List.sum_nil, Nat.zero_add, hs, chanOffset] at h1 h2 g0 g1
  rw [h1, h2] at h3
  simp [Finset.sum_range_succ, scaledSwapRep] at h3 g0 g1
  rw [g0, g1] at h3
  norm_num at h3

end Escnn
