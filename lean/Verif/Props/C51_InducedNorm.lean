import Verif.Model.InducedNonlin
import Verif.Lemmas.BlockPerm
import Verif.Lemmas.Gated
import Verif.Props.C55_Pool

/-!
# C51: induced norm nonlinearities are equivariant and induced norm pooling is invariant
-/

namespace Escnn

variable {B P S G Id C : Type} {El : G → Prop}

/-- Every representation of the type whose nonlinearities contain a name `{pre}_{s}` is a block permutation with orthogonal blocks of size `s`. -/
def BlockPerms (pre : String) (El : G → Prop) (t : FType S (Rep G Id)) : Prop :=
  ∀ r ∈ t.reprs, ∀ s, subSize pre r = .ok s → ∀ g, El g → IsBlockPermMat (r.size / s) s (r.mat g)

theorem subSize_ok {pre : String} {r : Rep G Id} {s : ℕ} (h : subSize pre r = .ok s) : 0 < s ∧ r.size / s * s = r.size := by
  unfold subSize at h
  split at h
  · split at h
    · split at h
      · cases h
      · split at h
        · cases h
        · rename_i h0
          split at h
          · rename_i h1
            obtain rfl := Except.ok.inj h
            exact ⟨Nat.pos_of_ne_zero h0, Nat.div_mul_cancel (Nat.dvd_of_mod_eq_zero h1)⟩
          · cases h
    · cases h
  · cases h

/-- The last part of a name `{pre}_{n}` is the number `n`. -/
theorem lastPartNat_name (pre : String) (n : ℕ) : lastPartNat (pre ++ "_" ++ toString n) = some n := by
  have h1 : (pre ++ "_" ++ toString n).toList = pre.toList ++ '_' :: Nat.toDigits 10 n := by
    rw [String.toList_append, String.toList_append]
    simp [Nat.toString_eq_repr, Nat.repr]
  have hd : ∀ c ∈ Nat.toDigits 10 n, c.isDigit = true := fun c hc => Nat.isDigit_of_mem_toDigits (by decide) (by decide) hc
  have hne : ∀ c ∈ Nat.toDigits 10 n, c ≠ '_' := fun c hc e => by
    have := hd c hc
    rw [e] at this
    exact absurd this (by decide)
  have h2 : ((pre ++ "_" ++ toString n).toList.reverse.takeWhile (· ≠ '_')).reverse = Nat.toDigits 10 n := by
    rw [h1, List.reverse_append, List.reverse_cons, List.append_assoc, List.takeWhile_append_of_pos (by simpa using hne)]
    simp
  have h3 : Nat.toDigits 10 n ≠ [] := Nat.toDigits_ne_nil
  unfold lastPartNat
  simp only [h2]
  rw [if_pos ⟨h3, List.all_eq_true.2 hd⟩]
  congr 1
  have := Nat.ofDigitChars_toDigits (b := 10) (n := n) (by decide) (by decide)
  rw [Nat.ofDigitChars_eq_foldl] at this
  refine Eq.trans ?_ this
  congr 1
  funext a c
  rw [Nat.mul_comm]

/-- **C51** The size of the subfields is read from the one name of a supported nonlinearity which begins with the prefix, and from no other name; the size divides that of the representation. -/
theorem C51_subSize {pre : String} {r : Rep G Id} {s : ℕ} : subSize pre r = .ok s ↔
    ∃ nl ∈ r.nonlin, (∃ rest, nl.toList = pre.toList ++ rest) ∧ (∀ nl' ∈ r.nonlin, (∃ rest, nl'.toList = pre.toList ++ rest) → nl' = nl) ∧ lastPartNat nl = some s ∧ 0 < s ∧ s ∣ r.size := by
  classical
  have hp : ∀ nl : String, pyStartsWith nl pre = true ↔ ∃ rest, nl.toList = pre.toList ++ rest := fun nl => by
    rw [pyStartsWith, List.isPrefixOf_iff_prefix]
    exact ⟨fun ⟨a, h⟩ => ⟨a, h.symm⟩, fun ⟨a, h⟩ => ⟨a, h.symm⟩⟩
  constructor
  · intro h
    unfold subSize at h
    split at h
    · rename_i hex
      split at h
      · rename_i hall
        split at h
        · cases h
        · rename_i s' hs'
          split at h
          · cases h
          · rename_i h0
            split at h
            · rename_i h1
              obtain rfl := Except.ok.inj h
              exact ⟨_, hex.choose_spec.1, (hp _).1 hex.choose_spec.2, fun nl' h1 h2 => hall nl' h1 ((hp nl').2 h2), hs', Nat.pos_of_ne_zero h0, Nat.dvd_of_mod_eq_zero h1⟩
            · cases h
      · cases h
    · cases h
  · rintro ⟨nl, h1, h2, h3, h4, h5, h6⟩
    have hex : ∃ nl, nl ∈ r.nonlin ∧ pyStartsWith nl pre = true := ⟨nl, h1, (hp nl).2 h2⟩
    have hch : hex.choose = nl := h3 _ hex.choose_spec.1 ((hp _).1 hex.choose_spec.2)
    unfold subSize
    rw [dif_pos hex, if_pos (fun nl' a b => (h3 nl' a ((hp nl').1 b)).trans hch.symm), hch, h4]
    simp only
    rw [if_neg (by omega), if_pos (Nat.mod_eq_zero_of_dvd h6)]

/-- A representation of size 6 which supports `induced_norm_2` has subfields of size 2, whatever else it supports. -/
example : subSize "induced_norm" (⟨"", [], NpMat.eye 6, NpMat.eye 6, fun _ => NpMat.eye 6, {"induced_norm_2", "norm", "induced_gated_3"}⟩ : Rep Unit Unit) = .ok 2 := by
  refine C51_subSize.2 ⟨"induced_norm_2", by simp, ⟨"_2".toList, by decide⟩, ?_, lastPartNat_name "induced_norm" 2, by decide, ⟨3, rfl⟩⟩
  intro nl' h
  simp only [Finset.mem_insert, Finset.mem_singleton] at h
  rintro ⟨rest, hr⟩
  rcases h with rfl | rfl | rfl
  · rfl
  · have := congrArg List.length hr; simp at this
  · have := congrArg (fun l => l.getD 8 ' ') hr; simp at this

theorem mergeSort_spec {L : Type} [DecidableEq L] (labels : List L) (le : L → L → Bool) : ((keysInOrder labels).mergeSort le).Nodup ∧ ∀ l, l ∈ (keysInOrder labels).mergeSort le ↔ l ∈ labels := by
  have hp := List.mergeSort_perm (keysInOrder labels) le
  exact ⟨hp.symm.nodup (keysInOrder_nodup labels), fun l => by rw [hp.mem_iff, mem_keysInOrder]⟩

theorem sizeLabel {pre : String} {rs : List (Rep G Id)} {subs : List ℕ} (h : mapE (subSize pre) rs = .ok subs) :
    ((rs.map Rep.size).zip subs).length = rs.length ∧
    (∀ (k : ℕ) l r, ((rs.map Rep.size).zip subs)[k]? = some l → rs[k]? = some r → r.size = l.1 ∧ subSize pre r = .ok l.2) ∧
    ∀ (k : ℕ) r, rs[k]? = some r → ∃ s, ((rs.map Rep.size).zip subs)[k]? = some (r.size, s) ∧ subSize pre r = .ok s := by
  have hf := mapE_ok_iff.1 h
  have hlen := hf.length_eq
  have hget : ∀ (k : ℕ) r, rs[k]? = some r → ∃ s, ((rs.map Rep.size).zip subs)[k]? = some (r.size, s) ∧ subSize pre r = .ok s := by
    intro k r hr
    obtain ⟨s, e1, e2⟩ := forall₂_get hf hr
    exact ⟨s, List.getElem?_zip_eq_some.2 ⟨by rw [List.getElem?_map, hr]; rfl, e1⟩, e2⟩
  refine ⟨by simp [hlen], fun k l r hk hr => ?_, hget⟩
  obtain ⟨s, e1, e2⟩ := hget k r hr
  rw [hk] at e1
  obtain rfl := Option.some.inj e1
  exact ⟨rfl, e2⟩

/-- A field transformed by a block permutation. -/
theorem FieldAct.block {t : FType S (Rep G Id)} {g : G} {x gx : FTensor B P} (hact : FieldAct t g x gx) {k : ℕ} {r : Rep G Id} (hk : t.reprs[k]? = some r) {n s : ℕ} (hs : n * s = r.size)
    (hM : IsBlockPermMat n s (r.mat g)) : ∃ (τ : Equiv.Perm (Fin n)) (A : Fin n → NpMat ℝ), (∀ i, IsOrthMat s (A i)) ∧
      (∀ (v : ℕ → ℝ) (i : Fin n) (p : ℕ), p < s → ∑ j ∈ Finset.range r.size, (r.mat g).get (i * s + p) j * v j = ∑ q ∈ Finset.range s, (A i).get p q * v (τ i * s + q)) ∧
      ∀ b p (i : Fin n), (∀ o < s, gx.get b (chanOffset Rep.size t.reprs k + (i * s + o)) p = ∑ q ∈ Finset.range s, (A i).get o q * x.get b (chanOffset Rep.size t.reprs k + (τ i * s + q)) p) ∧
        fieldNormOf s (fun o => gx.get b (chanOffset Rep.size t.reprs k + (i * s + o)) p) = fieldNormOf s (fun o => x.get b (chanOffset Rep.size t.reprs k + (τ i * s + o)) p) := by
  obtain ⟨τ, A, hA, h⟩ := hM.act
  rw [hs] at h
  have h1 : ∀ b p (i : Fin n), ∀ o < s, gx.get b (chanOffset Rep.size t.reprs k + (i * s + o)) p = ∑ q ∈ Finset.range s, (A i).get o q * x.get b (chanOffset Rep.size t.reprs k + (τ i * s + q)) p := by
    intro b p i o ho
    have hlt : (i : ℕ) * s + o < r.size := by
      rw [← hs]
      calc (i : ℕ) * s + o < i * s + s := by omega
        _ = (i + 1) * s := by ring
        _ ≤ n * s := Nat.mul_le_mul_right _ i.2
    rw [hact k r hk b _ p hlt]
    exact h (fun j => x.get b (chanOffset Rep.size t.reprs k + j) p) i o ho
  refine ⟨τ, A, hA, h, fun b p i => ⟨h1 b p i, ?_⟩⟩
  exact IsBlockPermMat.norms (v := fun j => x.get b (chanOffset Rep.size t.reprs k + j) p) (w := fun j => gx.get b (chanOffset Rep.size t.reprs k + j) p) hA (fun i o ho => h1 b p i o ho) i

namespace InducedNormNL

theorem init_ok {t : FType S (Rep G Id)} {function : String} {bias : Bool} {m : InducedNormNL S (Rep G Id)} (h : init t function bias = .ok m) :
    ∃ subs, mapE (subSize "induced_norm") t.reprs = .ok subs ∧ functionOf function = .ok m.function ∧ m.inType = t ∧ m.labels = (t.reprs.map Rep.size).zip subs ∧
      runTable Rep.size t m.labels = .ok m.table ∧ m.order.Nodup ∧ (∀ l, l ∈ m.order ↔ l ∈ m.labels) ∧ m.eps = 1 / 10 ^ 10 ∧ (m.logBias = if bias then some fun _ => 0 else none) := by
  unfold init at h
  cases h1 : mapE (subSize "induced_norm") t.reprs with
  | error e => rw [h1] at h; cases h
  | ok subs =>
    cases h2 : functionOf function with
    | error e => rw [h1, h2] at h; cases h
    | ok f =>
      cases h3 : runTable Rep.size t ((t.reprs.map Rep.size).zip subs) with
      | error e => rw [h1, h2] at h; simp only [bind, Except.bind, h3] at h; cases h
      | ok tab =>
        rw [h1, h2] at h
        simp only [bind, Except.bind, h3] at h
        obtain rfl := Except.ok.inj h
        exact ⟨subs, rfl, rfl, rfl, rfl, h3, (mergeSort_spec _ _).1, (mergeSort_spec _ _).2, rfl, rfl⟩

/-- What the forward pass computes. -/
theorem forward_spec (junk : B → ℕ → P → ℝ) {m : InducedNormNL S (Rep G Id)} (hpos : ∀ r ∈ m.inType.reprs, 0 < r.size) {subs : List ℕ} (hsub : mapE (subSize "induced_norm") m.inType.reprs = .ok subs)
    (hlab : m.labels = (m.inType.reprs.map Rep.size).zip subs) (htab : runTable Rep.size m.inType m.labels = .ok m.table) (hnd : m.order.Nodup) (hmem : ∀ s, s ∈ m.order ↔ s ∈ m.labels)
    (x : GTensor B P S (Rep G Id) C) (hx : x.type = m.inType) (hc : x.tensor.chans = m.inType.size Rep.size) :
    ∃ y, forward junk m x = .ok y ∧ y.type = m.inType ∧ y.coords = x.coords ∧ y.tensor.chans = m.inType.size Rep.size ∧
      ∀ (k : ℕ) (r : Rep G Id) s, m.inType.reprs[k]? = some r → subSize "induced_norm" r = .ok s → ∀ o < r.size, ∀ b p, y.tensor.get b (chanOffset Rep.size m.inType.reprs k + o) p =
        x.tensor.get b (chanOffset Rep.size m.inType.reprs k + o) p *
          m.multiplier (orderIdx m.labels m.order (r.size, s) k) (fieldNormOf s fun q => x.tensor.get b (chanOffset Rep.size m.inType.reprs k + (o / s * s + q)) p) := by
  obtain ⟨hl1, hl2, hl3⟩ := sizeLabel hsub
  rw [← hlab] at hl1 hl2 hl3
  obtain ⟨d, hd, ht⟩ := runTable_spec (sz := Rep.size) m.inType hpos m.labels hl1
  rw [htab] at hd
  obtain rfl := Except.ok.inj hd
  obtain ⟨res, h1, h2, h3⟩ := groupedLoop_run (x := x.tensor) (out := ⟨x.tensor.chans, junk⟩) (F := m.step) (rs := m.inType.reprs) (rs' := m.inType.reprs)
    (sz := Rep.size) (sz' := Rep.size) (labels := m.labels) (ls := m.order) (tin := m.table) (tout := m.table) (s := Prod.fst) (s' := Prod.fst)
    (fun l n k b o p => m.multiplier (nextOf m.labels m.order l + n) (fieldNormOf l.2 fun q => x.tensor.get b (chanOffset Rep.size m.inType.reprs k + (o / l.2 * l.2 + q)) p))
    hnd hmem hl1 hl1 (fun k l r h h' => (hl2 k l r h h').1) (fun k l r h h' => (hl2 k l r h h').1) ht ht (by rw [hc, FType.size_eq]) (by rw [hc, FType.size_eq])
    (by
      intro l hl d hd
      obtain ⟨k, hk⟩ := List.mem_iff_getElem?.1 hl
      have hkl : k < m.inType.reprs.length := by rw [← hl1]; exact (List.getElem?_eq_some_iff.1 hk).1
      obtain ⟨e1, e2⟩ := hl2 k l _ hk (List.getElem?_eq_getElem hkl)
      obtain ⟨hs0, hdiv⟩ := subSize_ok e2
      rw [e1] at hdiv
      have hQ : 0 < l.1 / l.2 := by
        rcases Nat.eq_zero_or_pos (l.1 / l.2) with h | h
        · have := hpos _ (List.getElem_mem hkl)
          rw [h] at hdiv
          omega
        · exact h
      have hdc : d.chans = (labelled m.labels l).length * (l.1 / l.2) * l.2 := by rw [Nat.mul_assoc, hdiv]; exact hd.1
      obtain ⟨f, f1, f2, f3, f4⟩ := PoolMap.toFields_div d hs0 hdc
      refine ⟨(⟨f.n, f.size, fun b n _ p => m.multiplier (nextOf m.labels m.order l + n / (l.1 / l.2)) (fieldNormOf l.2 fun o => f.get b n o p)⟩ : FieldsT B P).flat,
        by simp only [step, bind, Except.bind, f1], ?_, fun n k hn b o p ho => ?_⟩
      · simp only [FieldsT.flat, f2, f3, hdc, Nat.mul_assoc, hdiv]
      · have ho' : o % l.2 < l.2 := Nat.mod_lt _ hs0
        have hoq : o / l.2 < l.1 / l.2 := by
          rw [Nat.div_lt_iff_lt_mul hs0, hdiv]; exact ho
        have e : n * l.1 + o = (n * (l.1 / l.2) + o / l.2) * l.2 + o % l.2 := by
          have := Nat.div_add_mod' o l.2
          rw [Nat.add_mul, Nat.mul_assoc, hdiv, Nat.add_assoc, this]
        have := FieldsT.flat_get (⟨f.n, f.size, fun b n _ p => m.multiplier (nextOf m.labels m.order l + n / (l.1 / l.2)) (fieldNormOf l.2 fun o => f.get b n o p)⟩ : FieldsT B P) b
          (n := n * (l.1 / l.2) + o / l.2) (o := o % l.2) p (by rw [f3]; exact ho')
        simp only [f3] at this
        rw [e, f3, this, Nat.mul_comm n, Nat.mul_add_div hQ, Nat.div_eq_of_lt hoq, Nat.add_zero]
        congr 1
        refine fieldNormOf_congr fun q hq => ?_
        rw [f4]
        have hb : o / l.2 * l.2 + q < l.1 := by
          calc o / l.2 * l.2 + q < o / l.2 * l.2 + l.2 := by omega
            _ = (o / l.2 + 1) * l.2 := by ring
            _ ≤ l.1 / l.2 * l.2 := Nat.mul_le_mul_right _ hoq
            _ = l.1 := hdiv
        have := hd.2 n k hn b (o / l.2 * l.2 + q) p hb
        rw [← this]
        congr 1
        calc ((l.1 / l.2) * n + o / l.2) * l.2 + q = n * (l.1 / l.2 * l.2) + (o / l.2 * l.2 + q) := by ring
          _ = _ := by rw [hdiv])
  refine ⟨⟨⟨x.tensor.chans, fun b c p => x.tensor.get b c p * res.get b c p⟩, m.inType, x.coords⟩, ?_, rfl, rfl, hc, fun k r s hk hs o ho b p => ?_⟩
  · rw [forward, if_pos hx]
    simp only [bind, Except.bind, h1]
    exact if_pos hc
  · obtain ⟨s', e1, e2⟩ := hl3 k r hk
    obtain rfl : s' = s := Except.ok.inj (e2.symm.trans hs)
    simp only
    rw [h3 k (r.size, s') e1 b o p ho, orderIdx]

open Classical in
/-- The size of the subfields of field `k`. -/
noncomputable def subOf (rs : List (Rep G Id)) (k : ℕ) : ℕ :=
  match rs[k]? with
  | some r => match subSize "induced_norm" r with
    | .ok s => s
    | .error _ => 0
  | none => 0

theorem subOf_eq {rs : List (Rep G Id)} {k : ℕ} {r : Rep G Id} {s : ℕ} (hk : rs[k]? = some r) (hs : subSize "induced_norm" r = .ok s) : subOf rs k = s := by
  simp only [subOf, hk, hs]

/-- **C51** `InducedNormNonLinearity`: for each type of block permutations with orthogonal blocks, function, biases, `eps`, content of the uninitialised memory, input and group element, the module commutes
with the action; it computes at each position from the values at that position. -/
theorem C51_equivariant (t : FType S (Rep G Id)) (hblock : BlockPerms "induced_norm" El t) (hpos : ∀ r ∈ t.reprs, 0 < r.size) {function : String} {bias : Bool} {m : InducedNormNL S (Rep G Id)}
    (hm : init t function bias = .ok m) (f : ℝ → ℝ) (lb : Option (ℕ → ℝ)) (eps : ℝ) (junk : B → ℕ → P → ℝ) :
    FibreEquivariant (B := B) (P := P) (C := C) El t t (forward junk { m with function := f, logBias := lb, eps := eps }) ∧
    PositionLocal (B := B) (P := P) (C := C) Rep.size t (forward junk { m with function := f, logBias := lb, eps := eps }) := by
  obtain ⟨subs, h0, -, h1, h2, h3, h4, h5, -⟩ := init_ok hm
  subst h1
  set m' : InducedNormNL S (Rep G Id) := { m with function := f, logBias := lb, eps := eps } with hm'
  have hf := fun x hx hc => forward_spec (C := C) junk (m := m') hpos h0 h2 h3 h4 h5 x hx hc
  have hsub : ∀ (k : ℕ) r, m.inType.reprs[k]? = some r → ∃ s, subSize "induced_norm" r = .ok s := by
    intro k r hk
    obtain ⟨s, -, e⟩ := (sizeLabel h0).2.2 k r hk
    exact ⟨s, e⟩
  have hsq : m.inType.Square El := by
    intro r hr g hg
    obtain ⟨k, hk⟩ := List.mem_iff_getElem?.1 hr
    obtain ⟨s, hs⟩ := hsub k r hk
    have := hblock r hr s hs g hg
    rw [← (subSize_ok hs).2]
    exact ⟨this.1, this.2.1⟩
  have hf' : ∀ x : GTensor B P S (Rep G Id) C, x.type = m.inType → x.tensor.chans = m.inType.size Rep.size → ∃ y, forward junk m' x = .ok y ∧ y.type = m.inType ∧ y.coords = x.coords ∧
      y.tensor.chans = m.inType.size Rep.size ∧
      ∀ (k : ℕ) (r : Rep G Id), m.inType.reprs[k]? = some r → ∀ o < r.size, ∀ b p, y.tensor.get b (chanOffset Rep.size m.inType.reprs k + o) p =
        x.tensor.get b (chanOffset Rep.size m.inType.reprs k + o) p * m'.multiplier (orderIdx m'.labels m'.order ((m.inType.reprs.map Rep.size).getD k 0, subOf m.inType.reprs k) k)
          (fieldNormOf (subOf m.inType.reprs k) fun q => x.tensor.get b (chanOffset Rep.size m.inType.reprs k + (o / subOf m.inType.reprs k * subOf m.inType.reprs k + q)) p) := by
    intro x hx hc
    obtain ⟨y, e1, e2, e3, e4, e5⟩ := hf x hx hc
    refine ⟨y, e1, e2, e3, e4, fun k r hk o ho b p => ?_⟩
    obtain ⟨s, hs⟩ := hsub k r hk
    rw [subOf_eq hk hs, show (m.inType.reprs.map Rep.size).getD k 0 = r.size by simp [List.getD, hk]]
    exact e5 k r s hk hs o ho b p
  constructor
  · refine FibreEquivariant.of_fields hsq hsq (fun x k o b p =>
        x.get b (chanOffset Rep.size m.inType.reprs k + o) p * m'.multiplier (orderIdx m'.labels m'.order ((m.inType.reprs.map Rep.size).getD k 0, subOf m.inType.reprs k) k)
          (fieldNormOf (subOf m.inType.reprs k) fun q => x.get b (chanOffset Rep.size m.inType.reprs k + (o / subOf m.inType.reprs k * subOf m.inType.reprs k + q)) p)) hf' ?_
    intro g hg x gx _ _ hact k r hk o ho b p
    obtain ⟨s, hs⟩ := hsub k r hk
    obtain ⟨hs0, hdiv⟩ := subSize_ok hs
    rw [subOf_eq hk hs]
    obtain ⟨τ, A, hA, h1, h2⟩ := hact.block hk hdiv (hblock r (List.mem_of_getElem? hk) s hs g hg)
    have hoq : o / s < r.size / s := by rw [Nat.div_lt_iff_lt_mul hs0, hdiv]; exact ho
    have hom : o % s < s := Nat.mod_lt _ hs0
    have e := Nat.div_add_mod' o s
    have hj := h1 (fun j => x.get b (chanOffset Rep.size m.inType.reprs k + j) p *
      m'.multiplier (orderIdx m'.labels m'.order ((m.inType.reprs.map Rep.size).getD k 0, s) k) (fieldNormOf s fun q => x.get b (chanOffset Rep.size m.inType.reprs k + (j / s * s + q)) p)) ⟨o / s, hoq⟩ (o % s) hom
    simp only [e] at hj
    rw [hj]
    have h3 := h2 b p ⟨o / s, hoq⟩
    have h4 := h3.1 (o % s) hom
    simp only [e] at h4
    rw [h3.2, h4, Finset.sum_mul]
    refine Finset.sum_congr rfl fun q hq => ?_
    have hq := Finset.mem_range.1 hq
    have e2 : ((τ ⟨o / s, hoq⟩ : ℕ) * s + q) / s = τ ⟨o / s, hoq⟩ := by
      rw [Nat.mul_comm, Nat.mul_add_div hs0, Nat.div_eq_of_lt hq, Nat.add_zero]
    rw [e2, mul_assoc]
  · exact PositionLocal.of_fields (sz := Rep.size) (inT := m.inType) (outT := m.inType) (fun x k o b p =>
        x.get b (chanOffset Rep.size m.inType.reprs k + o) p * m'.multiplier (orderIdx m'.labels m'.order ((m.inType.reprs.map Rep.size).getD k 0, subOf m.inType.reprs k) k)
          (fieldNormOf (subOf m.inType.reprs k) fun q => x.get b (chanOffset Rep.size m.inType.reprs k + (o / subOf m.inType.reprs k * subOf m.inType.reprs k + q)) p)) hf' (fun _ _ _ _ _ _ => rfl)

/-- **C51** Each subfield is multiplied by a function of its norm: 0 if the norm is at most `eps`, else the new norm `f(norm - bias)` over the norm (at least `eps`).  `bias` is the exponential of an
entry of `log_bias` which the subfields of this field and no other field use. -/
theorem C51_rescales (t : FType S (Rep G Id)) (hpos : ∀ r ∈ t.reprs, 0 < r.size) {function : String} {bias : Bool} {m : InducedNormNL S (Rep G Id)}
    (hm : init t function bias = .ok m) (f : ℝ → ℝ) (lb : Option (ℕ → ℝ)) (eps : ℝ) (junk : B → ℕ → P → ℝ) :
    ∃ idx : ℕ → ℕ, (∀ k < t.reprs.length, idx k < t.reprs.length ∧ ∀ k' < t.reprs.length, idx k = idx k' → k = k') ∧
    ∀ x : GTensor B P S (Rep G Id) C, x.type = t → x.tensor.chans = t.size Rep.size →
      ∃ y, forward junk { m with function := f, logBias := lb, eps := eps } x = .ok y ∧ y.type = t ∧ y.coords = x.coords ∧ y.tensor.chans = x.tensor.chans ∧
        ∀ (k : ℕ) (r : Rep G Id), t.reprs[k]? = some r → ∃ s, subSize "induced_norm" r = .ok s ∧ ∀ i < r.size / s, ∀ b p (norm : ℝ),
          norm = Real.sqrt (∑ o ∈ Finset.range s, x.tensor.get b (((t.reprs.take k).map Rep.size).sum + (i * s + o)) p ^ 2) → ∀ o < s,
          y.tensor.get b (((t.reprs.take k).map Rep.size).sum + (i * s + o)) p = x.tensor.get b (((t.reprs.take k).map Rep.size).sum + (i * s + o)) p *
            if norm ≤ eps then 0 else (match lb with | some l => f (norm - Real.exp (l (idx k))) | none => f norm) / max norm eps := by
  obtain ⟨subs, h0, -, h1, h2, h3, h4, h5, -⟩ := init_ok hm
  subst h1
  set m' : InducedNormNL S (Rep G Id) := { m with function := f, logBias := lb, eps := eps } with hm'
  obtain ⟨hl1, hl2, hl3⟩ := sizeLabel h0
  rw [← h2] at hl1 hl2 hl3
  refine ⟨fun k => orderIdx m.labels m.order (m.labels.getD k (0, 0)) k, fun k hk => ?_, fun x hx hc => ?_⟩
  · have hg : ∀ k < m.inType.reprs.length, m.labels[k]? = some (m.labels.getD k (0, 0)) := by
      intro k hk
      have : k < m.labels.length := by rw [hl1]; exact hk
      simp [List.getD, this]
    refine ⟨?_, fun k' hk' e => ?_⟩
    · have := orderIdx_lt ((h5 _).2 (List.mem_of_getElem? (hg k hk))) (hg k hk)
      refine this.trans_le ?_
      have hp : m.order.Perm m.labels.dedup := (List.perm_ext_iff_of_nodup h4 (List.nodup_dedup _)).2 fun l => by rw [h5, List.mem_dedup]
      rw [(hp.map _).sum_eq, ← hl1]
      exact le_of_eq (List.sum_map_count_dedup_eq_length m.labels)
    · exact orderIdx_inj ((h5 _).2 (List.mem_of_getElem? (hg k hk))) ((h5 _).2 (List.mem_of_getElem? (hg k' hk'))) (hg k hk) (hg k' hk') e
  · obtain ⟨y, e1, e2, e3, e4, e5⟩ := forward_spec (C := C) junk (m := m') hpos h0 h2 h3 h4 h5 x hx hc
    refine ⟨y, e1, e2, e3, e4.trans hc.symm, fun k r hk => ?_⟩
    obtain ⟨s, hs1, hs2⟩ := hl3 k r hk
    obtain ⟨hs0, hdiv⟩ := subSize_ok hs2
    refine ⟨s, hs2, fun i hi b p norm hn o ho => ?_⟩
    have hlt : i * s + o < r.size := by
      rw [← hdiv]
      calc i * s + o < i * s + s := by omega
        _ = (i + 1) * s := by ring
        _ ≤ r.size / s * s := Nat.mul_le_mul_right _ hi
    have := e5 k r s hk hs2 (i * s + o) hlt b p
    rw [show (i * s + o) / s = i by rw [Nat.mul_comm, Nat.mul_add_div hs0, Nat.div_eq_of_lt ho, Nat.add_zero]] at this
    unfold chanOffset at this
    rw [show m'.inType = m.inType from rfl] at this
    rw [this]
    simp only [show m.labels.getD k (0, 0) = (r.size, s) by simp [List.getD, hs1]]
    congr 1
    unfold multiplier fieldNormOf
    rw [← hn]
    rfl

end InducedNormNL

namespace PoolMap

theorem inducedInit_ok {triv : Rep G Id} (h1 : triv.size = 1) {t : FType S (Rep G Id)} (hpos : ∀ r ∈ t.reprs, 0 < r.size) {m : PoolMap (ℕ × ℕ) S (Rep G Id)} (h : inducedInit triv t = .ok m) :
    ∃ subs, mapE (subSize "induced_norm") t.reprs = .ok subs ∧ m.inType = t ∧ m.outType = ⟨t.gspace, List.replicate t.reprs.length triv⟩ ∧
      Tab Rep.size t.reprs ((t.reprs.map Rep.size).zip subs) m.tin ∧
      Tab Rep.size m.outType.reprs ((t.reprs.map Rep.size).zip subs) m.tout ∧ m.order.Nodup ∧ ∀ l, l ∈ m.order ↔ l ∈ (t.reprs.map Rep.size).zip subs := by
  unfold inducedInit at h
  cases h0 : mapE (subSize "induced_norm") t.reprs with
  | error e => rw [h0] at h; cases h
  | ok subs =>
    have hlen := (sizeLabel h0).1
    obtain ⟨d, e1, e2, e3⟩ := runPoolTables_spec (sz := Rep.size) (sz' := Rep.size) t hpos ((t.reprs.map Rep.size).zip subs) hlen (List.replicate t.reprs.length triv) (by rw [hlen]; simp)
      (fun r hr => by rw [List.eq_of_mem_replicate hr, h1])
    rw [h0] at h
    simp only [bind, Except.bind, e1] at h
    obtain rfl := Except.ok.inj h
    exact ⟨subs, rfl, rfl, rfl, e2, e3, keysInOrder_nodup _, fun l => mem_keysInOrder⟩

/-- What `InducedNormPool` computes. -/
theorem induced_spec {triv : Rep G Id} (h1 : triv.size = 1) {t : FType S (Rep G Id)} (hpos : ∀ r ∈ t.reprs, 0 < r.size) {m : PoolMap (ℕ × ℕ) S (Rep G Id)} (h : inducedInit triv t = .ok m)
    (junk : B → ℕ → P → ℝ) (x : GTensor B P S (Rep G Id) C) (hx : x.type = t) (hc : x.tensor.chans = t.size Rep.size) :
    ∃ y, forward inducedStep junk m x = .ok y ∧ y.type = ⟨t.gspace, List.replicate t.reprs.length triv⟩ ∧ y.coords = x.coords ∧
      y.tensor.chans = (⟨t.gspace, List.replicate t.reprs.length triv⟩ : FType S (Rep G Id)).size Rep.size ∧
      ∀ (k : ℕ) r, t.reprs[k]? = some r → ∃ s, subSize "induced_norm" r = .ok s ∧ ∀ b p, y.tensor.get b k p =
        maxOf (r.size / s) fun i => fieldNormOf s fun o => x.tensor.get b (chanOffset Rep.size t.reprs k + (i * s + o)) p := by
  obtain ⟨subs, h0, e2, e3, e4, e5, e6, e7⟩ := inducedInit_ok h1 hpos h
  obtain ⟨hl1, hl2, hl3⟩ := sizeLabel h0
  have hlab : ∀ l ∈ (t.reprs.map Rep.size).zip subs, 0 < l.2 ∧ l.1 / l.2 * l.2 = l.1 ∧ 0 < l.1 := by
    intro l hl
    obtain ⟨k, hk⟩ := List.mem_iff_getElem?.1 hl
    have hkl : k < t.reprs.length := by rw [← hl1]; exact (List.getElem?_eq_some_iff.1 hk).1
    obtain ⟨a1, a2⟩ := hl2 k l _ hk (List.getElem?_eq_getElem hkl)
    obtain ⟨hs0, hdiv⟩ := subSize_ok a2
    rw [a1] at hdiv
    exact ⟨hs0, hdiv, a1 ▸ hpos _ (List.getElem_mem hkl)⟩
  obtain ⟨y, f1, f2, f3, f4, f5⟩ := forward_spec (step := inducedStep) (s := Prod.fst) e2 hl1 (by rw [e3]; simp) (by rw [e3]; exact fun r hr => by rw [List.eq_of_mem_replicate hr, h1])
    (fun k l r hk hr => (hl2 k l r hk hr).1) e4 e5 e6 e7 (fun l v => if l.1 / l.2 * l.2 = l.1 then maxOf (l.1 / l.2) fun i => fieldNormOf l.2 fun o => v (i * l.2 + o) else 0)
    (by
      intro l v w hvw
      split
      · rename_i hd
        refine maxOf_congr fun i hi => fieldNormOf_congr fun o ho => hvw _ ?_
        calc i * l.2 + o < i * l.2 + l.2 := by omega
          _ = (i + 1) * l.2 := by ring
          _ ≤ l.1 / l.2 * l.2 := Nat.mul_le_mul_right _ hi
          _ = l.1 := hd
      · rfl)
    (fun l hl d n hd => by
      obtain ⟨a1, a2, a3⟩ := hlab l hl
      have hd' : d.chans = n * (l.1 / l.2 * l.2) := by rw [a2]; exact hd
      obtain ⟨f, b1, b2, b3, b4⟩ := toFields_div d (s := l.1 / l.2 * l.2) (by rw [a2]; exact a3) hd'
      have hq : l.1 / l.2 ≠ 0 := by
        intro e
        rw [e] at a2
        omega
      refine ⟨⟨f.n, fun b n p => maxOf (l.1 / l.2) fun i => fieldNormOf l.2 fun o => f.get b n (i * l.2 + o) p⟩, ?_, b2, fun i _ b p => ?_⟩
      · rw [inducedStep]
        simp only [bind, Except.bind, b1]
        exact if_neg hq
      · simp only [b4, a2, if_true]) junk x hx hc
  refine ⟨y, f1, by rw [f2, e3], f3, by rw [f4, e3], fun k r hk => ?_⟩
  obtain ⟨s, g1, g2⟩ := hl3 k r hk
  refine ⟨s, g2, fun b p => ?_⟩
  have := f5 k (r.size, s) g1 b p
  rw [if_pos (subSize_ok g2).2] at this
  exact this

/-- **C51** `InducedNormPool` returns for each field the largest norm of a subfield. -/
theorem C51_pool_values (triv : Rep G Id) (h1 : triv.size = 1) (t : FType S (Rep G Id)) (hpos : ∀ r ∈ t.reprs, 0 < r.size) {m : PoolMap (ℕ × ℕ) S (Rep G Id)} (hm : inducedInit triv t = .ok m)
    (junk : B → ℕ → P → ℝ) (x : GTensor B P S (Rep G Id) C) (hx : x.type = t) (hc : x.tensor.chans = t.size Rep.size) :
    ∃ y, forward inducedStep junk m x = .ok y ∧ y.type = ⟨t.gspace, List.replicate t.reprs.length triv⟩ ∧ y.coords = x.coords ∧ y.tensor.chans = t.reprs.length ∧
      ∀ (k : ℕ) r, t.reprs[k]? = some r → ∃ s, subSize "induced_norm" r = .ok s ∧ ∀ b p,
        IsGreatest {v | ∃ i < r.size / s, v = Real.sqrt (∑ o ∈ Finset.range s, x.tensor.get b (((t.reprs.take k).map Rep.size).sum + (i * s + o)) p ^ 2)} (y.tensor.get b k p) := by
  obtain ⟨y, e1, e2, e3, e4, e5⟩ := induced_spec (C := C) h1 hpos hm junk x hx hc
  refine ⟨y, e1, e2, e3, by rw [e4, FType.size_eq]; simp [h1], fun k r hk => ?_⟩
  obtain ⟨s, g1, g2⟩ := e5 k r hk
  refine ⟨s, g1, fun b p => ?_⟩
  obtain ⟨hs0, hdiv⟩ := subSize_ok g1
  have hq : 0 < r.size / s := by
    rcases Nat.eq_zero_or_pos (r.size / s) with h | h
    · have := hpos r (List.mem_of_getElem? hk)
      rw [h] at hdiv
      omega
    · exact h
  rw [g2 b p]
  have := maxOf_isGreatest hq fun i => fieldNormOf s fun o => x.tensor.get b (chanOffset Rep.size t.reprs k + (i * s + o)) p
  convert this using 1
  ext z
  constructor
  · rintro ⟨o, ho, rfl⟩; exact ⟨o, ho, rfl⟩
  · rintro ⟨o, ho, rfl⟩; exact ⟨o, ho, rfl⟩

/-- **C51** `InducedNormPool` is invariant for block permutations with orthogonal blocks. -/
theorem C51_pool (triv : Rep G Id) (h1 : triv.size = 1) (t : FType S (Rep G Id)) (hpos : ∀ r ∈ t.reprs, 0 < r.size) (hblock : BlockPerms "induced_norm" El t)
    {m : PoolMap (ℕ × ℕ) S (Rep G Id)} (hm : inducedInit triv t = .ok m) (junk : B → ℕ → P → ℝ) :
    FibreInvariant (B := B) (P := P) (C := C) El t ⟨t.gspace, List.replicate t.reprs.length triv⟩ (forward inducedStep junk m) ∧
    (ActsTrivially El triv → FibreEquivariant (B := B) (P := P) (C := C) El t ⟨t.gspace, List.replicate t.reprs.length triv⟩ (forward inducedStep junk m)) ∧
    PositionLocal (B := B) (P := P) (C := C) Rep.size t (forward inducedStep junk m) := by
  obtain ⟨subs, h0, -⟩ := inducedInit_ok h1 hpos hm
  have hsub : ∀ (k : ℕ) r, t.reprs[k]? = some r → ∃ s, subSize "induced_norm" r = .ok s := by
    intro k r hk
    obtain ⟨s, -, e⟩ := (sizeLabel h0).2.2 k r hk
    exact ⟨s, e⟩
  have hsq : t.Square El := by
    intro r hr g hg
    obtain ⟨k, hk⟩ := List.mem_iff_getElem?.1 hr
    obtain ⟨s, hs⟩ := hsub k r hk
    have := hblock r hr s hs g hg
    rw [← (subSize_ok hs).2]
    exact ⟨this.1, this.2.1⟩
  have ht1 : ∀ r ∈ (⟨t.gspace, List.replicate t.reprs.length triv⟩ : FType S (Rep G Id)).reprs, r.size = 1 := fun r hr => by rw [List.eq_of_mem_replicate hr, h1]
  let Ψ : FTensor B P → ℕ → B → P → ℝ := fun x k b p => maxOf ((t.reprs.map Rep.size).getD k 0 / InducedNormNL.subOf t.reprs k) fun i => fieldNormOf (InducedNormNL.subOf t.reprs k) fun o =>
    x.get b (chanOffset Rep.size t.reprs k + (i * InducedNormNL.subOf t.reprs k + o)) p
  have hf' : ∀ x : GTensor B P S (Rep G Id) C, x.type = t → x.tensor.chans = t.size Rep.size → ∃ y, forward inducedStep junk m x = .ok y ∧ y.type = ⟨t.gspace, List.replicate t.reprs.length triv⟩ ∧ y.coords = x.coords ∧
      y.tensor.chans = (⟨t.gspace, List.replicate t.reprs.length triv⟩ : FType S (Rep G Id)).size Rep.size ∧ ∀ k < t.reprs.length, ∀ b p, y.tensor.get b k p = Ψ x.tensor k b p := by
    intro x hx hc
    obtain ⟨y, e1, e2, e3, e4, e5⟩ := induced_spec (C := C) h1 hpos hm junk x hx hc
    refine ⟨y, e1, e2, e3, e4, fun k hk b p => ?_⟩
    obtain ⟨s, g1, g2⟩ := e5 k _ (List.getElem?_eq_getElem hk)
    rw [g2]
    simp only [Ψ, InducedNormNL.subOf_eq (List.getElem?_eq_getElem hk) g1]
    simp [List.getD, hk]
  have := FibreInvariant.of_fields (C := C) (El := El) (outT := ⟨t.gspace, List.replicate t.reprs.length triv⟩) hsq (by simp) ht1 Ψ hf' (by
      intro g hg x gx _ _ hact k hk b p
      obtain ⟨s, hs⟩ := hsub k _ (List.getElem?_eq_getElem hk)
      obtain ⟨hs0, hdiv⟩ := subSize_ok hs
      obtain ⟨τ, A, hA, -, a2⟩ := hact.block (List.getElem?_eq_getElem hk) hdiv (hblock _ (List.getElem_mem hk) s hs g hg)
      have hq : 0 < t.reprs[k].size / s := by
        rcases Nat.eq_zero_or_pos (t.reprs[k].size / s) with h | h
        · have := hpos _ (List.getElem_mem hk)
          rw [h] at hdiv
          omega
        · exact h
      simp only [Ψ, InducedNormNL.subOf_eq (List.getElem?_eq_getElem hk) hs, show (t.reprs.map Rep.size).getD k 0 = t.reprs[k].size by simp [List.getD, hk]]
      exact maxOf_perm hq _ _ τ fun i => (a2 b p i).2)
  refine ⟨this.1, fun htr => this.2 fun r hr => by rw [List.eq_of_mem_replicate hr]; exact htr, ?_⟩
  exact PositionLocal.of_values (outT := ⟨t.gspace, List.replicate t.reprs.length triv⟩) (by simp) ht1 Ψ hf' fun _ _ _ _ _ => rfl

end PoolMap

end Escnn
