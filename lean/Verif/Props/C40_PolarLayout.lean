import Verif.Lemmas.Polar
import Verif.Props.C37_Attributes

/-!
# C40: the index layout of the shells bases

For both classes, with and without filter: sampling, `__iter__`, `steerable_attrs_iter` and `steerable_attrs_j` use the same layout
(`C40_iter`, `C40_steerable`).  `SphericalShellsBasis.__getitem__` agrees as well (`C40_getitem_spherical`).

The full claim is false for three methods:
* `CircularShellsBasis.__getitem__` always raises `AssertionError` (`C40_violated_getitem_circular`);
* `steerable_attrs_j_iter` is wrong as soon as there is a filter (`C40_violated_filter`), and right without (`C40_steerable_iter_partial`);
* `steerable_attrs` raises `AssertionError` without filter (`C40_violated_steerable_attrs`); with a filter it agrees for the circular basis
  (`C40_steerable_attrs_partial`), while for the spherical one the radial attributes are lost (`C40_violated_radial`).
-/

namespace Escnn

namespace Shells

variable {k : ShellKind} {size : ℕ × ℕ → ℕ} {L n : ℕ} {filter : Option (ℕ × ℕ → ℕ → Bool)} {b : Shells}

theorem sum_take_range {α : Type} (w : α → ℕ) (g : ℕ → List α) (L j : ℕ) (hj : j ≤ L) :
    (((List.range L).take j).map fun i => (g i).length).sum = (((List.range L).flatMap g).take (((List.range j).map fun i => (g i).length).sum)).length := by
  rw [List.take_range, min_eq_left hj]
  obtain ⟨d, rfl⟩ := Nat.exists_eq_add_of_le hj
  rw [List.range_add, List.flatMap_append, ← List.length_flatMap, List.take_left']
  rfl

theorem flatMap_range_offset {α : Type} (g : ℕ → List α) (L j i : ℕ) (hj : j < L) (hi : i < (g j).length) :
    ((List.range L).flatMap g)[((List.range j).map fun i => (g i).length).sum + i]? = (g j)[i]? := by
  obtain ⟨d, rfl⟩ := Nat.exists_eq_add_of_lt hj
  rw [show j + d + 1 = j + (1 + d) by omega, List.range_add, List.flatMap_append, ← List.length_flatMap, List.getElem?_append_right (by omega), Nat.add_sub_cancel_left]
  rw [List.range_add, List.map_append, List.flatMap_append, List.getElem?_append_left (by simpa using hi)]
  simp

theorem lookup_js (hk : k.Ok size) (h : init k size L n filter = .ok b) {j : ℕ} (hj : j < L + 1) : b.mult (k.id j) = (kept k n filter j).length := by
  obtain ⟨-, -, -, h4, -⟩ := init_spec hk h
  have hnd : (b.js.map Prod.fst).Nodup := by
    rw [h4, List.map_map]
    refine List.Nodup.map_on (fun x _ y _ e => ?_) List.nodup_range
    have := congrArg Prod.snd (show k.id x = k.id y from e)
    rwa [hk.snd, hk.snd] at this
  rw [mult, (lookupLast_of_nodup hnd).2 (show (k.id j, (kept k n filter j).length) ∈ b.js by rw [h4]; exact List.mem_map.2 ⟨j, List.mem_range.2 hj, rfl⟩)]
  rfl

theorem multBelow_eq (hk : k.Ok size) (h : init k size L n filter = .ok b) {j : ℕ} (hj : j < L + 1) :
    b.multBelow j = ((List.range j).map fun i => (kept k n filter i).length).sum := by
  rw [multBelow, (init_spec hk h).1]
  congr 1
  refine List.map_congr_left fun i hi => lookup_js hk h ?_
  have := List.mem_range.1 hi
  omega

theorem sItems_get {j i : ℕ} (hj : j < L + 1) (hi : i < (kept k n filter j).length) :
    (sItems (kept k n filter) (List.range (L + 1)))[((List.range j).map fun i => (kept k n filter i).length).sum + i]? = some (j, (kept k n filter j)[i]) := by
  have := flatMap_range_offset (fun j => (kept k n filter j).map fun r => (j, r)) (L + 1) j i hj (by simpa using hi)
  simp only [List.length_map] at this
  rw [sItems, this, List.getElem?_map, List.getElem?_eq_getElem hi]
  rfl

theorem flatMap_map_get {α : Type} (R : List ℕ) (d i c : ℕ) (g : ℕ → ℕ → α) (hi : i < R.length) (hc : c < d) :
    (R.flatMap fun r => (List.range d).map fun c => g r c)[i * d + c]? = some (g R[i] c) := by
  induction R generalizing i with
  | nil => simp at hi
  | cons r R ih =>
    rw [List.flatMap_cons]
    cases i with
    | zero =>
      rw [zero_mul, zero_add, List.getElem?_append_left (by simpa using hc), List.getElem?_map, List.getElem?_range hc]
      rfl
    | succ i =>
      have hi' : i < R.length := by simpa using hi
      rw [List.getElem?_append_right (by simp [Nat.succ_mul]; omega), List.length_map, List.length_range,
        show (i + 1) * d + c - d = i * d + c by rw [Nat.succ_mul]; omega, ih i hi']
      rfl

theorem items_get (hk : k.Ok size) {j i c : ℕ} (hj : j < L + 1) (hi : i < (kept k n filter j).length) (hc : c < k.dim j) :
    (items k (kept k n filter) (List.range (L + 1)))[((List.range j).map fun i => size (k.id i) * (kept k n filter i).length).sum + (i * k.dim j + c)]? = some (j, (kept k n filter j)[i], c) := by
  have hlen : ∀ j, ((kept k n filter j).flatMap fun r => (List.range (k.dim j)).map fun c => (j, r, c)).length = size (k.id j) * (kept k n filter j).length := fun j => by
    rw [List.length_flatMap, hk.size]
    simp [mul_comm]
  have hlt : i * k.dim j + c < size (k.id j) * (kept k n filter j).length := by
    rw [hk.size, mul_comm (k.dim j)]
    have : (i + 1) * k.dim j ≤ (kept k n filter j).length * k.dim j := Nat.mul_le_mul_right _ hi
    rw [Nat.succ_mul] at this
    omega
  have := flatMap_range_offset (fun j => (kept k n filter j).flatMap fun r => (List.range (k.dim j)).map fun c => (j, r, c)) (L + 1) j (i * k.dim j + c) hj (by rw [hlen]; exact hlt)
  simp only [hlen] at this
  rw [items, this, flatMap_map_get _ _ i c (fun r c => (j, r, c)) hi hc]

theorem items_nodup (k : ShellKind) (R : ℕ → List ℕ) (hR : ∀ j, (R j).Nodup) (js : List ℕ) (hjs : js.Nodup) : (items k R js).Nodup := by
  rw [items, List.nodup_flatMap]
  refine ⟨fun j _ => ?_, ?_⟩
  · rw [List.nodup_flatMap]
    refine ⟨fun r _ => List.Nodup.map_on (fun x _ y _ e => by simpa using e) List.nodup_range, ?_⟩
    refine (hR j).pairwise_of_forall_ne fun r _ r' _ hrr => ?_
    intro x hx hx'
    obtain ⟨c, -, rfl⟩ := List.mem_map.1 hx
    obtain ⟨c', -, e⟩ := List.mem_map.1 hx'
    simp only [Prod.mk.injEq] at e
    exact hrr e.2.1.symm
  · refine hjs.pairwise_of_forall_ne fun j _ j' _ hjj => ?_
    intro x hx hx'
    obtain ⟨r, -, hr⟩ := List.mem_flatMap.1 hx
    obtain ⟨c, -, rfl⟩ := List.mem_map.1 hr
    obtain ⟨r', -, hr'⟩ := List.mem_flatMap.1 hx'
    obtain ⟨c', -, e⟩ := List.mem_map.1 hr'
    simp only [Prod.mk.injEq] at e
    exact hjj e.1.symm

theorem kept_nodup (k : ShellKind) (n : ℕ) (filter : Option (ℕ × ℕ → ℕ → Bool)) (j : ℕ) : (kept k n filter j).Nodup := by
  rw [kept_eq]; exact List.nodup_range.filter _

theorem keep_iff (k : ShellKind) (filter : Option (ℕ × ℕ → ℕ → Bool)) (j r : ℕ) : keep k filter j r = true ↔ ∀ f, filter = some f → f (k.id j) r = true := by
  cases filter with
  | none => simp [keep]
  | some f => simp [keep]

/-- **C40**: the items of `__iter__` are the filters in the order of `sample`: item `e` has index `e`, belongs to a frequency `j ≤ L`, a radius and a component, and
filter `e` is that radial profile times that component of the harmonic.  Every accepted combination appears, and exactly once. -/
theorem C40_iter (hk : k.Ok size) (h : init k size L n filter = .ok b) :
    b.iter.length = b.dim size ∧
    (∀ e < b.dim size, ∃ a j, b.iter[e]? = some a ∧ a.idx = e ∧ j ≤ L ∧ a.j = k.id j ∧ a.radialIdx < n ∧ a.rad = some a.radialIdx ∧ a.m < k.dim j ∧
      (∀ f, filter = some f → f a.j a.radialIdx = true) ∧
      ∀ junk radial angular, b.sample junk radial angular e = radial a.radialIdx * angular (k.first j + a.m)) ∧
    (∀ j ≤ L, ∀ r < n, ∀ m < k.dim j, (∀ f, filter = some f → f (k.id j) r = true) → ∃ a ∈ b.iter, a.j = k.id j ∧ a.radialIdx = r ∧ a.m = m) ∧
    ∀ (e e' : ℕ) a a', b.iter[e]? = some a → b.iter[e']? = some a' → a.j = a'.j → a.radialIdx = a'.radialIdx → a.m = a'.m → e = e' := by
  have hit := iter_spec hk h
  have hdim := (init_spec hk h).2.2.2.2.1
  have hget : ∀ (e : ℕ) a, b.iter[e]? = some a → ∃ it, (items k (kept k n filter) (List.range (L + 1)))[e]? = some it ∧ a = ⟨e, it.2.1, k.id it.1, it.2.2, some it.2.1⟩ := by
    intro e a ha
    rw [hit, List.getElem?_map, List.getElem?_zipIdx] at ha
    cases hi : (items k (kept k n filter) (List.range (L + 1)))[e]? with
    | none => rw [hi] at ha; simp at ha
    | some it =>
      rw [hi] at ha
      refine ⟨it, rfl, ?_⟩
      simpa using ha.symm
  have hlen : b.iter.length = b.dim size := by rw [hit, hdim, List.length_map, List.length_zipIdx]
  refine ⟨hlen, fun e he => ?_, fun j hj r hr m hm hf => ?_, fun e e' a a' ha ha' h1 h2 h3 => ?_⟩
  · rw [← hlen] at he
    obtain ⟨it, hi, ha⟩ := hget e _ (List.getElem?_eq_getElem he)
    obtain ⟨m1, m2, m3⟩ := mem_items.1 (List.mem_of_getElem? hi)
    refine ⟨b.iter[e], it.1, List.getElem?_eq_getElem he, by rw [ha], ?_, by rw [ha], ?_, by rw [ha], by rw [ha]; exact m3, ?_, ?_⟩
    · have := List.mem_range.1 m1; omega
    · rw [ha]; exact mem_kept m2
    · rw [kept_eq] at m2
      rw [ha]
      exact (keep_iff k filter it.1 it.2.1).1 (List.mem_filter.1 m2).2
    · intro junk radial angular
      rw [ha]
      exact sample_spec hk h junk radial angular e it hi
  · have hm' : (j, r, m) ∈ items k (kept k n filter) (List.range (L + 1)) :=
      mem_items.2 ⟨List.mem_range.2 (by omega), by rw [kept_eq]; exact List.mem_filter.2 ⟨List.mem_range.2 hr, (keep_iff k filter j r).2 hf⟩, hm⟩
    obtain ⟨e, he, hee⟩ := List.getElem_of_mem hm'
    refine ⟨⟨e, r, k.id j, m, some r⟩, ?_, rfl, rfl, rfl⟩
    rw [hit]
    refine List.mem_map.2 ⟨((j, r, m), e), ?_, rfl⟩
    exact List.mem_iff_getElem?.2 ⟨e, by rw [List.getElem?_zipIdx, List.getElem?_eq_getElem he, hee]; simp⟩
  · obtain ⟨it, hi, rfl⟩ := hget e a ha
    obtain ⟨it', hi', rfl⟩ := hget e' a' ha'
    simp only at h1 h2 h3
    have hj : it.1 = it'.1 := by
      have := congrArg Prod.snd h1
      rwa [hk.snd, hk.snd] at this
    have : it = it' := Prod.ext hj (Prod.ext h2 h3)
    subst this
    obtain ⟨g1, g2⟩ := List.getElem?_eq_some_iff.1 hi
    obtain ⟨g3, g4⟩ := List.getElem?_eq_some_iff.1 hi'
    exact (List.Nodup.getElem_inj_iff (items_nodup k _ (kept_nodup k n filter) _ List.nodup_range)).1 (g2.trans g4.symm)

theorem getElem_zipIdx_map {α β : Type} (A : List α) (g : α × ℕ → β) (e : ℕ) (x : α) (h : A[e]? = some x) : (A.zipIdx.map g)[e]? = some (g (x, e)) := by
  rw [List.getElem?_map, List.getElem?_zipIdx, h]
  simp

/-- **C40**: copy `i` of the harmonic `j`: `steerable_attrs_j` names the radius whose profile multiplies the `dim j` filters of the copy in the layout used by the kernel solvers
(the harmonics one after the other, each with its copies), and `steerable_attrs_iter` yields the same attributes in the same order. -/
theorem C40_steerable (hk : k.Ok size) (h : init k size L n filter = .ok b) (j : ℕ) (hj : j ≤ L) :
    b.js[j]? = some (k.id j, b.mult (k.id j)) ∧
    ∀ i < b.mult (k.id j), ∃ a, b.steerableAttrsJ (k.id j) i = .ok (some a) ∧ b.steerableAttrsIter[b.multBelow j + i]? = some a ∧
      a.idx = b.multBelow j + i ∧ a.j = k.id j ∧ a.radialIdx < n ∧ a.rad = some a.radialIdx ∧ (∀ f, filter = some f → f (k.id j) a.radialIdx = true) ∧
      ∀ c < k.dim j, ∀ junk radial angular,
        b.sample junk radial angular (((b.js.take j).map fun e => size e.1 * e.2).sum + (i * k.dim j + c)) = radial a.radialIdx * angular (k.first j + c) := by
  have hj' : j < L + 1 := by omega
  obtain ⟨h1, h2, h3, h4, -, -, -, -, h9, -⟩ := init_spec hk h
  refine ⟨?_, fun i hi => ?_⟩
  · rw [lookup_js hk h hj', h4, List.getElem?_map, List.getElem?_range hj']
    rfl
  have hmul := lookup_js hk h hj'
  have hbel := multBelow_eq hk h hj'
  rw [hmul] at hi
  have hsg := sItems_get (k := k) (n := n) (filter := filter) hj' hi
  rw [← hbel] at hsg
  have hmem : (kept k n filter j)[i] ∈ kept k n filter j := List.getElem_mem hi
  have hr := mem_kept hmem
  refine ⟨⟨b.multBelow j + i, (kept k n filter j)[i], k.id j, some (kept k n filter j)[i]⟩, ?_, ?_, rfl, rfl, hr, rfl, ?_, ?_⟩
  · have hmap : mapIdx b.sMap (i + b.multBelow j) = .ok (j * n + (kept k n filter j)[i]) := by
      rw [h9, add_comm i]
      cases filter with
      | none =>
        simp only [Option.map_none, mapIdx]
        congr 1
        rw [hbel]
        simp [kept]
      | some f =>
        simp only [Option.map_some, mapIdx]
        rw [List.getElem?_map, hsg]
        rfl
    have hdiv : (j * n + (kept k n filter j)[i]) / n = j := by
      rw [mul_comm, Nat.mul_add_div (by omega), Nat.div_eq_of_lt hr, add_zero]
    have hmod : (j * n + (kept k n filter j)[i]) % n = (kept k n filter j)[i] := by
      rw [mul_comm, Nat.mul_add_mod, Nat.mod_eq_of_lt hr]
    rw [steerableAttrsJ, hk.snd, h1, if_neg (by simp), if_neg (by rw [hmul]; omega), hmap]
    simp only [bind, Except.bind, h3, hdiv, hmod, ne_eq, not_true_eq_false, if_false, radialGet, hr, if_true]
    rw [add_comm]
  · rw [steerableAttrsIter_spec hk h, getElem_zipIdx_map _ _ _ _ hsg]
  · have hmem' : (kept k n filter j)[i] ∈ (List.range n).filter (keep k filter j) := by rw [← kept_eq]; exact hmem
    exact (keep_iff k filter j _).1 (List.mem_filter.1 hmem').2
  · intro c hc junk radial angular
    have hg := items_get (L := L) (k := k) (n := n) (filter := filter) hk hj' hi hc
    have hs : ((b.js.take j).map fun e => size e.1 * e.2).sum = ((List.range j).map fun i => size (k.id i) * (kept k n filter i).length).sum := by
      rw [h4, ← List.map_take, List.take_range, min_eq_left (by omega), List.map_map]
      rfl
    rw [hs]
    exact sample_spec hk h junk radial angular _ _ hg

/-- C40, the part which holds of `steerable_attrs_j_iter`: without filter it yields the attributes of `steerable_attrs_j`.  With filter see `C40_violated_filter`. -/
theorem C40_steerable_iter_partial (hk : k.Ok size) (h : init k size L n none = .ok b) (j : ℕ) (hj : j ≤ L) :
    (b.steerableAttrsJIter (k.id j)).length = b.mult (k.id j) ∧
    ∀ i < b.mult (k.id j), ∃ a, (b.steerableAttrsJIter (k.id j))[i]? = some a ∧ b.steerableAttrsJ (k.id j) i = .ok (some a) := by
  have hj' : j < L + 1 := by omega
  obtain ⟨h1, h2, h3, h4, -, -, h7, -, h9, -⟩ := init_spec hk h
  have hmul : b.mult (k.id j) = n := by rw [lookup_js hk h hj']; simp [kept]
  have hst := stR_eq b j 0 (fun _ => true) (b.multBelow j) n (fun r _ => by rw [sliceAll, h7]; rfl)
  have hf : (List.range n).filter (fun _ => true) = List.range n := List.filter_eq_self.2 fun _ _ => rfl
  have hI : b.steerableAttrsJIter (k.id j) = ((List.range n).zipIdx (b.multBelow j)).map fun e => ⟨e.2, e.1, k.id j, some e.1⟩ := by
    rw [steerableAttrsJIter, hk.snd, h1, if_neg (by simp), h3, hst, hf, h1]
  refine ⟨by rw [hI, hmul]; simp, fun i hi => ?_⟩
  obtain ⟨a, ha, -, hb1, hb2, hb3, hb4, -⟩ := (C40_steerable hk h j hj).2 i hi
  refine ⟨a, ?_, ha⟩
  rw [hmul] at hi
  rw [hI, List.getElem?_map, List.getElem?_zipIdx, List.getElem?_range hi]
  have : a.radialIdx = i := by
    have hbel := multBelow_eq hk h hj'
    have hmap : mapIdx b.sMap (i + b.multBelow j) = .ok (i + b.multBelow j) := by rw [h9]; rfl
    have hb' : b.multBelow j = j * n := by rw [hbel]; simp [kept]
    rw [steerableAttrsJ, hk.snd, h1, if_neg (by simp), if_neg (by rw [hmul]; omega), hmap] at ha
    have hmod : (i + b.multBelow j) % n = i := by rw [hb', Nat.add_mul_mod_self_right, Nat.mod_eq_of_lt hi]
    have hdiv : (i + b.multBelow j) / n = j := by rw [hb', Nat.add_mul_div_right _ _ (by omega), Nat.div_eq_of_lt hi, zero_add]
    simp only [bind, Except.bind, h3, hdiv, hmod, ne_eq, not_true_eq_false, if_false, radialGet, hi, if_true] at ha
    have := Option.some.inj (Except.ok.inj ha)
    rw [← this]
  obtain ⟨x1, x2, x3, x4⟩ := a
  simp only at this hb1 hb2 hb4
  subst this hb1 hb2 hb4
  simp [add_comm]

/-- C40, the part which holds of `steerable_attrs`: with a filter, for the circular basis, it agrees with `steerable_attrs_iter`. -/
theorem C40_steerable_attrs_partial (hk : k.Ok size) (f : ℕ × ℕ → ℕ → Bool) (h : init k size L n (some f) = .ok b) :
    b.numInv = b.steerableAttrsIter.length ∧ ∀ idx < b.numInv, ∃ a, b.steerableAttrsIter[idx]? = some a ∧ b.steerableAttrs false idx = .ok a := by
  obtain ⟨h1, h2, h3, h4, -, -, h7, -, h9, h10⟩ := init_spec hk h
  have hI := steerableAttrsIter_spec hk h
  have hlen : b.numInv = b.steerableAttrsIter.length := by rw [h10, hI]; simp
  refine ⟨hlen, fun idx hidx => ?_⟩
  have hlt : idx < (sItems (kept k n (some f)) (List.range (L + 1))).length := by rw [h10] at hidx; simpa using hidx
  obtain ⟨⟨j, r⟩, hg⟩ : ∃ e, (sItems (kept k n (some f)) (List.range (L + 1)))[idx]? = some e := ⟨_, List.getElem?_eq_getElem hlt⟩
  refine ⟨_, by rw [hI, getElem_zipIdx_map _ _ _ _ hg], ?_⟩
  have hr : r < n := by
    have := List.mem_of_getElem? hg
    rw [sItems, List.mem_flatMap] at this
    obtain ⟨j', -, hm⟩ := this
    obtain ⟨r', hr', e⟩ := List.mem_map.1 hm
    obtain ⟨rfl, rfl⟩ := Prod.mk.inj e
    exact mem_kept hr'
  have hdiv : (j * n + r) / n = j := by rw [mul_comm, Nat.mul_add_div (by omega), Nat.div_eq_of_lt hr, add_zero]
  have hmod : (j * n + r) % n = r := by rw [mul_comm, Nat.mul_add_mod, Nat.mod_eq_of_lt hr]
  have hmap : mapIdx b.sMap idx = .ok (j * n + r) := by
    rw [h9]
    simp only [Option.map_some, mapIdx]
    rw [List.getElem?_map, hg]
    rfl
  rw [steerableAttrs, if_neg (not_not.2 hidx), hmap]
  simp [bind, Except.bind, h3, h1, hdiv, hmod, radialGet, hr]

/-- **C40** for `SphericalShellsBasis.__getitem__`: `basis[idx]` is the `idx`-th item of `iter(basis)`, with and without filter. -/
theorem C40_getitem_spherical (h : init ShellKind.sph (fun j => 2 * j.2 + 1) L n filter = .ok b) :
    (∀ idx, b.dim (fun j => 2 * j.2 + 1) ≤ idx → b.getItemSph (fun j => 2 * j.2 + 1) idx = .error .assertion) ∧
    ∀ idx < b.dim (fun j => 2 * j.2 + 1), ∃ a, b.iter[idx]? = some a ∧ b.getItemSph (fun j => 2 * j.2 + 1) idx = .ok a := by
  have hk := ShellKind.sph_ok
  refine ⟨fun idx hidx => by rw [getItemSph, if_pos (by omega)], fun idx hidx => ?_⟩
  obtain ⟨h1, h2, h3, h4, h5, -, h7, h8, -⟩ := init_spec hk h
  have hlt : idx < (items ShellKind.sph (kept ShellKind.sph n filter) (List.range (L + 1))).length := by rw [← h5]; exact hidx
  obtain ⟨⟨j, r, c⟩, hg⟩ : ∃ e, (items ShellKind.sph (kept ShellKind.sph n filter) (List.range (L + 1)))[idx]? = some e := ⟨_, List.getElem?_eq_getElem hlt⟩
  refine ⟨_, by rw [iter_spec hk h, getElem_zipIdx_map _ _ _ _ hg], ?_⟩
  obtain ⟨m1, m2, m3⟩ := mem_items.1 (List.mem_of_getElem? hg)
  simp only at m1 m2 m3
  have hr := mem_kept m2
  have hmap : mapIdx b.idxMap idx = .ok (pos ShellKind.sph n (j, r, c)) := by
    rw [h8]
    cases filter with
    | none =>
      simp only [Option.map_none, mapIdx]
      have h6 := congrArg (fun l => l[idx]?) (map_pos_full' (n := n) hk (L + 1))
      have hf : items ShellKind.sph (kept ShellKind.sph n none) (List.range (L + 1)) = items ShellKind.sph (fun _ => List.range n) (List.range (L + 1)) := rfl
      rw [hf] at hg hlt
      simp only [List.getElem?_map, hg, Option.map_some, List.getElem?_range hlt] at h6
      rw [Option.some.inj h6]
    | some f =>
      simp only [Option.map_some, mapIdx]
      rw [List.getElem?_map, hg]
      rfl
  have hn : 0 < n := by omega
  have hc : c < 2 * j + 1 := m3
  have hp : pos ShellKind.sph n (j, r, c) = j ^ 2 * n + (r * (2 * j + 1) + c) := rfl
  have hlt2 : r * (2 * j + 1) + c < (2 * j + 1) * n := by
    have : (r + 1) * (2 * j + 1) ≤ n * (2 * j + 1) := Nat.mul_le_mul_right _ hr
    rw [Nat.succ_mul] at this
    rw [mul_comm (2 * j + 1) n]
    omega
  have hsq : Nat.sqrt (pos ShellKind.sph n (j, r, c) / n) = j := by
    have hd : pos ShellKind.sph n (j, r, c) / n = j ^ 2 + (r * (2 * j + 1) + c) / n := by rw [hp, mul_comm, Nat.mul_add_div hn]
    have hq : (r * (2 * j + 1) + c) / n < 2 * j + 1 := Nat.div_lt_of_lt_mul (by rw [mul_comm n]; exact hlt2)
    rw [hd]
    refine (Nat.eq_sqrt.2 ⟨by rw [pow_two]; exact Nat.le_add_right _ _, by
      have : (j + 1) * (j + 1) = j ^ 2 + (2 * j + 1) := by ring
      omega⟩).symm
  have hb1 : j ^ 2 * n ≤ pos ShellKind.sph n (j, r, c) ∧ pos ShellKind.sph n (j, r, c) < (j + 1) ^ 2 * n := by
    rw [hp]
    refine ⟨by omega, ?_⟩
    have : (j + 1) ^ 2 * n = j ^ 2 * n + (2 * j + 1) * n := by ring
    omega
  have hsub : pos ShellKind.sph n (j, r, c) - j ^ 2 * n = c + (2 * j + 1) * r := by rw [hp, mul_comm r]; omega
  have hdiv : (c + (2 * j + 1) * r) / (2 * j + 1) = r := by rw [Nat.add_mul_div_left _ _ (by omega), Nat.div_eq_of_lt hc, zero_add]
  have hmod : (c + (2 * j + 1) * r) % (2 * j + 1) = c := by rw [Nat.add_mul_mod_self_left, Nat.mod_eq_of_lt hc]
  rw [getItemSph, if_neg (not_not.2 hidx), hmap]
  simp only [bind, Except.bind, h3, hsq]
  rw [if_neg (not_not.2 hb1)]
  simp only [hsub, hdiv, hmod, radialGet, h3, hr, if_true]
  rfl

/-- C40 is false for `CircularShellsBasis.__getitem__`: it raises `AssertionError` for every index of every basis. -/
theorem C40_violated_getitem_circular (h : init ShellKind.circ (fun j => O2.irrepSize j.1 j.2) L n filter = .ok b) (idx : ℕ) :
    ∃ e, b.getItemCirc (fun j => O2.irrepSize j.1 j.2) idx = .error e := by
  obtain ⟨h1, h2, h3, h4, h5, hpos, h7, h8, -⟩ := init_spec ShellKind.circ_ok h
  have hn : 0 < n := by
    rw [h5, List.length_pos_iff_exists_mem] at hpos
    obtain ⟨e, he⟩ := hpos
    have := mem_kept (mem_items.1 he).2.1
    omega
  rw [getItemCirc]
  by_cases hd : ¬ idx < b.dim fun j => O2.irrepSize j.1 j.2
  · rw [if_pos hd]; exact ⟨_, rfl⟩
  · rw [if_neg hd]
    cases hm : mapIdx b.idxMap idx with
    | error e => exact ⟨e, rfl⟩
    | ok i =>
      simp only [bind, Except.bind, h3]
      rw [if_pos]
      · exact ⟨_, rfl⟩
      · rintro ⟨hle, -⟩
        have hq : i < (i / n + 1) * n := by rw [mul_comm]; exact Nat.lt_mul_div_succ i hn
        have hj : i / n + 1 ≤ 2 * ((i / n + 1) / 2) + 1 := by omega
        have := Nat.mul_le_mul_right n hj
        omega

/-- C40 is false for `steerable_attrs` without filter: it raises `AssertionError` for every index. -/
theorem C40_violated_steerable_attrs (hk : k.Ok size) (h : init k size L n none = .ok b) (s : Bool) (idx : ℕ) : b.steerableAttrs s idx = .error .assertion := by
  obtain ⟨-, -, -, -, -, -, -, -, -, h10⟩ := init_spec hk h
  rw [steerableAttrs, h10]
  simp

/-- The filter which keeps only the frequency 1. -/
def demoFilter : ℕ × ℕ → ℕ → Bool := fun j _ => j.2 == 1

/-- C40 is false for `steerable_attrs_j_iter` with a filter, because the slice starts at 0 for every frequency: keeping the frequency 1 only, with two radii, the basis has four
filters, of frequency 1 and two copies, the first with radius 0; but the iterator for the frequency 1 yields one item only, with radius 1. -/
theorem C40_violated_filter : ∃ b, init ShellKind.circ (fun j => O2.irrepSize j.1 j.2) 1 2 (some demoFilter) = .ok b ∧ b.dim (fun j => O2.irrepSize j.1 j.2) = 4 ∧
    b.mult (1, 1) = 2 ∧ b.steerableAttrsJ (1, 1) 0 = .ok (some ⟨0, 0, (1, 1), some 0⟩) ∧ b.steerableAttrsJIter (1, 1) = [⟨0, 1, (1, 1), some 1⟩] :=
  ⟨_, rfl, rfl, rfl, rfl, rfl⟩

/-- C40 is false for `SphericalShellsBasis.steerable_attrs`: the radial attributes, which `steerable_attrs_iter` contains, are missing. -/
theorem C40_violated_radial : ∃ b a a', init ShellKind.sph (fun j => 2 * j.2 + 1) 1 2 (some demoFilter) = .ok b ∧ b.steerableAttrs true 0 = .ok a ∧
    b.steerableAttrsIter[0]? = some a' ∧ a ≠ a' ∧ a.rad = none ∧ a'.rad = some 0 :=
  ⟨_, _, _, rfl, rfl, rfl, by decide, rfl, rfl⟩

/-- Both kinds, with three radii and frequencies up to 2. -/
example : ∃ b, init ShellKind.circ (fun j => O2.irrepSize j.1 j.2) 2 3 none = .ok b ∧ b.dim (fun j => O2.irrepSize j.1 j.2) = 15 ∧
    b.iter[6]? = some ⟨6, 1, (1, 1), 1, some 1⟩ := ⟨_, rfl, rfl, rfl⟩

example : ∃ b, init ShellKind.sph (fun j => 2 * j.2 + 1) 2 3 none = .ok b ∧ b.dim (fun j => 2 * j.2 + 1) = 27 ∧ b.getItemSph (fun j => 2 * j.2 + 1) 7 = .ok ⟨7, 1, (1, 1), 1, some 1⟩ :=
  ⟨_, rfl, rfl, by decide +kernel⟩

end Shells

end Escnn
