import Verif.Spec.GroupLaws
import Verif.Spec.Subgroup
import Verif.Props.C01_Cyclic
import Verif.Props.C02_Dihedral
import Verif.Props.C03_SO2O2
import Verif.Props.C05_CyclicSubgroups

/-!
# C04 — direct products
-/

namespace Escnn

/-! ### The regular expression splitting the name of the parametrisation -/

theorem findSome_reverse_range {α : Type} (f : ℕ → Option α) (n k : ℕ) (v : α) (hk : k ≤ n) (hv : f k = some v)
    (hn : ∀ i, k < i → i ≤ n → f i = none) : (List.range (n + 1)).reverse.findSome? f = some v := by
  induction n with
  | zero =>
    obtain rfl : k = 0 := by omega
    simp [List.range_succ, hv]
  | succ n ih =>
    rw [List.range_succ, List.reverse_append, List.reverse_singleton, List.singleton_append, List.findSome?_cons]
    rcases Nat.lt_or_ge n k with h | h
    · obtain rfl : k = n + 1 := by omega
      rw [hv]
    · rw [hn (n + 1) (by omega) le_rfl]
      exact ih h (fun i h1 h2 => hn i h1 (by omega))

theorem matchTail_append (q : List Char) (hq : q ≠ []) : matchTail (q ++ [']']) = some q := by
  unfold matchTail
  have hl : 0 < q.length := List.length_pos_of_ne_nil hq
  rw [List.length_append, List.length_singleton]
  refine findSome_reverse_range _ _ q.length _ le_rfl ?_ (fun i h1 h2 => by omega)
  rw [if_pos ⟨hl, by simp⟩]; simp

theorem startsSep_iff (l : List Char) : startsSep l = true → ∃ t, l = ' ' :: '|' :: ' ' :: t := by
  intro h
  unfold startsSep at h
  split at h
  · exact ⟨_, rfl⟩
  · exact absurd h (by decide)

/-- The name of the product's parametrisation splits back into the factors' names as long as the second one contains no `|`. -/
theorem splitParam_pairParam (p q : Param) (hp : p ≠ []) (hq : q ≠ []) (hbar : '|' ∉ q) : splitParam (pairParam p q) = .ok (p, q) := by
  unfold splitParam pairParam
  simp only
  have hlp : 0 < p.length := List.length_pos_of_ne_nil hp
  set t := p ++ [' ', '|', ' '] ++ q ++ [']'] with ht
  have hdrop : t.drop p.length = ' ' :: '|' :: ' ' :: (q ++ [']']) := by
    rw [ht]; simp [List.append_assoc]
  rw [findSome_reverse_range _ t.length p.length (p, q)]
  · rw [ht]; simp
  · rw [if_pos ⟨hlp, by rw [hdrop]; rfl⟩]
    have h3 : t.drop (p.length + 3) = q ++ [']'] := by
      rw [← List.drop_drop, hdrop]; rfl
    rw [h3, matchTail_append q hq, ht]
    simp [List.append_assoc]
  · intro i h1 h2
    rw [if_neg]
    rintro ⟨-, hs⟩
    obtain ⟨u, hu⟩ := startsSep_iff _ hs
    have hget : t[i + 1]? = some '|' := by
      have : (t.drop i)[1]? = some '|' := by rw [hu]; rfl
      rwa [List.getElem?_drop] at this
    obtain ⟨d, rfl⟩ : ∃ d, i = p.length + (d + 1) := ⟨i - p.length - 1, by omega⟩
    have hget' : (t.drop p.length)[d + 2]? = some '|' := by rw [List.getElem?_drop]; rw [← hget]; congr 1
    rw [hdrop] at hget'
    have h4 : (' ' :: (q ++ [']']))[d]? = some '|' := hget'
    have h5 := List.mem_of_getElem? h4
    simp [hbar] at h5

example : splitParam (pairParam (pairParam ['i'] ['j']) ['k']) = .ok (pairParam ['i'] ['j'], ['k']) :=
  splitParam_pairParam _ _ (by decide) (by decide) (by decide)

/-! ### Group laws -/

namespace PyGroup

theorem element_ok {E : Type} {G : PyGroup E} {e x : E} : G.element e = .ok x ↔ G.Valid e ∧ G.changeParam G.param e = .ok x := by
  unfold element Valid
  rcases h : G.isElement G.param e with err | b
  · constructor
    · intro h; cases h
    · rintro ⟨h, -⟩; cases h
  · cases b
    · constructor
      · intro h; cases h
      · rintro ⟨h, -⟩; cases h
    · exact ⟨fun h => ⟨rfl, h⟩, fun h => h.2⟩

theorem matmul_ok {E : Type} {G : PyGroup E} {a b x : E} :
    G.matmul a b = .ok x ↔ ∃ c, G.combine G.param a b = .ok c ∧ G.Valid c ∧ G.changeParam G.param c = .ok x := by
  unfold matmul
  rcases h : G.combine G.param a b with err | c
  · constructor
    · intro h; cases h
    · rintro ⟨_, h, -⟩; cases h
  · constructor
    · intro h; exact ⟨c, rfl, element_ok.1 h⟩
    · rintro ⟨c', h, h'⟩
      obtain rfl : c = c' := by simpa using h
      exact element_ok.2 h'

theorem invert_ok {E : Type} {G : PyGroup E} {a x : E} :
    G.invert a = .ok x ↔ ∃ c, G.inverse G.param a = .ok c ∧ G.Valid c ∧ G.changeParam G.param c = .ok x := by
  unfold invert
  rcases h : G.inverse G.param a with err | c
  · constructor
    · intro h; cases h
    · rintro ⟨_, h, -⟩; cases h
  · constructor
    · intro h; exact ⟨c, rfl, element_ok.1 h⟩
    · rintro ⟨c', h, h'⟩
      obtain rfl : c = c' := by simpa using h
      exact element_ok.2 h'

/-- A group with plain operations satisfies the laws when its operations do. -/
theorem leaf_laws {E : Type} (p : Param) (isEl : E → Bool) (comb : E → E → E) (inv : E → E) (one : E) (els : Option (List E))
    (h1 : isEl one = true) (hm : ∀ a b, isEl a = true → isEl b = true → isEl (comb a b) = true)
    (hi : ∀ a, isEl a = true → isEl (inv a) = true)
    (ha : ∀ a b c, isEl a = true → isEl b = true → isEl c = true → comb (comb a b) c = comb a (comb b c))
    (ho : ∀ a, isEl a = true → comb one a = a ∧ comb a one = a)
    (hv : ∀ a, isEl a = true → comb a (inv a) = one ∧ comb (inv a) a = one)
    (he : ∀ L, els = some L → L.Nodup ∧ ∀ a, a ∈ L ↔ isEl a = true) : GroupLaws (leaf p isEl comb inv one els) := by
  have hV : ∀ a : E, (leaf p isEl comb inv one els).Valid a ↔ isEl a = true := by
    intro a; simp [Valid, leaf, pure, Except.pure, bind, Except.bind]
  have hC : ∀ a : E, (leaf p isEl comb inv one els).changeParam p a = .ok a := by
    intro a; simp [leaf, pure, Except.pure, bind, Except.bind]
  have hM : ∀ a b : E, isEl a = true → isEl b = true → (leaf p isEl comb inv one els).matmul a b = .ok (comb a b) := by
    intro a b h h'
    exact matmul_ok.2 ⟨comb a b, by simp [leaf, pure, Except.pure, bind, Except.bind], (hV _).2 (hm a b h h'), hC _⟩
  have hI : ∀ a : E, isEl a = true → (leaf p isEl comb inv one els).invert a = .ok (inv a) := by
    intro a h
    exact invert_ok.2 ⟨inv a, by simp [leaf, pure, Except.pure, bind, Except.bind], (hV _).2 (hi a h), hC _⟩
  refine ⟨fun a _ => hC a, ⟨one, rfl, (hV _).2 h1, fun a h => ?_⟩, fun a b h h' => ?_, fun a b c ab bc h h' h'' e e' => ?_, fun a h => ?_,
    ⟨els, rfl⟩, fun L hL => ?_⟩
  · rw [hV] at h
    rw [hM _ _ h1 h, hM _ _ h h1, (ho a h).1, (ho a h).2]; exact ⟨rfl, rfl⟩
  · rw [hV] at h h'
    exact ⟨_, hM _ _ h h', (hV _).2 (hm a b h h')⟩
  · rw [hV] at h h' h''
    rw [hM _ _ h h'] at e
    rw [hM _ _ h' h''] at e'
    obtain rfl : comb a b = ab := by simpa using e
    obtain rfl : comb b c = bc := by simpa using e'
    rw [hM _ _ (hm _ _ h h') h'', hM _ _ h (hm _ _ h' h''), ha a b c h h' h'']
  · rw [hV] at h
    refine ⟨_, hI a h, (hV _).2 (hi a h), ?_, ?_⟩
    · rw [hM _ _ h (hi a h), (hv a h).1]; rfl
    · rw [hM _ _ (hi a h) h, (hv a h).2]; rfl
  · have : els = some L := by simpa [leaf, pure, Except.pure] using hL
    obtain ⟨n, m⟩ := he L this
    exact ⟨n, fun a => (m a).trans (hV a).symm⟩

end PyGroup

theorem Cyclic.pyGroup_laws (N : ℕ) (hN : 0 < N) : GroupLaws (Cyclic.pyGroup N) := by
  obtain ⟨h1, hm, hi, ha, ho, hv, -, hn, hmem⟩ := Cyclic.C01_cyclic_group_laws N hN
  exact PyGroup.leaf_laws _ _ _ _ _ _ h1 hm hi (fun a b c _ _ _ => ha a b c) ho (fun a _ => hv a) (by rintro L ⟨rfl⟩; exact ⟨hn, hmem⟩)

theorem Dihedral.pyGroup_laws (N : ℕ) (hN : 0 < N) : GroupLaws (Dihedral.pyGroup N) := by
  obtain ⟨h1, hm, hi, ha, ho, hv, -, hn, hmem⟩ := Dihedral.C02_dihedral_group_laws N hN
  exact PyGroup.leaf_laws _ _ _ _ _ _ h1 hm hi ha ho hv (by rintro L ⟨rfl⟩; exact ⟨hn, hmem⟩)

theorem SO2.pyGroup_laws : GroupLaws SO2.pyGroup := by
  obtain ⟨hm, hi, h1, -, -, ha, ho, hv⟩ := SO2.C03_so2_laws
  refine PyGroup.leaf_laws _ _ _ _ _ _ (by simpa using h1) (fun a b _ _ => by simpa using hm a b) (fun a _ => by simpa using hi a)
    (fun a b c _ _ _ => ha a b c) (fun a h => ho a (by simpa using h)) (fun a _ => hv a) (by intro L h; cases h)

section product

variable {E₁ E₂ : Type} {G₁ : PyGroup E₁} {G₂ : PyGroup E₂}

theorem dpIsElement_eq (hs : splitParam (pairParam G₁.param G₂.param) = .ok (G₁.param, G₂.param)) (e : E₁ × E₂) :
    dpIsElement G₁ G₂ (pairParam G₁.param G₂.param) e = (do if (← G₁.isElement G₁.param e.1) then G₂.isElement G₂.param e.2 else pure false) := by
  unfold dpIsElement; rw [hs]; rfl

theorem dp_valid (hs : splitParam (pairParam G₁.param G₂.param) = .ok (G₁.param, G₂.param)) (e : E₁ × E₂) :
    (directProduct G₁ G₂).Valid e ↔ G₁.Valid e.1 ∧ G₂.Valid e.2 := by
  show dpIsElement G₁ G₂ (pairParam G₁.param G₂.param) e = .ok true ↔ _
  rw [dpIsElement_eq hs]
  unfold PyGroup.Valid
  rcases G₁.isElement G₁.param e.1 with err | b
  · constructor
    · intro h; cases h
    · rintro ⟨h, -⟩; cases h
  · cases b
    · constructor
      · intro h; cases h
      · rintro ⟨h, -⟩; cases h
    · exact ⟨fun h => ⟨rfl, h⟩, fun h => h.2⟩

theorem dp_change (hs : splitParam (pairParam G₁.param G₂.param) = .ok (G₁.param, G₂.param)) {e : E₁ × E₂} {a : E₁} {b : E₂}
    (h1 : G₁.changeParam G₁.param e.1 = .ok a) (h2 : G₂.changeParam G₂.param e.2 = .ok b) :
    dpChangeParam G₁ G₂ (pairParam G₁.param G₂.param) e = .ok (a, b) := by
  unfold dpChangeParam; rw [hs]
  show (do let x ← G₁.changeParam G₁.param e.1; let y ← G₂.changeParam G₂.param e.2; pure (x, y)) = _
  rw [h1, h2]; rfl

/-- Multiplication in the product is componentwise. -/
theorem dp_matmul (hs : splitParam (pairParam G₁.param G₂.param) = .ok (G₁.param, G₂.param)) {x y : E₁ × E₂} {a : E₁} {b : E₂}
    (h1 : G₁.matmul x.1 y.1 = .ok a) (h2 : G₂.matmul x.2 y.2 = .ok b) : (directProduct G₁ G₂).matmul x y = .ok (a, b) := by
  obtain ⟨c, hc, vc, cc⟩ := PyGroup.matmul_ok.1 h1
  obtain ⟨d, hd, vd, cd⟩ := PyGroup.matmul_ok.1 h2
  refine PyGroup.matmul_ok.2 ⟨(c, d), ?_, (dp_valid hs _).2 ⟨vc, vd⟩, dp_change hs cc cd⟩
  show (do let q ← splitParam (pairParam G₁.param G₂.param)
           let a ← G₁.combine q.1 x.1 y.1
           let b ← G₂.combine q.2 x.2 y.2
           pure (a, b)) = _
  rw [hs]
  show (do let a ← G₁.combine G₁.param x.1 y.1; let b ← G₂.combine G₂.param x.2 y.2; pure (a, b)) = _
  rw [hc, hd]; rfl

theorem dp_invert (hs : splitParam (pairParam G₁.param G₂.param) = .ok (G₁.param, G₂.param)) {x : E₁ × E₂} {a : E₁} {b : E₂}
    (h1 : G₁.invert x.1 = .ok a) (h2 : G₂.invert x.2 = .ok b) : (directProduct G₁ G₂).invert x = .ok (a, b) := by
  obtain ⟨c, hc, vc, cc⟩ := PyGroup.invert_ok.1 h1
  obtain ⟨d, hd, vd, cd⟩ := PyGroup.invert_ok.1 h2
  refine PyGroup.invert_ok.2 ⟨(c, d), ?_, (dp_valid hs _).2 ⟨vc, vd⟩, dp_change hs cc cd⟩
  show (do let q ← splitParam (pairParam G₁.param G₂.param)
           let a ← G₁.inverse q.1 x.1
           let b ← G₂.inverse q.2 x.2
           pure (a, b)) = _
  rw [hs]
  show (do let a ← G₁.inverse G₁.param x.1; let b ← G₂.inverse G₂.param x.2; pure (a, b)) = _
  rw [hc, hd]; rfl

/-- `pair_elements` returns the pair of values. -/
theorem dp_pair (hs : splitParam (pairParam G₁.param G₂.param) = .ok (G₁.param, G₂.param)) (L1 : GroupLaws G₁) (L2 : GroupLaws G₂)
    {a : E₁} {b : E₂} (ha : G₁.Valid a) (hb : G₂.Valid b) : pairElements G₁ G₂ (dpMk G₁ G₂) a b = .ok (a, b) := by
  unfold pairElements
  rw [L1.change a ha, L2.change b hb]
  show dpMk G₁ G₂ (a, b) = _
  have hv : dpIsElement G₁ G₂ (pairParam G₁.param G₂.param) (a, b) = .ok true := (dp_valid hs (a, b)).2 ⟨ha, hb⟩
  unfold dpMk
  rw [hv]
  exact dp_change hs (L1.change a ha) (L2.change b hb)

theorem mapM_ok {α : Type} (f : α → Except Err α) (L : List α) (h : ∀ x ∈ L, f x = .ok x) : L.mapM f = .ok L := by
  induction L with
  | nil => rfl
  | cons a L ih =>
    rw [List.mapM_cons, h a List.mem_cons_self, ih (fun x hx => h x (List.mem_cons_of_mem _ hx))]
    rfl

/-- **C04 (partial)** If both factors satisfy the group laws, so does their direct product, provided the name of the product's
parametrisation splits correctly into the names of the factors' ones (which holds when the second one contains no `|`, i.e. unless
the second factor is itself a direct product: see `C04_right_nested_violated`). -/
theorem C04_product_laws_partial (G₁ : PyGroup E₁) (G₂ : PyGroup E₂) (hs : splitParam (pairParam G₁.param G₂.param) = .ok (G₁.param, G₂.param))
    (L1 : GroupLaws G₁) (L2 : GroupLaws G₂) : GroupLaws (directProduct G₁ G₂) := by
  obtain ⟨e₁, he1, ve1, un1⟩ := L1.one
  obtain ⟨e₂, he2, ve2, un2⟩ := L2.one
  have hid : (directProduct G₁ G₂).identity = .ok (e₁, e₂) := by
    show (do let a ← G₁.identity; let b ← G₂.identity; pairElements G₁ G₂ (dpMk G₁ G₂) a b) = _
    rw [he1, he2]; exact dp_pair hs L1 L2 ve1 ve2
  have hall : ∀ l₁ l₂, G₁.elements = .ok (some l₁) → G₂.elements = .ok (some l₂) →
      (directProduct G₁ G₂).elements = .ok (some (l₁.flatMap fun a => l₂.map fun b => (a, b))) := by
    intro l₁ l₂ h1 h2
    show dpElements G₁ G₂ = _
    unfold dpElements
    rw [h1, h2]
    show (do let L ← (l₁.flatMap fun a => l₂.map fun b => (a, b)).mapM (fun x : E₁ × E₂ => pairElements G₁ G₂ (dpMk G₁ G₂) x.1 x.2); pure (some L)) = _
    rw [mapM_ok _ _ (fun x hx => ?_)]
    · rfl
    · obtain ⟨a, ha, b, hb, rfl⟩ : ∃ a ∈ l₁, ∃ b ∈ l₂, (a, b) = x := by simpa using hx
      exact dp_pair hs L1 L2 (((L1.elements_spec l₁ h1).2 a).1 ha) (((L2.elements_spec l₂ h2).2 b).1 hb)
  refine ⟨?_, ⟨(e₁, e₂), hid, (dp_valid hs _).2 ⟨ve1, ve2⟩, ?_⟩, ?_, ?_, ?_, ?_, ?_⟩
  · intro a ha
    obtain ⟨h1, h2⟩ := (dp_valid hs a).1 ha
    exact dp_change hs (L1.change _ h1) (L2.change _ h2)
  · intro a ha
    obtain ⟨h1, h2⟩ := (dp_valid hs a).1 ha
    exact ⟨dp_matmul hs (un1 _ h1).1 (un2 _ h2).1, dp_matmul hs (un1 _ h1).2 (un2 _ h2).2⟩
  · intro a b ha hb
    obtain ⟨h1, h2⟩ := (dp_valid hs a).1 ha
    obtain ⟨h1', h2'⟩ := (dp_valid hs b).1 hb
    obtain ⟨c, hc, vc⟩ := L1.mul _ _ h1 h1'
    obtain ⟨d, hd, vd⟩ := L2.mul _ _ h2 h2'
    exact ⟨(c, d), dp_matmul hs hc hd, (dp_valid hs _).2 ⟨vc, vd⟩⟩
  · intro a b c ab bc ha hb hc e e'
    obtain ⟨a1, a2⟩ := (dp_valid hs a).1 ha
    obtain ⟨b1, b2⟩ := (dp_valid hs b).1 hb
    obtain ⟨c1, c2⟩ := (dp_valid hs c).1 hc
    obtain ⟨x1, hx1, vx1⟩ := L1.mul _ _ a1 b1
    obtain ⟨x2, hx2, vx2⟩ := L2.mul _ _ a2 b2
    obtain ⟨y1, hy1, vy1⟩ := L1.mul _ _ b1 c1
    obtain ⟨y2, hy2, vy2⟩ := L2.mul _ _ b2 c2
    rw [dp_matmul hs hx1 hx2] at e
    rw [dp_matmul hs hy1 hy2] at e'
    obtain rfl : (x1, x2) = ab := by injection e
    obtain rfl : (y1, y2) = bc := by injection e'
    obtain ⟨z1, hz1, -⟩ := L1.mul _ _ vx1 c1
    obtain ⟨z2, hz2, -⟩ := L2.mul _ _ vx2 c2
    have as1 := L1.assoc _ _ _ _ _ a1 b1 c1 hx1 hy1
    have as2 := L2.assoc _ _ _ _ _ a2 b2 c2 hx2 hy2
    rw [dp_matmul hs hz1 hz2, dp_matmul (x := a) (y := (y1, y2)) hs (as1 ▸ hz1) (as2 ▸ hz2)]
  · intro a ha
    obtain ⟨h1, h2⟩ := (dp_valid hs a).1 ha
    obtain ⟨i1, hi1, vi1, r1, l1⟩ := L1.inv _ h1
    obtain ⟨i2, hi2, vi2, r2, l2⟩ := L2.inv _ h2
    rw [he1] at r1 l1
    rw [he2] at r2 l2
    exact ⟨(i1, i2), dp_invert hs hi1 hi2, (dp_valid hs _).2 ⟨vi1, vi2⟩, (dp_matmul hs r1 r2).trans hid.symm, (dp_matmul hs l1 l2).trans hid.symm⟩
  · obtain ⟨o1, h1⟩ := L1.elements_ok
    obtain ⟨o2, h2⟩ := L2.elements_ok
    rcases o1 with _ | l1
    · refine ⟨none, ?_⟩
      show dpElements G₁ G₂ = _
      unfold dpElements; rw [h1, h2]; rfl
    · rcases o2 with _ | l2
      · refine ⟨none, ?_⟩
        show dpElements G₁ G₂ = _
        unfold dpElements; rw [h1, h2]; rfl
      · exact ⟨_, hall l1 l2 h1 h2⟩
  · intro L hL
    obtain ⟨o1, h1⟩ := L1.elements_ok
    obtain ⟨o2, h2⟩ := L2.elements_ok
    rcases o1 with _ | l1
    · have : dpElements G₁ G₂ = .ok (some L) := hL
      unfold dpElements at this; rw [h1, h2] at this; cases this
    rcases o2 with _ | l2
    · have : dpElements G₁ G₂ = .ok (some L) := hL
      unfold dpElements at this; rw [h1, h2] at this; cases this
    rw [hall l1 l2 h1 h2] at hL
    obtain rfl : (l1.flatMap fun a => l2.map fun b => (a, b)) = L := by simpa using hL
    obtain ⟨n1, m1⟩ := L1.elements_spec l1 h1
    obtain ⟨n2, m2⟩ := L2.elements_spec l2 h2
    refine ⟨?_, fun a => ?_⟩
    · rw [List.nodup_flatMap]
      refine ⟨fun a _ => n2.map (fun b b' h => by simpa using h), ?_⟩
      refine n1.imp (fun {a b} hab => ?_)
      intro x hx hx'
      obtain ⟨c, -, rfl⟩ := List.mem_map.1 hx
      obtain ⟨c', -, h⟩ := List.mem_map.1 hx'
      exact hab (by simpa using (congrArg Prod.fst h).symm)
    · rw [dp_valid hs, ← m1, ← m2]
      obtain ⟨x, y⟩ := a
      simp

/-- **C04** The inclusions of the factors are injective homomorphisms and `split_element` projects back. -/
theorem C04_inclusions_partial (G₁ : PyGroup E₁) (G₂ : PyGroup E₂) (hs : splitParam (pairParam G₁.param G₂.param) = .ok (G₁.param, G₂.param))
    (L1 : GroupLaws G₁) (L2 : GroupLaws G₂) :
    (∀ a, G₁.Valid a → ∃ x e, G₂.identity = .ok e ∧ inclusion1 G₁ G₂ a = .ok x ∧ (directProduct G₁ G₂).Valid x ∧ splitElement G₁ G₂ x = .ok (a, e)) ∧
    (∀ b, G₂.Valid b → ∃ x e, G₁.identity = .ok e ∧ inclusion2 G₁ G₂ b = .ok x ∧ (directProduct G₁ G₂).Valid x ∧ splitElement G₁ G₂ x = .ok (e, b)) ∧
    (∀ a a' aa x x', G₁.Valid a → G₁.Valid a' → G₁.matmul a a' = .ok aa → inclusion1 G₁ G₂ a = .ok x → inclusion1 G₁ G₂ a' = .ok x' →
      (directProduct G₁ G₂).matmul x x' = inclusion1 G₁ G₂ aa) ∧
    (∀ b b' bb x x', G₂.Valid b → G₂.Valid b' → G₂.matmul b b' = .ok bb → inclusion2 G₁ G₂ b = .ok x → inclusion2 G₁ G₂ b' = .ok x' →
      (directProduct G₁ G₂).matmul x x' = inclusion2 G₁ G₂ bb) ∧
    (∀ x y xy, (directProduct G₁ G₂).Valid x → (directProduct G₁ G₂).Valid y → (directProduct G₁ G₂).matmul x y = .ok xy →
      ∃ a b, splitElement G₁ G₂ xy = .ok (a, b) ∧ G₁.matmul x.1 y.1 = .ok a ∧ G₂.matmul x.2 y.2 = .ok b) := by
  obtain ⟨e₁, he1, ve1, un1⟩ := L1.one
  obtain ⟨e₂, he2, ve2, un2⟩ := L2.one
  have hsplit : ∀ {a : E₁} {b : E₂}, G₁.Valid a → G₂.Valid b → splitElement G₁ G₂ (a, b) = .ok (a, b) := by
    intro a b ha hb
    unfold splitElement
    rw [dp_change hs (L1.change a ha) (L2.change b hb)]
    show (do let a ← G₁.element a; let b ← G₂.element b; pure (a, b)) = _
    rw [PyGroup.element_ok.2 ⟨ha, L1.change a ha⟩, PyGroup.element_ok.2 ⟨hb, L2.change b hb⟩]; rfl
  have hi1 : ∀ {a}, G₁.Valid a → inclusion1 G₁ G₂ a = .ok (a, e₂) := by
    intro a ha; unfold inclusion1; rw [he2]; exact dp_pair hs L1 L2 ha ve2
  have hi2 : ∀ {b}, G₂.Valid b → inclusion2 G₁ G₂ b = .ok (e₁, b) := by
    intro a ha; unfold inclusion2; rw [he1]; exact dp_pair hs L1 L2 ve1 ha
  refine ⟨fun a ha => ⟨(a, e₂), e₂, he2, hi1 ha, (dp_valid hs _).2 ⟨ha, ve2⟩, hsplit ha ve2⟩,
    fun b hb => ⟨(e₁, b), e₁, he1, hi2 hb, (dp_valid hs _).2 ⟨ve1, hb⟩, hsplit ve1 hb⟩, ?_, ?_, ?_⟩
  · intro a a' aa x x' ha ha' haa hx hx'
    rw [hi1 ha] at hx
    rw [hi1 ha'] at hx'
    obtain rfl : (a, e₂) = x := by simpa using hx
    obtain rfl : (a', e₂) = x' := by simpa using hx'
    obtain ⟨c, hc, vc⟩ := L1.mul _ _ ha ha'
    obtain rfl : c = aa := by rw [hc] at haa; simpa using haa
    rw [hi1 vc]
    exact dp_matmul hs haa (un2 _ ve2).1
  · intro a a' aa x x' ha ha' haa hx hx'
    rw [hi2 ha] at hx
    rw [hi2 ha'] at hx'
    obtain rfl : (e₁, a) = x := by simpa using hx
    obtain rfl : (e₁, a') = x' := by simpa using hx'
    obtain ⟨c, hc, vc⟩ := L2.mul _ _ ha ha'
    obtain rfl : c = aa := by rw [hc] at haa; simpa using haa
    rw [hi2 vc]
    exact dp_matmul hs (un1 _ ve1).1 haa
  · intro x y xy hx hy hxy
    obtain ⟨h1, h2⟩ := (dp_valid hs x).1 hx
    obtain ⟨h1', h2'⟩ := (dp_valid hs y).1 hy
    obtain ⟨c, hc, vc⟩ := L1.mul _ _ h1 h1'
    obtain ⟨d, hd, vd⟩ := L2.mul _ _ h2 h2'
    rw [dp_matmul hs hc hd] at hxy
    obtain rfl : (c, d) = xy := by injection hxy
    exact ⟨c, d, hsplit vc vd, hc, hd⟩

/-- If the name is split wrongly, the identity of the product cannot be built. -/
theorem dp_identity_error {a : E₁} {b : E₂} {p q : Param} {err : Err} (hs : splitParam (pairParam G₁.param G₂.param) = .ok (p, q))
    (h1 : G₁.identity = .ok a) (h2 : G₂.identity = .ok b) (c1 : G₁.changeParam G₁.param a = .ok a) (c2 : G₂.changeParam G₂.param b = .ok b)
    (hbad : G₁.isElement p a = .error err) : (directProduct G₁ G₂).identity = .error err := by
  show (do let a ← G₁.identity; let b ← G₂.identity; pairElements G₁ G₂ (dpMk G₁ G₂) a b) = _
  rw [h1, h2]
  show pairElements G₁ G₂ (dpMk G₁ G₂) a b = _
  unfold pairElements
  rw [c1, c2]
  show dpMk G₁ G₂ (a, b) = _
  have : dpIsElement G₁ G₂ (pairParam G₁.param G₂.param) (a, b) = .error err := by
    unfold dpIsElement; rw [hs]
    show (do if (← G₁.isElement p a) then G₂.isElement q b else pure false) = _
    rw [hbad]; rfl
  unfold dpMk
  rw [this]; rfl

end product

/-- Instance: products of cyclic, dihedral, SO(2) groups (`'|'` does not occur in their parametrisation names), and products
whose *first* factor is itself such a product. -/
theorem C04_cyclic_dihedral (N M : ℕ) (hN : 0 < N) (hM : 0 < M) : GroupLaws (directProduct (Cyclic.pyGroup N) (Dihedral.pyGroup M)) :=
  C04_product_laws_partial _ _ (splitParam_pairParam _ _ (by simp [Cyclic.pyGroup, PyGroup.leaf]) (by simp [Cyclic.pyGroup, Dihedral.pyGroup, PyGroup.leaf]) (by simp [Cyclic.pyGroup, Dihedral.pyGroup, PyGroup.leaf])) (Cyclic.pyGroup_laws N hN) (Dihedral.pyGroup_laws M hM)

theorem C04_left_nested (N M K : ℕ) (hN : 0 < N) (hM : 0 < M) (hK : 0 < K) :
    GroupLaws (directProduct (directProduct (Cyclic.pyGroup N) (Cyclic.pyGroup M)) (Cyclic.pyGroup K)) :=
  C04_product_laws_partial _ _ (splitParam_pairParam _ _ (by simp [directProduct, pairParam]) (by simp [Cyclic.pyGroup, PyGroup.leaf]) (by simp [Cyclic.pyGroup, PyGroup.leaf]))
    (C04_product_laws_partial _ _ (splitParam_pairParam _ _ (by simp [Cyclic.pyGroup, PyGroup.leaf]) (by simp [Cyclic.pyGroup, Dihedral.pyGroup, PyGroup.leaf]) (by simp [Cyclic.pyGroup, Dihedral.pyGroup, PyGroup.leaf])) (Cyclic.pyGroup_laws N hN) (Cyclic.pyGroup_laws M hM))
    (Cyclic.pyGroup_laws K hK)

/-- **C04** Every method of a product of two groups with one parametrisation each accepts exactly the names which split into the names of the factors, and acts on the two components by the operations of the factors. -/
theorem C04_param_names {E₁ E₂ : Type} (p q : Param) (v₁ : E₁ → Bool) (m₁ : E₁ → E₁ → E₁) (i₁ : E₁ → E₁) (o₁ : E₁) (l₁ : Option (List E₁)) (v₂ : E₂ → Bool) (m₂ : E₂ → E₂ → E₂) (i₂ : E₂ → E₂) (o₂ : E₂) (l₂ : Option (List E₂))
    (s : Param) (e f x : E₁ × E₂) :
    ((directProduct (.leaf p v₁ m₁ i₁ o₁ l₁) (.leaf q v₂ m₂ i₂ o₂ l₂)).changeParam s e = .ok x ↔ splitParam s = .ok (p, q) ∧ x = e) ∧
    ((directProduct (.leaf p v₁ m₁ i₁ o₁ l₁) (.leaf q v₂ m₂ i₂ o₂ l₂)).combine s e f = .ok x ↔ splitParam s = .ok (p, q) ∧ x = (m₁ e.1 f.1, m₂ e.2 f.2)) ∧
    ((directProduct (.leaf p v₁ m₁ i₁ o₁ l₁) (.leaf q v₂ m₂ i₂ o₂ l₂)).inverse s e = .ok x ↔ splitParam s = .ok (p, q) ∧ x = (i₁ e.1, i₂ e.2)) ∧
    ((directProduct (.leaf p v₁ m₁ i₁ o₁ l₁) (.leaf q v₂ m₂ i₂ o₂ l₂)).isElement s e = .ok true ↔ splitParam s = .ok (p, q) ∧ v₁ e.1 = true ∧ v₂ e.2 = true) := by
  simp only [directProduct, dpChangeParam, dpIsElement, PyGroup.leaf]
  cases h : splitParam s with
  | error err => simp [bind, Except.bind]
  | ok r =>
    obtain ⟨a, b⟩ := r
    by_cases ha : a = p <;> by_cases hb : b = q <;> cases h1 : v₁ e.1 <;> simp [bind, Except.bind, pure, Except.pure, pyAssert, ha, hb, h1] <;> first | exact ⟨eq_comm, eq_comm, eq_comm⟩ | exact ⟨⟨Eq.symm, Eq.symm⟩, ⟨Eq.symm, Eq.symm⟩, Eq.symm, Eq.symm⟩

example : (directProduct (Cyclic.pyGroup 2) (Cyclic.pyGroup 3)).changeParam (pairParam ['i', 'n', 't'] ['r', 'a', 'd', 'i', 'a', 'n', 's']) (1, 1) ≠ .ok (1, 1) :=
  fun h => absurd ((C04_param_names _ _ _ _ _ _ _ _ _ _ _ _ _ _ (0, 0) _).1.1 h).1 (by decide +kernel)

/-- **C04 is violated** when the second factor is itself a direct product: the greedy regular expression splits
`[int | [int | int]]` into `int | [int` and `int]`, so that building the identity of `direct_product(C_N, direct_product(C_M, C_K))`
raises `AssertionError`, for all `N, M, K`. -/
theorem C04_right_nested_violated (N M K : ℕ) (hN : 0 < N) (hM : 0 < M) (hK : 0 < K) :
    (directProduct (Cyclic.pyGroup N) (directProduct (Cyclic.pyGroup M) (Cyclic.pyGroup K))).identity = .error .assertion ∧
    ¬ GroupLaws (directProduct (Cyclic.pyGroup N) (directProduct (Cyclic.pyGroup M) (Cyclic.pyGroup K))) := by
  have key : (directProduct (Cyclic.pyGroup N) (directProduct (Cyclic.pyGroup M) (Cyclic.pyGroup K))).identity = .error .assertion := by
    have L2 : GroupLaws (directProduct (Cyclic.pyGroup M) (Cyclic.pyGroup K)) :=
      C04_product_laws_partial _ _ (splitParam_pairParam _ _ (by simp [Cyclic.pyGroup, PyGroup.leaf]) (by simp [Cyclic.pyGroup, Dihedral.pyGroup, PyGroup.leaf]) (by simp [Cyclic.pyGroup, Dihedral.pyGroup, PyGroup.leaf])) (Cyclic.pyGroup_laws M hM) (Cyclic.pyGroup_laws K hK)
    obtain ⟨e, he, ve, -⟩ := L2.one
    have hsp : splitParam (pairParam (Cyclic.pyGroup N).param (directProduct (Cyclic.pyGroup M) (Cyclic.pyGroup K)).param) =
        .ok (['i', 'n', 't', ' ', '|', ' ', '[', 'i', 'n', 't'], ['i', 'n', 't', ']']) := by
      show splitParam (pairParam ['i', 'n', 't'] (pairParam ['i', 'n', 't'] ['i', 'n', 't'])) = _
      decide +kernel
    refine dp_identity_error (a := (0 : ℤ)) hsp rfl he ((Cyclic.pyGroup_laws N hN).change 0 ?_) (L2.change e ve) ?_
    · simp [PyGroup.Valid, Cyclic.pyGroup, PyGroup.leaf, Cyclic.isElement, hN, bind, Except.bind, pure, Except.pure]
    · simp [Cyclic.pyGroup, PyGroup.leaf, bind, Except.bind]
  exact ⟨key, fun L => by obtain ⟨e, he, -⟩ := L.one; rw [key] at he; cases he⟩

example : (directProduct (Cyclic.pyGroup 2) (directProduct (Cyclic.pyGroup 2) (Cyclic.pyGroup 2))).identity = .error .assertion :=
  (C04_right_nested_violated 2 2 2 (by decide) (by decide) (by decide)).1

/-! ### Subgroups of a product -/

/-- `inclusion`/`restrict` (directproduct.py L711-750) realise `H₁ × H₂` as a subgroup of `G₁ × G₂` when they are given the maps of
the two factors. -/
theorem dp_subgroup {A B C D : Type} {vA : A → Bool} {vB : B → Bool} {vC : C → Bool} {vD : D → Bool} {mA : A → A → A} {mB : B → B → B}
    {mC : C → C → C} {mD : D → D → D} {p₁ : C → Except Err A} {p₂ : D → Except Err B} {c₁ : A → Except Err (Option C)}
    {c₂ : B → Except Err (Option D)} {mkG : A × B → Except Err (A × B)} {mkH : C × D → Except Err (C × D)}
    (S₁ : SubgroupMaps vA mA vC mC p₁ c₁) (S₂ : SubgroupMaps vB mB vD mD p₂ c₂)
    (hG : ∀ a b, vA a = true → vB b = true → mkG (a, b) = .ok (a, b)) (hH : ∀ a b, vC a = true → vD b = true → mkH (a, b) = .ok (a, b))
    (hmC : ∀ a b, vC a = true → vC b = true → vC (mC a b) = true) (hmD : ∀ a b, vD a = true → vD b = true → vD (mD a b) = true)
    (hmA : ∀ a b, vA a = true → vA b = true → vA (mA a b) = true) (hmB : ∀ a b, vB a = true → vB b = true → vB (mB a b) = true) :
    SubgroupMaps (fun x : A × B => vA x.1 && vB x.2) (fun x y => (mA x.1 y.1, mB x.2 y.2))
      (fun x : C × D => vC x.1 && vD x.2) (fun x y => (mC x.1 y.1, mD x.2 y.2))
      (fun e => do let a ← p₁ e.1; let b ← p₂ e.2; mkG (a, b)) (dpRestrict mkH c₁ c₂) := by
  have hp : ∀ h : C × D, vC h.1 = true → vD h.2 = true → ∃ a b, p₁ h.1 = .ok a ∧ p₂ h.2 = .ok b ∧ vA a = true ∧ vB b = true ∧
      (do let a ← p₁ h.1; let b ← p₂ h.2; mkG (a, b)) = Except.ok (a, b) := by
    intro h h1 h2
    obtain ⟨a, ha, va⟩ := S₁.parent_ok _ h1
    obtain ⟨b, hb, vb⟩ := S₂.parent_ok _ h2
    exact ⟨a, b, ha, hb, va, vb, by rw [ha, hb]; exact hG a b va vb⟩
  have hc : ∀ (x : C) (y : D) (g : A × B), vC x = true → vD y = true → c₁ g.1 = .ok (some x) → c₂ g.2 = .ok (some y) →
      dpRestrict mkH c₁ c₂ g = .ok (some (x, y)) := by
    intro x y g hx hy h1 h2
    unfold dpRestrict
    rw [h1, h2]
    show (match mkH (x, y) with | .ok h => Except.ok (some h) | .error .value => .ok none | .error err => .error err) = _
    rw [hH x y hx hy]
  refine ⟨?_, ?_, ?_, ?_, ?_⟩
  · intro h hv
    simp only [Bool.and_eq_true] at hv
    obtain ⟨a, b, -, -, va, vb, e⟩ := hp h hv.1 hv.2
    exact ⟨(a, b), e, by simp [va, vb]⟩
  · intro h h' g g' hv hv' e e'
    simp only [Bool.and_eq_true] at hv hv'
    obtain ⟨a, b, ha, hb, va, vb, e1⟩ := hp h hv.1 hv.2
    obtain ⟨a', b', ha', hb', va', vb', e1'⟩ := hp h' hv'.1 hv'.2
    rw [e1] at e
    rw [e1'] at e'
    obtain rfl : (a, b) = g := by injection e
    obtain rfl : (a', b') = g' := by injection e'
    simp only
    rw [S₁.parent_mul _ _ _ _ hv.1 hv'.1 ha ha', S₂.parent_mul _ _ _ _ hv.2 hv'.2 hb hb']
    exact hG _ _ (hmA _ _ va va') (hmB _ _ vb vb')
  · intro h h' hv hv' e
    simp only [Bool.and_eq_true] at hv hv'
    obtain ⟨a, b, ha, hb, va, vb, e1⟩ := hp h hv.1 hv.2
    obtain ⟨a', b', ha', hb', va', vb', e1'⟩ := hp h' hv'.1 hv'.2
    rw [e1, e1'] at e
    obtain ⟨rfl, rfl⟩ : a = a' ∧ b = b' := by simpa using e
    exact Prod.ext (S₁.parent_inj _ _ hv.1 hv'.1 (ha.trans ha'.symm)) (S₂.parent_inj _ _ hv.2 hv'.2 (hb.trans hb'.symm))
  · intro h g hv e
    simp only [Bool.and_eq_true] at hv
    obtain ⟨a, b, ha, hb, va, vb, e1⟩ := hp h hv.1 hv.2
    rw [e1] at e
    obtain rfl : (a, b) = g := by injection e
    exact hc h.1 h.2 (a, b) hv.1 hv.2 (S₁.child_parent _ _ hv.1 ha) (S₂.child_parent _ _ hv.2 hb)
  · intro g hv hno
    simp only [Bool.and_eq_true] at hv
    by_cases h1 : ∃ x, vC x = true ∧ p₁ x = .ok g.1
    · obtain ⟨x, vx, hx⟩ := h1
      have h2 : ∀ y, vD y = true → p₂ y ≠ .ok g.2 := by
        intro y vy hy
        refine hno (x, y) (by simp [vx, vy]) ?_
        simp only
        rw [hx, hy]; exact hG _ _ hv.1 hv.2
      unfold dpRestrict
      rw [S₁.child_parent _ _ vx hx, S₂.child_none _ hv.2 h2]; rfl
    · have h1' : c₁ g.1 = .ok none := S₁.child_none _ hv.1 (fun x vx hx => h1 ⟨x, vx, hx⟩)
      have h2 : ∃ o, c₂ g.2 = .ok o := by
        by_cases h : ∃ y, vD y = true ∧ p₂ y = .ok g.2
        · obtain ⟨y, vy, hy⟩ := h; exact ⟨_, S₂.child_parent _ _ vy hy⟩
        · exact ⟨none, S₂.child_none _ hv.2 (fun y vy hy => h ⟨y, vy, hy⟩)⟩
      obtain ⟨o, ho⟩ := h2
      unfold dpRestrict
      rw [h1', ho]
      cases o <;> rfl

namespace Cyclic

theorem dpMk_ok (N M : ℕ) (hN : 0 < N) (hM : 0 < M) (a b : ℤ) (ha : isElement N a = true) (hb : isElement M b = true) :
    dpMk (pyGroup N) (pyGroup M) (a, b) = .ok (a, b) := by
  have hs : splitParam (pairParam (pyGroup N).param (pyGroup M).param) = .ok ((pyGroup N).param, (pyGroup M).param) :=
    splitParam_pairParam _ _ (by simp [pyGroup, PyGroup.leaf]) (by simp [pyGroup, PyGroup.leaf]) (by simp [pyGroup, PyGroup.leaf])
  have hv : ∀ (K : ℕ) (x : ℤ), isElement K x = true → (pyGroup K).Valid x := by
    intro K x hx; simp [PyGroup.Valid, pyGroup, PyGroup.leaf, hx, bind, Except.bind, pure, Except.pure]
  have := dp_pair hs (pyGroup_laws N hN) (pyGroup_laws M hM) (hv N a ha) (hv M b hb)
  unfold pairElements at this
  rwa [(pyGroup_laws N hN).change a (hv N a ha), (pyGroup_laws M hM).change b (hv M b hb)] at this

/-- **C04 (partial)** The subgroup maps of a product of cyclic groups are correct when both factors and both subgroup ids coincide
(`child2` is then the same as `child1`). -/
theorem C04_subgroup_partial (N M : ℕ) (hN : 0 < N) (hid : subgroupIdOk N M = true) :
    SubgroupMaps (fun x : ℤ × ℤ => isElement N x.1 && isElement N x.2) (fun x y => (combine N x.1 y.1, combine N x.2 y.2))
      (fun x : ℤ × ℤ => isElement M x.1 && isElement M x.2) (fun x y => (combine M x.1 y.1, combine M x.2 y.2))
      (dpParent N N M M) (dpChild N N M M) := by
  have hM : 0 < M := by simp [subgroupIdOk] at hid; omega
  have S := C05_cyclic_subgroup N M hN hid
  have hch : childMapOf N N M = childMap N M := by funext i; simp [childMapOf]
  have := dp_subgroup (mkG := dpMk (pyGroup N) (pyGroup N)) (mkH := dpMk (pyGroup M) (pyGroup M)) S S (fun a b => dpMk_ok N N hN hN a b)
    (fun a b => dpMk_ok M M hM hM a b) (C01_cyclic_group_laws M hM).2.1 (C01_cyclic_group_laws M hM).2.1
    (C01_cyclic_group_laws N hN).2.1 (C01_cyclic_group_laws N hN).2.1
  unfold dpChild dpParent
  rw [hch]
  exact this

/-- What the property requires, and what the code would satisfy if `restrict` were given `child1, child2`. -/
theorem C04_subgroup_intended (N₁ N₂ M₁ M₂ : ℕ) (h1 : 0 < N₁) (h2 : 0 < N₂) (hid1 : subgroupIdOk N₁ M₁ = true) (hid2 : subgroupIdOk N₂ M₂ = true) :
    SubgroupMaps (fun x : ℤ × ℤ => isElement N₁ x.1 && isElement N₂ x.2) (fun x y => (combine N₁ x.1 y.1, combine N₂ x.2 y.2))
      (fun x : ℤ × ℤ => isElement M₁ x.1 && isElement M₂ x.2) (fun x y => (combine M₁ x.1 y.1, combine M₂ x.2 y.2))
      (dpParent N₁ N₂ M₁ M₂) (dpRestrict (dpMk (pyGroup M₁) (pyGroup M₂)) (childMap N₁ M₁) (childMap N₂ M₂)) := by
  have hM1 : 0 < M₁ := by simp [subgroupIdOk] at hid1; omega
  have hM2 : 0 < M₂ := by simp [subgroupIdOk] at hid2; omega
  exact dp_subgroup (mkG := dpMk (pyGroup N₁) (pyGroup N₂)) (mkH := dpMk (pyGroup M₁) (pyGroup M₂)) (C05_cyclic_subgroup N₁ M₁ h1 hid1)
    (C05_cyclic_subgroup N₂ M₂ h2 hid2) (fun a b => dpMk_ok N₁ N₂ h1 h2 a b)
    (fun a b => dpMk_ok M₁ M₂ hM1 hM2 a b) (C01_cyclic_group_laws M₁ hM1).2.1 (C01_cyclic_group_laws M₂ hM2).2.1
    (C01_cyclic_group_laws N₁ h1).2.1 (C01_cyclic_group_laws N₂ h2).2.1

/-- **C04 is violated** for subgroups of products of different groups: the child map raises `AssertionError` on every element. -/
theorem C04_subgroup_violated (N₁ N₂ M₁ M₂ : ℕ) (h : N₁ ≠ N₂) (e : ℤ × ℤ) : dpChild N₁ N₂ M₁ M₂ e = .error .assertion := by
  unfold dpChild dpRestrict childMapOf
  rw [if_neg (Ne.symm h)]; rfl

/-- **C04 is violated** for `C_4 × C_4` and the subgroup `C_4 × C_2`: `(1, 0)` is an element of the subgroup but the child map returns
`None`. -/
theorem C04_subgroup_violated' : dpParent 4 4 4 2 (1, 0) = .ok (1, 0) ∧ dpChild 4 4 4 2 (1, 0) = .ok none := by
  refine ⟨?_, rfl⟩
  unfold dpParent
  exact dpMk_ok 4 4 (by decide) (by decide) 1 0 (by decide) (by decide)

end Cyclic

end Escnn
