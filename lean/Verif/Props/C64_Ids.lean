import Verif.Model.SubgroupId
import Verif.Props.C04_DirectProduct

/-!
# C64: subgroup ids and irrep ids of direct products round-trip
-/

namespace Escnn

namespace PyId

variable {V Gp : Type}

mutual
/-- An id without values of group elements on their own, without empty tuples, without tuples starting with one of the strings `reserved`, whose group elements are accepted by `el`. -/
def Plain (reserved : List (List Char)) (el : Gp → V → Prop) : PyId V Gp → Prop
  | .raw _ => False
  | .el g v => el g v
  | .tup l => PlainHead reserved l ∧ PlainList reserved el l
  | _ => True
/-- All entries are plain. -/
def PlainList (reserved : List (List Char)) (el : Gp → V → Prop) : List (PyId V Gp) → Prop
  | [] => True
  | x :: l => Plain reserved el x ∧ PlainList reserved el l
/-- The first entry exists and is not one of the strings `reserved`. -/
def PlainHead (reserved : List (List Char)) : List (PyId V Gp) → Prop
  | [] => False
  | .str s :: _ => s ∉ reserved
  | _ => True
end

mutual
/-- An id without group elements: it can be pickled. -/
def NoElements : PyId V Gp → Prop
  | .el _ _ => False
  | .tup l => NoElementsList l
  | _ => True
/-- All entries are free of group elements. -/
def NoElementsList : List (PyId V Gp) → Prop
  | [] => True
  | x :: l => NoElements x ∧ NoElementsList l
end

section base

variable {Γ : PyGroups V Gp} {self : Gp}

theorem encode_tup (Γ : PyGroups V Gp) (x : PyId V Gp) (l : List (PyId V Gp)) : encode Γ (.tup (x :: l)) = .tup (encode Γ x :: encodeList Γ l) := by
  rw [encode, encodeList]

/-- Decoding a tuple whose first entry is not a string. -/
theorem decode_cons {x : PyId V Gp} (hx : ∀ s, x ≠ .str s) (l : List (PyId V Gp)) : decode Γ self (.tup (x :: l)) = (do
    let y ← decode Γ self x
    .ok (.tup (y :: (← decodeList Γ self l)))) := by
  cases x <;> first | exact absurd rfl (hx _) | simp only [decode]

mutual
theorem decode_encode : ∀ {i : PyId V Gp}, Plain ["GROUPELEMENT".toList] (fun g v => g = self ∧ Γ.element g v (Γ.param g) = .ok v) i →
    decode Γ self (encode Γ i) = .ok i ∧ NoElements (encode Γ i)
  | .none, _ => ⟨rfl, trivial⟩
  | .bool _, _ => ⟨rfl, trivial⟩
  | .int _, _ => ⟨rfl, trivial⟩
  | .float _, _ => ⟨rfl, trivial⟩
  | .str _, _ => ⟨rfl, trivial⟩
  | .raw _, h => absurd h (by simp [Plain])
  | .el g v, h => by
    simp only [Plain] at h
    obtain ⟨rfl, h⟩ := h
    refine ⟨?_, by simp [encode, NoElements, NoElementsList]⟩
    simp only [encode, decode, if_true, elementOf, h, bind, Except.bind]
  | .tup [], h => absurd h (by simp [Plain, PlainHead])
  | .tup (x :: l), h => by
    simp only [Plain, PlainList] at h
    obtain ⟨h1, h2, h3⟩ := h
    obtain ⟨e1, e2⟩ := decode_encode h2
    obtain ⟨f1, f2⟩ := decodeList_encodeList h3
    rw [encode_tup]
    refine ⟨?_, by simp only [NoElements, NoElementsList]; exact ⟨e2, f2⟩⟩
    by_cases hs : ∃ s, x = .str s
    · obtain ⟨s, rfl⟩ := hs
      simp only [PlainHead, List.mem_singleton] at h1
      simp only [encode, decode, if_neg h1, f1, bind, Except.bind]
    · push Not at hs
      have : ∀ s, encode Γ x ≠ .str s := by
        intro s he
        cases x <;> simp [encode] at he
        exact hs _ rfl
      rw [decode_cons this, e1, f1]
      rfl
theorem decodeList_encodeList : ∀ {l : List (PyId V Gp)}, PlainList ["GROUPELEMENT".toList] (fun g v => g = self ∧ Γ.element g v (Γ.param g) = .ok v) l →
    decodeList Γ self (encodeList Γ l) = .ok l ∧ NoElementsList (encodeList Γ l)
  | [], _ => ⟨by simp only [encodeList, decodeList], by simp only [encodeList, NoElementsList]⟩
  | x :: l, h => by
    simp only [PlainList] at h
    obtain ⟨e1, e2⟩ := decode_encode h.1
    obtain ⟨f1, f2⟩ := decodeList_encodeList h.2
    refine ⟨?_, by simp only [encodeList, NoElementsList]; exact ⟨e2, f2⟩⟩
    simp only [encodeList, decodeList, e1, f1, bind, Except.bind]
end

end base

/-- **C64** The subgroup ids of a group (not a direct product) round-trip: encoding replaces the elements of the group, decoding gives back the id.  Ids have no empty tuples, and no tuple
starts with the string `'GROUPELEMENT'`. -/
theorem C64_subgroup_id (Γ : PyGroups V Gp) (self : Gp) (i : PyId V Gp) (h : Plain ["GROUPELEMENT".toList] (fun g v => g = self ∧ Γ.element g v (Γ.param g) = .ok v) i) :
    NoElements (encode Γ i) ∧ decode Γ self (encode Γ i) = .ok i := (decode_encode h).symm

section product

variable [DecidableEq Gp] {Γ : PyGroups V Gp} {self g₁ g₂ : Gp}

/-- Decoding a tuple whose first entry is not a string. -/
theorem decodeDP_cons {x : PyId V Gp} (hx : ∀ s, x ≠ .str s) (l : List (PyId V Gp)) : decodeDP Γ self g₁ g₂ (.tup (x :: l)) = (do
    let y ← decodeDP Γ self g₁ g₂ x
    .ok (.tup (y :: (← decodeDPList Γ self g₁ g₂ l)))) := by
  cases x <;> first | exact absurd rfl (hx _) | simp only [decodeDP]

mutual
theorem decodeDP_encodeDP : ∀ {i : PyId V Gp}, Plain ["G".toList, "G1".toList, "G2".toList] (fun g v => (g = self ∨ g = g₁ ∨ g = g₂) ∧ Γ.element g v (Γ.param g) = .ok v) i →
    ∃ e, encodeDP Γ self g₁ g₂ i = .ok e ∧ NoElements e ∧ decodeDP Γ self g₁ g₂ e = .ok i
  | .none, _ => ⟨_, rfl, trivial, rfl⟩
  | .bool _, _ => ⟨_, rfl, trivial, rfl⟩
  | .int _, _ => ⟨_, rfl, trivial, rfl⟩
  | .float _, _ => ⟨_, rfl, trivial, rfl⟩
  | .str _, _ => ⟨_, rfl, trivial, rfl⟩
  | .raw _, h => absurd h (by simp [Plain])
  | .el g v, h => by
    simp only [Plain] at h
    obtain ⟨h, hv⟩ := h
    by_cases h1 : g = self
    · subst h1
      exact ⟨_, if_pos rfl, by simp [NoElements, NoElementsList], by simp only [decodeDP, if_true, elementOf, hv, bind, Except.bind]⟩
    by_cases h2 : g = g₁
    · subst h2
      refine ⟨_, (if_neg h1).trans (if_pos rfl), by simp [NoElements, NoElementsList], ?_⟩
      rw [decodeDP, if_neg (by decide), if_pos rfl]
      simp only [elementOf, hv, bind, Except.bind]
    · obtain rfl : g = g₂ := (h.resolve_left h1).resolve_left h2
      refine ⟨_, (if_neg h1).trans ((if_neg h2).trans (if_pos rfl)), by simp [NoElements, NoElementsList], ?_⟩
      rw [decodeDP, if_neg (by decide), if_neg (by decide), if_pos rfl]
      simp only [elementOf, hv, bind, Except.bind]
  | .tup [], h => absurd h (by simp [Plain, PlainHead])
  | .tup (x :: l), h => by
    simp only [Plain, PlainList] at h
    obtain ⟨h1, h2, h3⟩ := h
    obtain ⟨e, e1, e2, e3⟩ := decodeDP_encodeDP h2
    obtain ⟨f, f1, f2, f3⟩ := decodeDPList_encodeDPList h3
    refine ⟨.tup (e :: f), by simp only [encodeDP, encodeDPList, e1, f1, bind, Except.bind], by simp only [NoElements, NoElementsList]; exact ⟨e2, f2⟩, ?_⟩
    by_cases hs : ∃ s, x = .str s
    · obtain ⟨s, rfl⟩ := hs
      simp only [PlainHead, List.mem_cons, List.not_mem_nil, or_false, not_or] at h1
      simp only [encodeDP, Except.ok.injEq] at e1
      subst e1
      rw [decodeDP, if_neg h1.1, if_neg h1.2.1, if_neg h1.2.2]
      simp only [f3, bind, Except.bind]
    · push Not at hs
      have : ∀ s, e ≠ .str s := by
        rintro s rfl
        cases x with
        | str s => exact hs _ rfl
        | el g v =>
          simp only [encodeDP] at e1
          split_ifs at e1 <;> simp at e1
        | tup l =>
          simp only [encodeDP, bind, Except.bind] at e1
          split at e1 <;> simp at e1
        | none => simp [encodeDP] at e1
        | bool _ => simp [encodeDP] at e1
        | int _ => simp [encodeDP] at e1
        | float _ => simp [encodeDP] at e1
        | raw _ => simp [encodeDP] at e1
      rw [decodeDP_cons this, e3, f3]
      rfl
theorem decodeDPList_encodeDPList : ∀ {l : List (PyId V Gp)}, PlainList ["G".toList, "G1".toList, "G2".toList] (fun g v => (g = self ∨ g = g₁ ∨ g = g₂) ∧ Γ.element g v (Γ.param g) = .ok v) l →
    ∃ e, encodeDPList Γ self g₁ g₂ l = .ok e ∧ NoElementsList e ∧ decodeDPList Γ self g₁ g₂ e = .ok l
  | [], _ => ⟨[], by simp only [encodeDPList], by simp only [NoElementsList], by simp only [decodeDPList]⟩
  | x :: l, h => by
    simp only [PlainList] at h
    obtain ⟨e, e1, e2, e3⟩ := decodeDP_encodeDP h.1
    obtain ⟨f, f1, f2, f3⟩ := decodeDPList_encodeDPList h.2
    exact ⟨e :: f, by simp only [encodeDPList, e1, f1, bind, Except.bind], by simp only [NoElementsList]; exact ⟨e2, f2⟩, by simp only [decodeDPList, e3, f3, bind, Except.bind]⟩
end

/-- **C64** (Missing: ids which contain elements of the factors of a factor, see `C64_nested_id_violated`.)  The subgroup ids of a direct product round-trip: encoding replaces the elements of the product and of its
factors, decoding gives back the id. -/
theorem C64_product_subgroup_id_partial (Γ : PyGroups V Gp) (self g₁ g₂ : Gp) (i : PyId V Gp)
    (h : Plain ["G".toList, "G1".toList, "G2".toList] (fun g v => (g = self ∨ g = g₁ ∨ g = g₂) ∧ Γ.element g v (Γ.param g) = .ok v) i) :
    ∃ e, encodeDP Γ self g₁ g₂ i = .ok e ∧ NoElements e ∧ decodeDP Γ self g₁ g₂ e = .ok i := decodeDP_encodeDP h

/-- **C64** (violated) The id `((a, …), b)` of a subgroup of the product `(A × B) × C` with an element of `A` (the subgroups of the groups of rotations have such ids) cannot be encoded. -/
theorem C64_nested_id_violated (Γ : PyGroups V Gp) {a self g₁ g₂ : Gp} (h : a ≠ self) (h₁ : a ≠ g₁) (h₂ : a ≠ g₂) (v : V) (b c : PyId V Gp) :
    encodeDP Γ self g₁ g₂ (.tup [.tup [.tup [.bool false, .int 2, .el a v], b], c]) = .error .value := by
  simp only [encodeDP, encodeDPList, if_neg h, if_neg h₁, if_neg h₂, bind, Except.bind]

/-- **C64** (violated) An empty tuple is encoded as itself and cannot be decoded. -/
theorem C64_empty_id_violated (Γ : PyGroups V Gp) (self g₁ g₂ : Gp) : decode Γ self (encode Γ (.tup [])) = .error .index ∧
    ∃ e, encodeDP Γ self g₁ g₂ (.tup []) = .ok e ∧ decodeDP Γ self g₁ g₂ e = .error .index := by
  refine ⟨?_, .tup [], ?_, ?_⟩
  · simp only [encode, encodeList, decode]
  · simp only [encodeDP, encodeDPList, bind, Except.bind]
  · simp only [decodeDP]

end product

/-- **C64** The stored values of the elements of the modelled groups are accepted again, as the round trip requires: `element(v, PARAM)` gives `v` for each valid `v`. -/
theorem C64_stored {E : Type} {G : PyGroup E} (h : GroupLaws G) {v : E} (hv : G.Valid v) : G.element v = .ok v := PyGroup.element_ok.2 ⟨hv, h.change v hv⟩

/-- The groups `C_6`, `C_4` and their product, with values in `ℤ × ℤ` (the factors use the first entry). -/
def demoGroups : PyGroups (ℤ × ℤ) (Fin 3) where
  param g := if g = 0 then pairParam ['i', 'n', 't'] ['i', 'n', 't'] else ['i', 'n', 't']
  element g v _ :=
    if g = 0 then (directProduct (Cyclic.pyGroup 6) (Cyclic.pyGroup 4)).element v
    else if g = 1 then do .ok (← (Cyclic.pyGroup 6).element v.1, 0)
    else do .ok (← (Cyclic.pyGroup 4).element v.1, 0)

/-- An id with an element of each factor and one of the product. -/
example : ∃ e, encodeDP demoGroups 0 1 2 (.tup [.tup [.bool false, .int 2, .el 1 (5, 0)], .tup [.str "cone".toList, .el 2 (3, 0)], .el 0 (5, 3)]) = .ok e ∧ NoElements e ∧
    decodeDP demoGroups 0 1 2 e = .ok (.tup [.tup [.bool false, .int 2, .el 1 (5, 0)], .tup [.str "cone".toList, .el 2 (3, 0)], .el 0 (5, 3)]) := by
  refine C64_product_subgroup_id_partial demoGroups 0 1 2 _ ?_
  simp only [Plain, PlainList, PlainHead, true_and, and_true]
  refine ⟨⟨by simp, ?_⟩, ⟨by decide, by simp, ?_⟩, by simp, ?_⟩ <;> rfl

/-- The id of a subgroup of a group of rotations: a flag, an order and the rotation which brings the axis to the right place. -/
example : decode demoGroups 0 (encode demoGroups (.tup [.bool false, .int 2, .el 0 (5, 3)])) = .ok (.tup [.bool false, .int 2, .el 0 (5, 3)]) := by
  refine (C64_subgroup_id demoGroups 0 _ ?_).2
  simp only [Plain, PlainList, PlainHead, true_and, and_true]
  rfl

end PyId

/-! ## Irrep ids -/

/-- **C64** The ids of the irreps of a direct product round-trip: the id of `irrep(*id)` is `id`, `irrep` of the id of an irrep is this irrep, and `get_irrep_id` returns the id for an irrep and for an id. -/
theorem C64_irrep_id {I₁ I₂ : Type} (irrep₁ : I₁ → Except Err (IrrepObj I₁)) (irrep₂ : I₂ → Except Err (IrrepObj I₂)) (name : I₁ → I₂ → ℤ → String) (reps : List (String × IrrepObj (I₁ × I₂ × ℤ)))
    (id : I₁ × I₂ × ℤ) (ψ : IrrepObj (I₁ × I₂ × ℤ)) (h : dpIrrep irrep₁ irrep₂ name id = .ok ψ) :
    ψ.id = id ∧ dpIrrep irrep₁ irrep₂ name ψ.id = .ok ψ ∧ getIrrepId (dpIrrep irrep₁ irrep₂ name) reps (.obj ψ) = .ok (.id id) ∧ getIrrepId (dpIrrep irrep₁ irrep₂ name) reps (.tup id) = .ok (.id id) := by
  have hid : ψ.id = id := by
    simp only [dpIrrep, bind, Except.bind] at h
    repeat' split at h
    all_goals first | (cases h; rfl) | cases h
  refine ⟨hid, by rw [hid]; exact h, by simp only [getIrrepId, hid], ?_⟩
  simp only [getIrrepId, h, bind, Except.bind, hid]

/-- **C64** The ids which name an irrep of a direct product are those of two irreps of the factors with copy 0, or, for two irreps of complex type, 0 or 1. -/
theorem C64_irrep_ids {I₁ I₂ : Type} (irrep₁ : I₁ → Except Err (IrrepObj I₁)) (irrep₂ : I₂ → Except Err (IrrepObj I₂)) (name : I₁ → I₂ → ℤ → String) (id : I₁ × I₂ × ℤ) :
    (∃ ψ, dpIrrep irrep₁ irrep₂ name id = .ok ψ) ↔
      ∃ ψ₁ ψ₂, irrep₁ id.1 = .ok ψ₁ ∧ irrep₂ id.2.1 = .ok ψ₂ ∧ (id.2.2 = 0 ∨ id.2.2 = 1 ∧ ψ₁.kind = .C ∧ ψ₂.kind = .C) := by
  rcases h₁ : irrep₁ id.1 with _ | ψ₁ <;> rcases h₂ : irrep₂ id.2.1 with _ | ψ₂ <;> simp only [dpIrrep, h₁, h₂, bind, Except.bind, reduceCtorEq, exists_false, false_and, and_false, Except.ok.injEq]
  have hR : (∃ a b, ψ₁ = a ∧ ψ₂ = b ∧ (id.2.2 = 0 ∨ id.2.2 = 1 ∧ a.kind = .C ∧ b.kind = .C)) ↔ (id.2.2 = 0 ∨ id.2.2 = 1 ∧ ψ₁.kind = .C ∧ ψ₂.kind = .C) :=
    ⟨fun ⟨_, _, h, h', k⟩ => by subst h h'; exact k, fun k => ⟨_, _, rfl, rfl, k⟩⟩
  rw [hR]
  by_cases hc : ψ₁.kind = .C ∧ ψ₂.kind = .C
  · rw [if_pos hc]
    by_cases h0 : id.2.2 = 0 ∨ id.2.2 = 1 <;> simp [pyAssert, h0, hc]
  · rw [if_neg hc]
    by_cases h0 : id.2.2 = 0
    · simp [pyAssert, h0]
    · simp only [pyAssert, h0, hc, false_or, and_false, iff_false]
      simp

/-- **C64** (violated) For the name of an irrep, `get_irrep_id` returns the irrep and not its id. -/
theorem C64_irrep_name_violated {I : Type} (irrep : I → Except Err (IrrepObj I)) (ψ : IrrepObj I) : getIrrepId irrep [(ψ.name, ψ)] (.str ψ.name) = .ok (.obj ψ) := by
  simp [getIrrepId]

/-- Irreps of `SO(2) × SO(2)`: frequencies 1 and 2, both of complex type, second copy. -/
example : ∃ ψ, dpIrrep (fun k : ℕ => .ok ⟨k, "", if k = 0 then .R else .C⟩) (fun k : ℕ => .ok ⟨k, "", if k = 0 then .R else .C⟩) (fun _ _ _ => "irrep_[(1,),(2,)](1)") (1, 2, 1) = .ok ψ := ⟨_, rfl⟩

end Escnn
