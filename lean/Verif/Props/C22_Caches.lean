import Verif.Model.Cache
import Verif.Props.C17_Induced

/-!
# C22: cached values do not depend on the calls made before

True for the caches whose keys determine the arguments (`subgroup`, `restrict`), and for `quotient_representation` and
`induced_representation` as long as the default representatives and names are used.  Violated in general: the key of the last two
ignores the representatives, and the kernel bases of G-spaces are stored under the names of the representations.
-/

namespace Escnn

open NpMat

section
variable {A K V : Type} [DecidableEq K]

/-- The cache only ever contains values built for arguments with that key, or values it started with. -/
theorem runCalls_inv (key : A → K) (build : A → Except Err V) (hist : List A) (c : K → Option V) (k : K) :
    runCalls key build c hist k = c k ∨ ∃ b ∈ hist, key b = k ∧ ∃ v, build b = .ok v ∧ runCalls key build c hist k = some v := by
  induction hist generalizing c with
  | nil => exact Or.inl rfl
  | cons a L ih =>
    simp only [runCalls]
    rcases ih (memo key build c a).2 with h | ⟨b, hb, hk, v, hv, h⟩
    · rw [h]
      unfold memo
      cases hc : c (key a) with
      | some w => exact Or.inl rfl
      | none =>
        simp only
        cases hv : build a with
        | error e => exact Or.inl rfl
        | ok v =>
          simp only
          by_cases hk : k = key a
          · rw [if_pos hk]
            exact Or.inr ⟨a, List.mem_cons_self, hk.symm, v, hv, rfl⟩
          · rw [if_neg hk]
            exact Or.inl rfl
    · exact Or.inr ⟨b, List.mem_cons_of_mem _ hb, hk, v, hv, h⟩

/-- **C22** If all the earlier calls with the same key would build the same value, the answer is the freshly built value, whatever
the history. -/
theorem C22_memo (key : A → K) (build : A → Except Err V) (hist : List A) (c : K → Option V) (a : A) (hc : c (key a) = none)
    (h : ∀ b ∈ hist, key b = key a → build b = build a) :
    (memo key build (runCalls key build c hist) a).1 = build a := by
  rcases runCalls_inv key build hist c (key a) with h' | ⟨b, hb, hk, v, hv, h'⟩
  · unfold memo
    rw [h', hc]
    cases build a <;> rfl
  · unfold memo
    rw [h']
    simp only
    rw [← h b hb hk, hv]

/-- **C22** for the caches keyed by the (processed) subgroup id: `Group.subgroup` with `build = _subgroup`, and
`Representation.restrict` with `build = restrict_representation`. -/
theorem C22_by_id (build : K → Except Err V) (hist : List K) (id : K) :
    (memo (fun i => i) build (runCalls (fun i => i) build (fun _ => none) hist) id).1 = build id :=
  C22_memo _ _ _ _ _ rfl fun _ _ h => congrArg build h

/-- Conversely, whenever two calls share a key but build different values, the answer depends on the history. -/
theorem C22_history_dependence (key : A → K) (build : A → Except Err V) (a b : A) (v : V) (hk : key b = key a)
    (hb : build b = .ok v) (hne : build a ≠ .ok v) :
    (memo key build (runCalls key build (fun _ => none) [b]) a).1 ≠ (memo key build (runCalls key build (fun _ => none) []) a).1 := by
  have h1 : (memo key build (runCalls key build (fun _ => none) [b]) a).1 = .ok v := by
    simp only [runCalls, memo, hb]
    rw [if_pos hk.symm]
  have h2 : (memo key build (runCalls key build (fun _ => none) []) a).1 = build a :=
    C22_memo key build [] (fun _ => none) a rfl (by simp)
  rw [h1, h2]
  exact fun h => hne h.symm

end

/-! ### Names of quotient and induced representations of C_N -/

theorem natRepr_inj {a b : ℕ} (h : toString a = toString b) : a = b := by
  have h' : (Nat.repr a).toList = (Nat.repr b).toList := by rw [show Nat.repr a = Nat.repr b from h]
  rw [Nat.repr_eq_ofList_toDigits, Nat.repr_eq_ofList_toDigits, String.toList_ofList, String.toList_ofList] at h'
  rw [← Nat.ofDigitChars_toDigits (b := 10) (n := a) (by norm_num) (by norm_num), h',
    Nat.ofDigitChars_toDigits (by norm_num) (by norm_num)]

theorem natRepr_no_bracket (a : ℕ) : ']' ∉ (toString a).toList := by
  intro h
  have h' : ']' ∈ (Nat.repr a).toList := h
  rw [Nat.repr_eq_ofList_toDigits, String.toList_ofList] at h'
  exact absurd (Nat.isDigit_of_mem_toDigits (by norm_num) (by norm_num) h') (by decide)

theorem append_sep_inj {α : Type} {s : α} {a a' b b' : List α} (ha : s ∉ a) (ha' : s ∉ a') (h : a ++ s :: b = a' ++ s :: b') :
    a = a' ∧ b = b' := by
  induction a generalizing a' with
  | nil =>
    cases a' with
    | nil => exact ⟨rfl, by simpa using h⟩
    | cons x a' =>
      exfalso
      simp only [List.nil_append, List.cons_append, List.cons.injEq] at h
      exact ha' (h.1 ▸ List.mem_cons_self)
  | cons x a ih =>
    cases a' with
    | nil =>
      exfalso
      simp only [List.nil_append, List.cons_append, List.cons.injEq] at h
      exact ha (h.1 ▸ List.mem_cons_self)
    | cons y a' =>
      simp only [List.cons_append, List.cons.injEq] at h
      obtain ⟨h1, h2⟩ := ih (fun m => ha (List.mem_cons_of_mem _ m)) (fun m => ha' (List.mem_cons_of_mem _ m)) h.2
      exact ⟨by rw [h.1, h1], h2⟩

/-- The name of the irrep of frequency `k` of `C_M`, cyclicgroup.py L419: `f"irrep_{k}"`. -/
def Cyclic.irrepName (k : ℕ) : String := "irrep_" ++ toString k

/-- A call with the default representatives and the default name. -/
def RepCall.IsDefault {S Id' G : Type} : RepCall S Id' G → Prop
  | .quotient _ reps name => reps = none ∧ name = none
  | .induced _ _ reps name => reps = none ∧ name = none

/-- The default names of C_N tell apart all the default calls. -/
theorem Cyclic.key_inj (a b : RepCall ℕ ℕ ℤ) (ha : a.IsDefault) (hb : b.IsDefault)
    (h : a.key (fun M : ℕ => toString M) irrepName = b.key (fun M : ℕ => toString M) irrepName) : a = b := by
  cases a with
  | quotient M reps name =>
    obtain ⟨rfl, rfl⟩ := ha
    cases b with
    | quotient M' reps' name' =>
      obtain ⟨rfl, rfl⟩ := hb
      simp only [RepCall.key] at h
      have h' := congrArg String.toList h
      simp only [String.toList_append] at h'
      rw [List.append_cancel_right_eq, List.append_cancel_left_eq, String.toList_inj] at h'
      rw [natRepr_inj h']
    | induced M' k' reps' name' =>
      obtain ⟨rfl, rfl⟩ := hb
      exfalso
      simp only [RepCall.key] at h
      have h' := congrArg (fun s : String => s.toList.head?) h
      simp only [String.toList_append] at h'
      revert h'
      simp
  | induced M k reps name =>
    obtain ⟨rfl, rfl⟩ := ha
    cases b with
    | quotient M' reps' name' =>
      obtain ⟨rfl, rfl⟩ := hb
      exfalso
      simp only [RepCall.key] at h
      have h' := congrArg (fun s : String => s.toList.head?) h
      simp only [String.toList_append] at h'
      revert h'
      simp
    | induced M' k' reps' name' =>
      obtain ⟨rfl, rfl⟩ := hb
      simp only [RepCall.key, irrepName] at h
      have h' := congrArg String.toList h
      simp only [String.toList_append] at h'
      rw [List.append_cancel_right_eq] at h'
      simp only [List.append_assoc] at h'
      rw [List.append_cancel_left_eq] at h'
      have e : "][".toList = [']', '['] := by decide
      rw [e] at h'
      obtain ⟨h1, h2⟩ := append_sep_inj (natRepr_no_bracket M) (natRepr_no_bracket M') h'
      have h3 := List.append_cancel_left (as := "irrep_".toList) (List.append_cancel_left (as := ['[']) h2)
      rw [natRepr_inj (String.toList_inj.1 h1), natRepr_inj (String.toList_inj.1 h3)]

/-- **C22** (partial) `quotient_representation` and `induced_representation` of C_N called with the default representatives and
names return the freshly built value whatever default calls were made before.  Missing: calls with explicit representatives or
names (violated below). -/
theorem C22_cyclic_quotient_partial {V : Type} (make : ℕ → ℕ → Option (List ℤ) → Except Err V) (hist : List (RepCall ℕ ℕ ℤ))
    (hd : ∀ b ∈ hist, b.IsDefault) (a : RepCall ℕ ℕ ℤ) (ha : a.IsDefault) :
    (memo (RepCall.key (fun M : ℕ => toString M) Cyclic.irrepName) (RepCall.build (fun _ => 0) make)
      (runCalls (RepCall.key (fun M : ℕ => toString M) Cyclic.irrepName) (RepCall.build (fun _ => 0) make) (fun _ => none) hist) a).1 =
    RepCall.build (fun _ => 0) make a :=
  C22_memo _ _ _ _ _ rfl fun b hb hk => by rw [Cyclic.key_inj b a (hd b hb) ha hk]

/-- Arguments of `cyclic_group(2).quotient_representation(1, representatives=…)`: the built value is `c2Quotient`. -/
noncomputable def c2Make (_ _ : ℕ) (reps : Option (List ℤ)) : Except Err (Rep ℤ ℕ) := Cyclic.c2Quotient (reps.getD [0, 1])

/-- **C22 is violated** for explicit representatives: `quotient_representation(1, representatives=[])` of C_2 raises in a fresh
session (the number of representatives is wrong) but returns a representation if the default one has been requested before. -/
theorem C22_representatives_violated :
    ∃ (hist : List (RepCall ℕ ℕ ℤ)) (a : RepCall ℕ ℕ ℤ),
      (memo (RepCall.key (fun M : ℕ => toString M) Cyclic.irrepName) (RepCall.build (fun _ => 0) c2Make)
        (runCalls (RepCall.key (fun M : ℕ => toString M) Cyclic.irrepName) (RepCall.build (fun _ => 0) c2Make) (fun _ => none) hist) a).1 ≠
      (memo (RepCall.key (fun M : ℕ => toString M) Cyclic.irrepName) (RepCall.build (fun _ => 0) c2Make) (fun _ => none) a).1 := by
  obtain ⟨r, hr⟩ := Cyclic.c2Quotient_ok
  refine ⟨[.quotient 1 none none], .quotient 1 (some []) none, ?_⟩
  refine C22_history_dependence _ _ _ _ r rfl hr ?_
  have : RepCall.build (fun _ => 0) c2Make (.quotient 1 (some []) none) = .error .assertion := by
    show Cyclic.c2Quotient [] = _
    simp [Cyclic.c2Quotient, inducedRep, buildInduced, countOk]
  rw [this]
  exact fun h => by cases h

/-! ### Kernel bases of G-spaces -/

/-- **C22** (partial) `GSpace.build_kernel_basis` (any generator `gen`): the answer does not depend on the history if, among the
representations used, equal names mean equal representations.  Missing: different representations with equal names (violated
below). -/
theorem C22_kernel_basis_partial {G Id P V : Type} [DecidableEq P] (gen : Rep G Id × Rep G Id × P → Except Err V)
    (hist : List (Rep G Id × Rep G Id × P)) (a : Rep G Id × Rep G Id × P)
    (h : ∀ b ∈ hist, (b.1.name = a.1.name → b.1 = a.1) ∧ (b.2.1.name = a.2.1.name → b.2.1 = a.2.1)) :
    (memo kernelKey gen (runCalls kernelKey gen (fun _ => none) hist) a).1 = gen a := by
  refine C22_memo _ _ _ _ _ rfl fun b hb hk => ?_
  obtain ⟨h1, h2⟩ := h b hb
  simp only [kernelKey, Prod.mk.injEq] at hk
  congr 1
  exact Prod.ext (h1 hk.2.1) (Prod.ext (h2 hk.2.2) hk.1)

/-- **C22 is violated** for kernel bases: two representations of C_2 with the same name.  The generator is `homomorphism_space`
(the equivariant kernels on a point); the sign representation is answered with the basis of the trivial one. -/
theorem C22_names_violated :
    ∃ (r s : Rep ℤ ℕ), mkRep (Cyclic.table 2) [] "field" [0] (eye 1) ∅ none = .ok r ∧
      mkRep (Cyclic.table 2) [] "field" [1] (eye 1) ∅ none = .ok s ∧
      (memo kernelKey (fun a : Rep ℤ ℕ × Rep ℤ ℕ × Unit => .ok (homSpace (Cyclic.table 2) (Cyclic.irrepType 2) a.1 a.2.1).length)
        (runCalls kernelKey (fun a : Rep ℤ ℕ × Rep ℤ ℕ × Unit => .ok (homSpace (Cyclic.table 2) (Cyclic.irrepType 2) a.1 a.2.1).length)
          (fun _ => none) [(r, r, ())]) (r, s, ())).1 = .ok 1 ∧
      (homSpace (Cyclic.table 2) (Cyclic.irrepType 2) r s).length = 0 := by
  obtain ⟨r, hr, rwf, rn, ri, -⟩ := C14_constructor (Cyclic.table_valid 2 (by norm_num)) [] "field" [0] (eye 1) (eye 1) ∅ (by simp)
    (by simp) (IsInv.eye 1) (by simp [Cyclic.table]) (by simp [Cyclic.table, Cyclic.irrepSize]) false
  obtain ⟨s, hs, swf, sn, si, -⟩ := C14_constructor (Cyclic.table_valid 2 (by norm_num)) [] "field" [1] (eye 1) (eye 1) ∅ (by simp)
    (by simp) (IsInv.eye 1) (by simp [Cyclic.table]) (by simp [Cyclic.table, Cyclic.irrepSize]) false
  have hrr : (homSpace (Cyclic.table 2) (Cyclic.irrepType 2) r r).length = 1 := by
    rw [(C18_homomorphism_space (Cyclic.table_valid 2 (by norm_num)) (Cyclic.C18_cyclic 2 (by norm_num)).1 r r rwf rwf).2.1, ri]
    decide
  have hrs : (homSpace (Cyclic.table 2) (Cyclic.irrepType 2) r s).length = 0 := by
    rw [(C18_homomorphism_space (Cyclic.table_valid 2 (by norm_num)) (Cyclic.C18_cyclic 2 (by norm_num)).1 r s rwf swf).2.1, ri, si]
    decide
  refine ⟨r, s, hr, hs, ?_, hrs⟩
  have hk : kernelKey (r, s, ()) = kernelKey (r, r, ()) := by simp only [kernelKey, rn, sn]
  simp only [runCalls, memo]
  rw [hk, if_pos rfl, hrr]

example : (RepCall.quotient 2 none none : RepCall ℕ ℕ ℤ).IsDefault ∧ (RepCall.induced 2 1 none none : RepCall ℕ ℕ ℤ).IsDefault :=
  ⟨⟨rfl, rfl⟩, rfl, rfl⟩

end Escnn
