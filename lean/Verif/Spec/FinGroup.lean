import Mathlib.Tactic

/-!
# Finite groups given by a list of elements (specification)
-/

namespace Escnn

/-- `els` lists without repetition the elements of a group with product `mul`, inverse `inv` and identity `one`. -/
structure FinGroup {G : Type} (els : List G) (mul : G → G → G) (inv : G → G) (one : G) : Prop where
  nodup : els.Nodup
  one_mem : one ∈ els
  mul_mem : ∀ a ∈ els, ∀ b ∈ els, mul a b ∈ els
  inv_mem : ∀ a ∈ els, inv a ∈ els
  assoc : ∀ a ∈ els, ∀ b ∈ els, ∀ c ∈ els, mul (mul a b) c = mul a (mul b c)
  one_mul : ∀ a ∈ els, mul one a = a
  mul_one : ∀ a ∈ els, mul a one = a
  inv_mul : ∀ a ∈ els, mul (inv a) a = one
  mul_inv : ∀ a ∈ els, mul a (inv a) = one

namespace FinGroup
variable {G : Type} {els : List G} {mul : G → G → G} {inv : G → G} {one : G}

theorem length_pos (h : FinGroup els mul inv one) : 0 < els.length := List.length_pos_of_mem h.one_mem

theorem cancel_left (h : FinGroup els mul inv one) {a b c : G} (ha : a ∈ els) (hb : b ∈ els) (hc : c ∈ els)
    (e : mul a b = mul a c) : b = c := by
  rw [← h.one_mul b hb, ← h.inv_mul a ha, h.assoc _ (h.inv_mem a ha) _ ha _ hb, e, ← h.assoc _ (h.inv_mem a ha) _ ha _ hc,
    h.inv_mul a ha, h.one_mul c hc]

theorem cancel_right (h : FinGroup els mul inv one) {a b c : G} (ha : a ∈ els) (hb : b ∈ els) (hc : c ∈ els)
    (e : mul b a = mul c a) : b = c := by
  rw [← h.mul_one b hb, ← h.mul_inv a ha, ← h.assoc _ hb _ ha _ (h.inv_mem a ha), e, h.assoc _ hc _ ha _ (h.inv_mem a ha),
    h.mul_inv a ha, h.mul_one c hc]

theorem mul_inv_cancel_left (h : FinGroup els mul inv one) {a b : G} (ha : a ∈ els) (hb : b ∈ els) :
    mul a (mul (inv a) b) = b := by
  rw [← h.assoc _ ha _ (h.inv_mem a ha) _ hb, h.mul_inv a ha, h.one_mul b hb]

theorem inv_mul_cancel_left (h : FinGroup els mul inv one) {a b : G} (ha : a ∈ els) (hb : b ∈ els) :
    mul (inv a) (mul a b) = b := by
  rw [← h.assoc _ (h.inv_mem a ha) _ ha _ hb, h.inv_mul a ha, h.one_mul b hb]

theorem inv_one (h : FinGroup els mul inv one) : inv one = one := by
  rw [← h.mul_one _ (h.inv_mem _ h.one_mem)]; exact h.inv_mul _ h.one_mem

theorem inv_mul_eq_one (h : FinGroup els mul inv one) {a b : G} (ha : a ∈ els) (hb : b ∈ els) :
    mul (inv a) b = one ↔ a = b := by
  constructor
  · intro e
    rw [← h.mul_inv_cancel_left ha hb, e, h.mul_one a ha]
  · rintro rfl; exact h.inv_mul a ha

theorem inv_inv (h : FinGroup els mul inv one) {a : G} (ha : a ∈ els) : inv (inv a) = a :=
  h.cancel_left (h.inv_mem a ha) (h.inv_mem _ (h.inv_mem a ha)) ha
    ((h.mul_inv _ (h.inv_mem a ha)).trans (h.inv_mul a ha).symm)

theorem mul_inv_rev (h : FinGroup els mul inv one) {a b : G} (ha : a ∈ els) (hb : b ∈ els) :
    inv (mul a b) = mul (inv b) (inv a) := by
  have hab := h.mul_mem a ha b hb
  have ia := h.inv_mem a ha
  have ib := h.inv_mem b hb
  refine h.cancel_left hab (h.inv_mem _ hab) (h.mul_mem _ ib _ ia) ?_
  rw [h.mul_inv _ hab, h.assoc _ ha _ hb _ (h.mul_mem _ ib _ ia), h.mul_inv_cancel_left hb ia, h.mul_inv a ha]

end FinGroup

/-- A group given by a membership predicate (possibly infinite). -/
structure PGroup {G : Type} (El : G → Prop) (mul : G → G → G) (inv : G → G) (one : G) : Prop where
  one_mem : El one
  mul_mem : ∀ a b, El a → El b → El (mul a b)
  inv_mem : ∀ a, El a → El (inv a)
  assoc : ∀ a b c, El a → El b → El c → mul (mul a b) c = mul a (mul b c)
  one_mul : ∀ a, El a → mul one a = a
  mul_one : ∀ a, El a → mul a one = a
  inv_mul : ∀ a, El a → mul (inv a) a = one
  mul_inv : ∀ a, El a → mul a (inv a) = one

theorem FinGroup.toPGroup {G : Type} {els : List G} {mul : G → G → G} {inv : G → G} {one : G} (h : FinGroup els mul inv one) :
    PGroup (· ∈ els) mul inv one :=
  ⟨h.one_mem, fun a b ha hb => h.mul_mem a ha b hb, h.inv_mem, fun a b c ha hb hc => h.assoc a ha b hb c hc, h.one_mul, h.mul_one,
    h.inv_mul, h.mul_inv⟩

namespace PGroup
variable {G : Type} {El : G → Prop} {mul : G → G → G} {inv : G → G} {one : G}

theorem inv_mul_cancel_left (h : PGroup El mul inv one) {a b : G} (ha : El a) (hb : El b) : mul (inv a) (mul a b) = b := by
  rw [← h.assoc _ _ _ (h.inv_mem a ha) ha hb, h.inv_mul a ha, h.one_mul b hb]

theorem mul_inv_cancel_left (h : PGroup El mul inv one) {a b : G} (ha : El a) (hb : El b) : mul a (mul (inv a) b) = b := by
  rw [← h.assoc _ _ _ ha (h.inv_mem a ha) hb, h.mul_inv a ha, h.one_mul b hb]

theorem cancel_left (h : PGroup El mul inv one) {a b c : G} (ha : El a) (hb : El b) (hc : El c) (e : mul a b = mul a c) : b = c := by
  rw [← h.inv_mul_cancel_left ha hb, e, h.inv_mul_cancel_left ha hc]

end PGroup

/-- `parent` embeds the group `H` into the group `G` and `child` is its partial inverse, defined exactly on the image. -/
structure Inclusion {G H : Type} (ElG : G → Prop) (mulG : G → G → G) (invG : G → G) (oneG : G) (ElH : H → Prop)
    (mulH : H → H → H) (invH : H → H) (oneH : H) (parent : H → G) (child : G → Option H) : Prop where
  groupG : PGroup ElG mulG invG oneG
  groupH : PGroup ElH mulH invH oneH
  mem : ∀ h, ElH h → ElG (parent h)
  map_mul : ∀ a b, ElH a → ElH b → parent (mulH a b) = mulG (parent a) (parent b)
  map_one : parent oneH = oneG
  inj : ∀ a b, ElH a → ElH b → parent a = parent b → a = b
  child_iff : ∀ g h, ElG g → (child g = some h ↔ ElH h ∧ parent h = g)

theorem Inclusion.map_inv {G H : Type} {ElG : G → Prop} {mulG : G → G → G} {invG : G → G} {oneG : G} {ElH : H → Prop}
    {mulH : H → H → H} {invH : H → H} {oneH : H} {parent : H → G} {child : G → Option H}
    (h : Inclusion ElG mulG invG oneG ElH mulH invH oneH parent child) {a : H} (ha : ElH a) :
    parent (invH a) = invG (parent a) := by
  have ia := h.groupH.inv_mem a ha
  refine h.groupG.cancel_left (h.mem a ha) (h.mem _ ia) (h.groupG.inv_mem _ (h.mem a ha)) ?_
  rw [h.groupG.mul_inv _ (h.mem a ha), ← h.map_mul a _ ha ia, h.groupH.mul_inv a ha, h.map_one]

end Escnn
