import Verif.Lemmas.Kron
import Verif.Props.C14_DirectSum

/-!
# C18 — endomorphism bases and homomorphism spaces
-/

namespace Escnn

open NpMat

/-- The sizes for which an irrep of the given type exists: complex irreps have even size, quaternionic ones a multiple of 4. -/
def IrrType.sizeOk : IrrType → ℕ → Prop
  | .R, n => 0 < n
  | .C, n => 0 < n ∧ n % 2 = 0
  | .H, n => 0 < n ∧ n % 4 = 0

theorem frob_core_C (k l : ℕ) (hk : k < 2) (hl : l < 2) :
    frob ((endoCore .C).getD k (zeros 0 0)) ((endoCore .C).getD l (zeros 0 0)) = if k = l then 2 else 0 := by
  by_cases h : k = 0 ∧ l = 0
  · obtain ⟨rfl, rfl⟩ := h
    show frob (eye 2) (eye 2) = _
    rw [frob_eye]; norm_num
  interval_cases k <;> interval_cases l <;> first | exact absurd ⟨rfl, rfl⟩ h |
    simp [endoCore, frob, ofRows, eye, Finset.sum_range_succ] <;> norm_num

theorem frob_core_H (k l : ℕ) (hk : k < 4) (hl : l < 4) :
    frob ((endoCore .H).getD k (zeros 0 0)) ((endoCore .H).getD l (zeros 0 0)) = if k = l then 4 else 0 := by
  by_cases h : k = 0 ∧ l = 0
  · obtain ⟨rfl, rfl⟩ := h
    show frob (eye 4) (eye 4) = _
    rw [frob_eye]; norm_num
  interval_cases k <;> interval_cases l <;> first | exact absurd ⟨rfl, rfl⟩ h |
    simp [endoCore, frob, ofRows, eye, Finset.sum_range_succ] <;> norm_num

/-- **C18** the endomorphism basis of an irrep has `sum_of_squares_constituents` matrices of shape `(size, size)`, pairwise
orthogonal and of squared norm `size`. -/
theorem C18_endo_orthogonal (t : IrrType) (n : ℕ) (h : t.sizeOk n) :
    (endoBasis t n).length = t.sumsq ∧ (∀ E ∈ endoBasis t n, E.rows = n ∧ E.cols = n) ∧
    ∀ (k l : ℕ) (hk : k < (endoBasis t n).length) (hl : l < (endoBasis t n).length),
      ∑ i ∈ Finset.range n, ∑ j ∈ Finset.range n, (endoBasis t n)[k].get i j * (endoBasis t n)[l].get i j =
        if k = l then (n : ℝ) else 0 := by
  have shape : ∀ E ∈ endoBasis t n, E.rows = n ∧ E.cols = n := by
    intro E hE
    cases t
    · simp only [endoBasis, List.mem_singleton] at hE; subst hE; exact ⟨rfl, rfl⟩
    · have : 2 * (n / 2) = n := by have := h.2; omega
      simp only [endoBasis, endoCore, List.map_cons, List.map_nil, List.mem_cons, List.not_mem_nil, or_false] at hE
      rcases hE with rfl | rfl <;> exact ⟨this, this⟩
    · have : 4 * (n / 4) = n := by have := h.2; omega
      simp only [endoBasis, endoCore, List.map_cons, List.map_nil, List.mem_cons, List.not_mem_nil, or_false] at hE
      rcases hE with rfl | rfl | rfl | rfl <;> exact ⟨this, this⟩
  refine ⟨by cases t <;> rfl, shape, fun k l hk hl => ?_⟩
  have hs := shape _ (List.getElem_mem hk)
  have e : ∑ i ∈ Finset.range n, ∑ j ∈ Finset.range n, (endoBasis t n)[k].get i j * (endoBasis t n)[l].get i j =
      frob (endoBasis t n)[k] (endoBasis t n)[l] := by
    unfold frob; rw [hs.1, hs.2]
  rw [e]
  cases t
  · have hk' : k < 1 := hk
    have hl' : l < 1 := hl
    obtain rfl : k = 0 := by omega
    obtain rfl : l = 0 := by omega
    rw [if_pos rfl]
    exact frob_eye n
  · have hk' : k < 2 := hk
    have hl' : l < 2 := hl
    have hn : ((n / 2 : ℕ) : ℝ) * 2 = n := by
      have : n / 2 * 2 = n := by have := h.2; omega
      exact_mod_cast this
    have e1 : ∀ k (hk : k < (endoBasis .C n).length), (endoBasis .C n)[k] = kron ((endoCore .C).getD k (zeros 0 0)) (eye (n / 2)) := by
      intro k hk
      have hk' : k < 2 := hk
      interval_cases k <;> rfl
    rw [e1 k hk, e1 l hl, frob_kron _ _ _ _ (by interval_cases k <;> interval_cases l <;> rfl)
      (by interval_cases k <;> interval_cases l <;> rfl) rfl rfl, frob_eye, frob_core_C k l hk' hl']
    split_ifs
    · linarith
    · simp
  · have hk' : k < 4 := hk
    have hl' : l < 4 := hl
    have hn : ((n / 4 : ℕ) : ℝ) * 4 = n := by
      have : n / 4 * 4 = n := by have := h.2; omega
      exact_mod_cast this
    have e1 : ∀ k (hk : k < (endoBasis .H n).length), (endoBasis .H n)[k] = kron ((endoCore .H).getD k (zeros 0 0)) (eye (n / 4)) := by
      intro k hk
      have hk' : k < 4 := hk
      interval_cases k <;> rfl
    rw [e1 k hk, e1 l hl, frob_kron _ _ _ _ (by interval_cases k <;> interval_cases l <;> rfl)
      (by interval_cases k <;> interval_cases l <;> rfl) rfl rfl, frob_eye, frob_core_H k l hk' hl']
    split_ifs
    · linarith
    · simp

example : IrrType.sizeOk .H 8 := ⟨by norm_num, by norm_num⟩

/-! ### Commutation with the irreps -/

variable {G Id : Type}

/-- The declared types are right: sizes are admissible and the endomorphism basis commutes with the irrep. -/
def EndoValid (T : IrrepTable G Id) (typ : Id → IrrType) (El : G → Prop) : Prop :=
  ∀ i, T.ok i = true → (typ i).sizeOk (T.size i) ∧
    ∀ E ∈ endoBasis (typ i) (T.size i), ∀ g, El g → mul (T.mat i g) E ≈ mul E (T.mat i g)

set_option maxHeartbeats 4000000 in
-- nine products of 4 × 4 arrays, entry by entry
theorem core_H_mul (k l : ℕ) (hk : k < 4) (hl : l < 4) (s : ℝ) (m : ℕ)
    (h : (k, l, s, m) ∈ [(1, 1, (-1 : ℝ), 0), (2, 2, -1, 0), (3, 3, -1, 0), (1, 2, 1, 3), (2, 1, -1, 3), (2, 3, 1, 1), (3, 2, -1, 1), (3, 1, 1, 2), (1, 3, -1, 2)]) :
    mul ((endoCore .H).getD k (zeros 0 0)) ((endoCore .H).getD l (zeros 0 0)) ≈ smul s ((endoCore .H).getD m (zeros 0 0)) := by
  simp only [List.mem_cons, Prod.mk.injEq, List.not_mem_nil, or_false] at h
  rcases h with h | h | h | h | h | h | h | h | h <;> obtain ⟨rfl, rfl, rfl, rfl⟩ := h <;>
    (refine ⟨rfl, rfl, fun i j hi hj => ?_⟩
     have hi' : i < 4 := hi
     have hj' : j < 4 := hj
     interval_cases i <;> interval_cases j <;> simp [endoCore, mul, smul, ofRows, eye, Finset.sum_range_succ])

/-- **C18** For an irrep of quaternionic type the matrices `1, I, J, K` of the endomorphism basis multiply like the quaternions:
`I² = J² = K² = -1`, `IJ = K`, `JK = I`, `KI = J`, and they anticommute. -/
theorem C18_quaternions (n : ℕ) (hn : 0 < n ∧ n % 4 = 0) :
    ∃ I J K : NpMat ℝ, endoBasis .H n = [kron (eye 4) (eye (n / 4)), I, J, K] ∧ kron (eye 4 : NpMat ℝ) (eye (n / 4)) ≈ eye n ∧
      mul I I ≈ smul (-1) (eye n) ∧ mul J J ≈ smul (-1) (eye n) ∧ mul K K ≈ smul (-1) (eye n) ∧
      mul I J ≈ smul 1 K ∧ mul J I ≈ smul (-1) K ∧ mul J K ≈ smul 1 I ∧ mul K J ≈ smul (-1) I ∧
      mul K I ≈ smul 1 J ∧ mul I K ≈ smul (-1) J := by
  have he : kron (eye 4 : NpMat ℝ) (eye (n / 4)) ≈ eye n := by
    have := kron_eye_eye (R := ℝ) 4 (n / 4)
    rwa [show 4 * (n / 4) = n by omega] at this
  have hc : ∀ k, k < 4 → ((endoCore .H).getD k (zeros 0 0)).rows = 4 ∧ ((endoCore .H).getD k (zeros 0 0)).cols = 4 := by
    intro k hk; interval_cases k <;> exact ⟨rfl, rfl⟩
  have key : ∀ (k l m : ℕ) (s : ℝ), k < 4 → l < 4 →
      mul ((endoCore .H).getD k (zeros 0 0)) ((endoCore .H).getD l (zeros 0 0)) ≈ smul s ((endoCore .H).getD m (zeros 0 0)) →
      mul (kron ((endoCore .H).getD k (zeros 0 0)) (eye (n / 4))) (kron ((endoCore .H).getD l (zeros 0 0)) (eye (n / 4))) ≈
        smul s (kron ((endoCore .H).getD m (zeros 0 0)) (eye (n / 4))) := by
    intro k l m s hk hl h
    refine (kron_mul _ _ _ _ (by rw [(hc k hk).2, (hc l hl).1]) rfl).trans ?_
    refine (kron_congr h (mul_eye (eye (n / 4)))).trans ⟨rfl, rfl, fun i j _ _ => ?_⟩
    simp only [kron, smul]
    ring
  have hs : ∀ (s : ℝ) {A B : NpMat ℝ}, A ≈ B → smul s A ≈ smul s B := fun s A B h =>
    ⟨h.1, h.2.1, fun i j hi hj => by simp only [smul]; rw [h.2.2 i j hi hj]⟩
  refine ⟨_, _, _, rfl, he, (key 1 1 0 (-1) (by norm_num) (by norm_num) (core_H_mul 1 1 (by norm_num) (by norm_num) _ _ (by simp))).trans (hs _ he),
    (key 2 2 0 (-1) (by norm_num) (by norm_num) (core_H_mul 2 2 (by norm_num) (by norm_num) _ _ (by simp))).trans (hs _ he),
    (key 3 3 0 (-1) (by norm_num) (by norm_num) (core_H_mul 3 3 (by norm_num) (by norm_num) _ _ (by simp))).trans (hs _ he),
    key 1 2 3 1 (by norm_num) (by norm_num) (core_H_mul 1 2 (by norm_num) (by norm_num) _ _ (by simp)),
    key 2 1 3 (-1) (by norm_num) (by norm_num) (core_H_mul 2 1 (by norm_num) (by norm_num) _ _ (by simp)),
    key 2 3 1 1 (by norm_num) (by norm_num) (core_H_mul 2 3 (by norm_num) (by norm_num) _ _ (by simp)),
    key 3 2 1 (-1) (by norm_num) (by norm_num) (core_H_mul 3 2 (by norm_num) (by norm_num) _ _ (by simp)),
    key 3 1 2 1 (by norm_num) (by norm_num) (core_H_mul 3 1 (by norm_num) (by norm_num) _ _ (by simp)),
    key 1 3 2 (-1) (by norm_num) (by norm_num) (core_H_mul 1 3 (by norm_num) (by norm_num) _ _ (by simp))⟩

theorem commute_eye {A : NpMat ℝ} {n : ℕ} (hr : A.rows = n) (hc : A.cols = n) : mul A (eye n) ≈ mul (eye n) A :=
  (mul_eye' A hc).trans (eye_mul' A hr).symm

theorem psi_commute_J (θ : ℝ) (k : ℕ) (E : NpMat ℝ) (hE : E ∈ endoBasis .C 2) : mul (psi θ k) E ≈ mul E (psi θ k) := by
  simp only [endoBasis, endoCore, List.map_cons, List.map_nil, List.mem_cons, List.not_mem_nil, or_false] at hE
  have h1 : ∀ A : NpMat ℝ, kron A (eye (2 / 2)) ≈ A := kron_eye_one
  have key : ∀ A : NpMat ℝ, A.rows = 2 → A.cols = 2 → mul (psi θ k) A ≈ mul A (psi θ k) →
      mul (psi θ k) (kron A (eye (2 / 2))) ≈ mul (kron A (eye (2 / 2))) (psi θ k) := by
    intro A hr hc hA
    refine (mul_congr_right _ (h1 A) ?_).trans (hA.trans (mul_congr_left _ (h1 A) ?_).symm)
    · show 2 = A.rows * 1; omega
    · show A.cols * 1 = 2; omega
  rcases hE with rfl | rfl
  · exact key _ rfl rfl (commute_eye rfl rfl)
  · refine key _ rfl rfl ⟨rfl, rfl, fun i j hi hj => ?_⟩
    have hi' : i < 2 := hi
    have hj' : j < 2 := hj
    have hc : (psi θ k).cols = 2 := rfl
    have hc' : (ofRows 2 [[0, -1], [1, 0]] : NpMat ℝ).cols = 2 := rfl
    simp only [mul, hc, hc', Finset.sum_range_succ, Finset.sum_range_zero, psi, of2, ofRows]
    interval_cases i <;> interval_cases j <;> simp

theorem endoR {A : NpMat ℝ} {n : ℕ} (hr : A.rows = n) (hc : A.cols = n) (E : NpMat ℝ) (hE : E ∈ endoBasis .R n) :
    mul A E ≈ mul E A := by
  simp only [endoBasis, List.mem_singleton] at hE
  subst hE; exact commute_eye hr hc

/-- **C18** for `C_N`: the endomorphism basis of every irrep commutes with it, and its length is the declared
`sum_of_squares_constituents`. -/
theorem Cyclic.C18_cyclic (N : ℕ) (hN : 0 < N) :
    EndoValid (Cyclic.table N) (Cyclic.irrepType N) (fun e => Cyclic.isElement N e = true) ∧
    ∀ k, (Cyclic.irrepType N k).sumsq = Cyclic.irrepSumSq N k := by
  refine ⟨fun k hk => ?_, fun k => ?_⟩
  · have hv := Cyclic.table_valid N hN k hk
    have hs : (Cyclic.table N).size k = Cyclic.irrepSize N k := rfl
    have hm : (Cyclic.table N).mat k = Cyclic.irrepMat N k := rfl
    by_cases h0 : k = 0
    · refine ⟨by rw [hs, Cyclic.irrepType, Cyclic.irrepSize, if_pos h0, if_pos h0]; exact Nat.one_pos, fun E hE g hg => ?_⟩
      rw [Cyclic.irrepType, if_pos h0] at hE
      exact endoR (hv.rows g hg) (hv.cols g hg) E hE
    · by_cases h1 : N % 2 = 0 ∧ k = N / 2
      · refine ⟨by rw [hs, Cyclic.irrepType, Cyclic.irrepSize, if_neg h0, if_pos h1, if_neg h0, if_pos h1]; exact Nat.one_pos, fun E hE g hg => ?_⟩
        rw [Cyclic.irrepType, if_neg h0, if_pos h1] at hE
        exact endoR (hv.rows g hg) (hv.cols g hg) E hE
      · refine ⟨by rw [hs, Cyclic.irrepType, Cyclic.irrepSize, if_neg h0, if_neg h1, if_neg h0, if_neg h1]; exact ⟨by norm_num, rfl⟩, fun E hE g hg => ?_⟩
        rw [hs, Cyclic.irrepType, Cyclic.irrepSize, if_neg h0, if_neg h1, if_neg h0, if_neg h1] at hE
        rw [hm, Cyclic.irrepMat, if_neg h0, if_neg h1]
        exact psi_commute_J _ _ E hE
  · unfold Cyclic.irrepType Cyclic.irrepSumSq
    split_ifs <;> rfl

/-- **C18** for `SO(2)`, every frequency. -/
theorem SO2.C18_so2 : EndoValid SO2.table SO2.irrepType SO2.IsElement := by
  intro k hk
  have hv := SO2.table_valid k hk
  have hs : SO2.table.size k = SO2.irrepSize k := rfl
  have hm : SO2.table.mat k = SO2.irrepMat k := rfl
  by_cases h0 : k = 0
  · refine ⟨by rw [hs, SO2.irrepType, SO2.irrepSize, if_pos h0, if_pos h0]; exact Nat.one_pos, fun E hE g hg => ?_⟩
    rw [SO2.irrepType, if_pos h0] at hE
    exact endoR (hv.rows g hg) (hv.cols g hg) E hE
  · refine ⟨by rw [hs, SO2.irrepType, SO2.irrepSize, if_neg h0, if_neg h0]; exact ⟨by norm_num, rfl⟩, fun E hE g hg => ?_⟩
    rw [hs, SO2.irrepType, SO2.irrepSize, if_neg h0, if_neg h0] at hE
    rw [hm, SO2.irrepMat, if_neg h0]
    exact psi_commute_J _ _ E hE

/-- **C18** for groups all of whose irreps are of real type, such as `D_N` and `O(2)` (dihedralgroup.py L579-634, o2group.py
L657-689 pass `'R'`). -/
theorem C18_real_type (T : IrrepTable G Id) {El : G → Prop} {op : G → G → G} {one : G} (hT : T.Valid El op one)
    (hpos : ∀ i, T.ok i = true → 0 < T.size i) : EndoValid T (fun _ => .R) El := fun i hi =>
  ⟨hpos i hi, fun E hE g hg => endoR ((hT i hi).rows g hg) ((hT i hi).cols g hg) E hE⟩

theorem Dihedral.C18_dihedral (N : ℕ) (hN : 0 < N) :
    EndoValid (Dihedral.table N) (fun _ => .R) (fun e => Dihedral.isElement N e = true) :=
  C18_real_type _ (Dihedral.table_valid N hN) fun i _ => by
    show 0 < Dihedral.irrepSize N i.1 i.2
    unfold Dihedral.irrepSize; split_ifs <;> norm_num

theorem O2.C18_o2 : EndoValid O2.table (fun _ => .R) O2.IsElement :=
  C18_real_type _ O2.table_valid fun i _ => by
    show 0 < O2.irrepSize i.1 i.2
    unfold O2.irrepSize; split_ifs <;> norm_num

example : (Cyclic.table 5).ok 2 = true ∧ Cyclic.irrepType 5 2 = .C := by decide

/-! ### `homomorphism_space` -/

section
variable [DecidableEq Id] (T : IrrepTable G Id) (typ : Id → IrrType) (n2 n1 : ℕ)

theorem mem_homInner {a : Id} {i j : ℕ} {L : List Id} {B : NpMat ℝ} (h : B ∈ homInner T typ n2 n1 a i j L) :
    ∃ o1 o2 E, L = o1 ++ a :: o2 ∧ E ∈ endoBasis (typ a) (T.size a) ∧ B = pad n2 n1 (j + (o1.map T.size).sum) i E := by
  induction L generalizing j with
  | nil => simp [homInner] at h
  | cons b L ih =>
    rw [homInner, List.mem_append] at h
    rcases h with h | h
    · split_ifs at h with hb
      · obtain ⟨E, hE, rfl⟩ := List.mem_map.1 h
        exact ⟨[], L, E, by simp [hb], hE, by simp⟩
      · simp at h
    · obtain ⟨o1, o2, E, h1, h2, h3⟩ := ih h
      exact ⟨b :: o1, o2, E, by simp [h1], h2, by rw [h3]; simp [add_assoc]⟩

theorem mem_homOuter {out : List Id} {i : ℕ} {L : List Id} {B : NpMat ℝ} (h : B ∈ homOuter T typ n2 n1 out i L) :
    ∃ a L1 L2 o1 o2 E, L = L1 ++ a :: L2 ∧ out = o1 ++ a :: o2 ∧ E ∈ endoBasis (typ a) (T.size a) ∧
      B = pad n2 n1 (o1.map T.size).sum (i + (L1.map T.size).sum) E := by
  induction L generalizing i with
  | nil => simp [homOuter] at h
  | cons a L ih =>
    rw [homOuter, List.mem_append] at h
    rcases h with h | h
    · obtain ⟨o1, o2, E, h1, h2, h3⟩ := mem_homInner T typ n2 n1 h
      exact ⟨a, [], L, o1, o2, E, rfl, h1, h2, by rw [h3]; simp⟩
    · obtain ⟨b, L1, L2, o1, o2, E, h0, h1, h2, h3⟩ := ih h
      exact ⟨b, a :: L1, L2, o1, o2, E, by simp [h0], h1, h2, by rw [h3]; simp [add_assoc]⟩

/-- The orthogonality of the padded blocks. -/
def Orth (B C : NpMat ℝ) : Prop := B.rows = C.rows ∧ B.cols = C.cols ∧ frob B C = 0

theorem endo_pairwise (t : IrrType) (n : ℕ) (h : t.sizeOk n) : (endoBasis t n).Pairwise Orth := by
  obtain ⟨_, h2, h3⟩ := C18_endo_orthogonal t n h
  rw [List.pairwise_iff_getElem]
  intro k l hk hl hkl
  have s1 := h2 _ (List.getElem_mem hk)
  have s2 := h2 _ (List.getElem_mem hl)
  refine ⟨s1.1.trans s2.1.symm, s1.2.trans s2.2.symm, ?_⟩
  have := h3 k l hk hl
  rw [if_neg (by omega)] at this
  rw [frob, s1.1, s1.2, this]

theorem homInner_pairwise {a : Id} {i j : ℕ} {L : List Id} (ha : (typ a).sizeOk (T.size a))
    (hj : j + (L.map T.size).sum ≤ n2) (hi : i + T.size a ≤ n1) : (homInner T typ n2 n1 a i j L).Pairwise Orth := by
  obtain ⟨_, hs, _⟩ := C18_endo_orthogonal _ _ ha
  induction L generalizing j with
  | nil => simp [homInner]
  | cons b L ih =>
    rw [homInner, List.pairwise_append]
    simp only [List.map_cons, List.sum_cons] at hj
    refine ⟨?_, ih (by omega), ?_⟩
    · split_ifs with hb
      · rw [List.pairwise_map]
        refine (endo_pairwise _ _ ha).imp_of_mem fun {E E'} hE hE' h => ⟨rfl, rfl, ?_⟩
        subst hb
        have := hs E hE; have := hs E' hE'
        rw [frob_pad_same _ _ _ _ _ _ h.1 h.2.1 (by omega) (by omega)]
        exact h.2.2
      · exact List.Pairwise.nil
    · intro B hB C hC
      split_ifs at hB with hb
      · subst hb
        obtain ⟨E, hE, rfl⟩ := List.mem_map.1 hB
        obtain ⟨o1, o2, E', h1, h2, rfl⟩ := mem_homInner T typ n2 n1 hC
        refine ⟨rfl, rfl, frob_pad_disjoint _ _ _ _ _ _ _ _ (.inl ?_)⟩
        have := hs E hE; omega
      · simp at hB

theorem homOuter_pairwise {out : List Id} {i : ℕ} {L : List Id} (hL : ∀ a ∈ L, (typ a).sizeOk (T.size a))
    (hj : (out.map T.size).sum ≤ n2) (hi : i + (L.map T.size).sum ≤ n1) : (homOuter T typ n2 n1 out i L).Pairwise Orth := by
  induction L generalizing i with
  | nil => simp [homOuter]
  | cons a L ih =>
    simp only [List.map_cons, List.sum_cons] at hi
    have ha := hL a (List.mem_cons_self ..)
    obtain ⟨_, hs, _⟩ := C18_endo_orthogonal _ _ ha
    rw [homOuter, List.pairwise_append]
    refine ⟨homInner_pairwise T typ n2 n1 ha (by omega) (by omega), ih (fun b hb => hL b (List.mem_cons_of_mem _ hb)) (by omega), ?_⟩
    intro B hB C hC
    obtain ⟨o1, o2, E, h1, h2, rfl⟩ := mem_homInner T typ n2 n1 hB
    obtain ⟨b, L1, L2, o1', o2', E', h0, h1', h2', rfl⟩ := mem_homOuter T typ n2 n1 hC
    refine ⟨rfl, rfl, frob_pad_disjoint _ _ _ _ _ _ _ _ (.inr (.inr (.inl ?_)))⟩
    have := hs E h2; omega

theorem homOuter_pos {out : List Id} {L : List Id} (hL : ∀ a ∈ L, (typ a).sizeOk (T.size a))
    (hj : (out.map T.size).sum ≤ n2) (hi : (L.map T.size).sum ≤ n1) {B : NpMat ℝ} (hB : B ∈ homOuter T typ n2 n1 out 0 L) :
    frob B B ≠ 0 := by
  obtain ⟨a, L1, L2, o1, o2, E, h0, h1, h2, rfl⟩ := mem_homOuter T typ n2 n1 hB
  have ha := hL a (by rw [h0]; simp)
  obtain ⟨_, hs, h3⟩ := C18_endo_orthogonal _ _ ha
  have hE := hs E h2
  rw [h0] at hi
  rw [h1] at hj
  simp only [List.map_append, List.map_cons, List.sum_append, List.sum_cons] at hi hj
  rw [frob_pad_same _ _ _ _ _ _ rfl rfl (by omega) (by omega)]
  obtain ⟨k, hk, rfl⟩ := List.getElem_of_mem h2
  have := h3 k k hk hk
  rw [if_pos rfl] at this
  rw [frob, hE.1, hE.2, this]
  have : 0 < T.size a := by
    revert ha; cases typ a <;> intro ha
    · exact ha
    · exact ha.1
    · exact ha.1
  positivity

theorem homOuter_length (out : List Id) (i : ℕ) (L : List Id) (hL : ∀ a ∈ L, (typ a).sizeOk (T.size a)) :
    (homOuter T typ n2 n1 out i L).length = (L.map fun a => out.count a * (typ a).sumsq).sum := by
  have inner : ∀ (a : Id) (i j : ℕ) (out : List Id), (typ a).sizeOk (T.size a) →
      (homInner T typ n2 n1 a i j out).length = out.count a * (typ a).sumsq := by
    intro a i j out ha
    induction out generalizing j with
    | nil => simp [homInner]
    | cons b out ih =>
      rw [homInner, List.length_append, ih, List.count_cons]
      by_cases hb : b = a
      · rw [if_pos hb, List.length_map, (C18_endo_orthogonal _ _ ha).1]
        simp [hb]; ring
      · simp [hb]
  induction L generalizing i with
  | nil => simp [homOuter]
  | cons a L ih =>
    rw [homOuter, List.length_append, inner a _ _ _ (hL a (List.mem_cons_self ..)), ih _ fun b hb => hL b (List.mem_cons_of_mem _ hb)]
    simp

/-- Pairwise orthogonal non-zero arrays are linearly independent. -/
theorem indep_of_orth {L : List (NpMat ℝ)} {m n : ℕ} (hs : ∀ B ∈ L, B.rows = m ∧ B.cols = n) (hp : L.Pairwise Orth)
    (hne : ∀ B ∈ L, frob B B ≠ 0) (c : ℕ → ℝ)
    (h : ∀ i < m, ∀ j < n, ∑ k ∈ Finset.range L.length, c k * (L.getD k (zeros 0 0)).get i j = 0) :
    ∀ k < L.length, c k = 0 := by
  intro l hl
  have hB := List.getElem_mem hl
  have key : ∑ k ∈ Finset.range L.length, c k * frob (L.getD k (zeros 0 0)) L[l] = 0 := by
    have e : ∀ k ∈ Finset.range L.length, c k * frob (L.getD k (zeros 0 0)) L[l] =
        ∑ i ∈ Finset.range m, ∑ j ∈ Finset.range n, c k * (L.getD k (zeros 0 0)).get i j * L[l].get i j := by
      intro k hk
      rw [Finset.mem_range] at hk
      have : L.getD k (zeros 0 0) ∈ L := by rw [List.getD_eq_getElem _ _ hk]; exact List.getElem_mem hk
      rw [frob, (hs _ this).1, (hs _ this).2, Finset.mul_sum]
      refine Finset.sum_congr rfl fun i _ => ?_
      rw [Finset.mul_sum]
      refine Finset.sum_congr rfl fun j _ => by ring
    rw [Finset.sum_congr rfl e, Finset.sum_comm]
    refine Finset.sum_eq_zero fun i hi => ?_
    rw [Finset.sum_comm]
    refine Finset.sum_eq_zero fun j hj => ?_
    rw [← Finset.sum_mul, h i (Finset.mem_range.1 hi) j (Finset.mem_range.1 hj), zero_mul]
  rw [Finset.sum_eq_single l] at key
  · rw [List.getD_eq_getElem _ _ hl] at key
    exact (mul_eq_zero.1 key).resolve_right (hne _ hB)
  · intro k hk hkl
    rw [Finset.mem_range] at hk
    rw [List.getD_eq_getElem _ _ hk]
    rw [List.pairwise_iff_getElem] at hp
    rcases lt_or_gt_of_ne hkl with hlt | hlt
    · rw [(hp k l hk hl hlt).2.2, mul_zero]
    · have := hp l k hl hk hlt
      rw [frob_comm _ _ this.1.symm this.2.1.symm, this.2.2, mul_zero]
  · intro hh; exact absurd (Finset.mem_range.2 hl) hh

end

/-- **C18** `homomorphism_space(rho1, rho2)` (and, for `rho1 = rho2`, `Representation.endomorphism_basis`): every matrix
intertwines the two representations, the number of matrices is `∑ sum_of_squares_constituents` over the pairs of equal irreps, and
they are linearly independent. -/
theorem C18_homomorphism_space [DecidableEq Id] {T : IrrepTable G Id} {typ : Id → IrrType} {El : G → Prop} {op : G → G → G} {one : G}
    (hT : T.Valid El op one) (hE : EndoValid T typ El) (r1 r2 : Rep G Id) (h1 : r1.WF T El) (h2 : r2.WF T El) :
    (∀ B ∈ homSpace T typ r1 r2, B.rows = r2.size ∧ B.cols = r1.size ∧
      ∀ g, El g → mul (r2.mat g) B ≈ mul B (r1.mat g)) ∧
    (homSpace T typ r1 r2).length = (r1.irreps.map fun a => r2.irreps.count a * (typ a).sumsq).sum ∧
    ∀ c : ℕ → ℝ, (∀ i < r2.size, ∀ j < r1.size,
      ∑ k ∈ Finset.range (homSpace T typ r1 r2).length, c k * ((homSpace T typ r1 r2).getD k (zeros 0 0)).get i j = 0) →
      ∀ k < (homSpace T typ r1 r2).length, c k = 0 := by
  have hL : ∀ a ∈ r1.irreps, (typ a).sizeOk (T.size a) := fun a ha => (hE a (h1.ok a ha)).1
  have hshape : ∀ B ∈ homOuter T typ r2.size r1.size r2.irreps 0 r1.irreps, B.rows = r2.size ∧ B.cols = r1.size := by
    intro B hB
    obtain ⟨a, L1, L2, o1, o2, E, _, _, _, rfl⟩ := mem_homOuter T typ _ _ hB
    exact ⟨rfl, rfl⟩
  refine ⟨?_, ?_, ?_⟩
  · intro B hB
    obtain ⟨C, hC, rfl⟩ := List.mem_map.1 hB
    have hCs := hshape C hC
    refine ⟨h2.cob_rows, h1.inv_cols, fun g hg => ?_⟩
    -- the block commutes with the block diagonals
    have hcomm : mul (blockDiag (r2.irreps.map fun i => T.mat i g)) C ≈ mul C (blockDiag (r1.irreps.map fun i => T.mat i g)) := by
      obtain ⟨a, L1, L2, o1, o2, E, e1, e2, hEm, rfl⟩ := mem_homOuter T typ _ _ hC
      have hok1 : ∀ i ∈ L1 ++ a :: L2, T.ok i = true := fun i hi => h1.ok i (e1 ▸ hi)
      have hok2 : ∀ i ∈ o1 ++ a :: o2, T.ok i = true := fun i hi => h2.ok i (e2 ▸ hi)
      have ha : T.ok a = true := hok1 a (by simp)
      have sa := hT a ha
      have sE := (C18_endo_orthogonal _ _ (hE a ha).1).2.1 E hEm
      have d1 : blockDiag ((L1 ++ a :: L2).map fun i => T.mat i g) ≈
          diag2 (blockDiag (L1.map fun i => T.mat i g)) (diag2 (T.mat a g) (blockDiag (L2.map fun i => T.mat i g))) := by
        rw [List.map_append]; exact blockDiag_append _ _
      have d2 : blockDiag ((o1 ++ a :: o2).map fun i => T.mat i g) ≈
          diag2 (blockDiag (o1.map fun i => T.mat i g)) (diag2 (T.mat a g) (blockDiag (o2.map fun i => T.mat i g))) := by
        rw [List.map_append]; exact blockDiag_append _ _
      have rL1 := irrepsBlock_rows hT (L := L1) (fun i hi => hok1 i (by simp [hi])) hg
      have cL1 := irrepsBlock_cols hT (L := L1) (fun i hi => hok1 i (by simp [hi])) hg
      have rL2 := irrepsBlock_rows hT (L := L2) (fun i hi => hok1 i (by simp [hi])) hg
      have cL2 := irrepsBlock_cols hT (L := L2) (fun i hi => hok1 i (by simp [hi])) hg
      have ro1 := irrepsBlock_rows hT (L := o1) (fun i hi => hok2 i (by simp [hi])) hg
      have co1 := irrepsBlock_cols hT (L := o1) (fun i hi => hok2 i (by simp [hi])) hg
      have ro2 := irrepsBlock_rows hT (L := o2) (fun i hi => hok2 i (by simp [hi])) hg
      have co2 := irrepsBlock_cols hT (L := o2) (fun i hi => hok2 i (by simp [hi])) hg
      have s1 := h1.size
      have s2 := h2.size
      rw [e1, List.map_append, List.sum_append, List.map_cons, List.sum_cons] at s1
      rw [e2, List.map_append, List.sum_append, List.map_cons, List.sum_cons] at s2
      rw [e1, e2, zero_add]
      have l := mul_pad_left (blockDiag (o1.map fun i => T.mat i g)) (T.mat a g) (blockDiag (o2.map fun i => T.mat i g))
        r1.size (L1.map T.size).sum E (ro1.trans co1.symm) ((sa.rows g hg).trans (sa.cols g hg).symm) (sE.1.trans (sa.rows g hg).symm)
      have r := mul_pad_right (blockDiag (L1.map fun i => T.mat i g)) (T.mat a g) (blockDiag (L2.map fun i => T.mat i g))
        r2.size (o1.map T.size).sum E (rL1.trans cL1.symm) ((sa.rows g hg).trans (sa.cols g hg).symm) (rL2.trans cL2.symm)
        (sE.2.trans (sa.rows g hg).symm)
      rw [ro1, sa.rows g hg, ro2, s2] at l
      rw [rL1, sa.rows g hg, rL2, s1] at r
      refine (mul_congr_left _ d2 ?_).trans (l.trans ((pad_congr _ _ _ _ ((hE a ha).2 E hEm g hg)).trans (r.symm.trans
        (mul_congr_right _ d1 ?_).symm)))
      · rw [d2.2.1]; simp only [diag2_cols, pad_rows]; rw [co1, sa.cols g hg, co2, s2]
      · rw [d1.1]; simp only [diag2_rows, pad_cols]; rw [rL1, sa.rows g hg, rL2, s1]
    -- conjugate
    set X := blockDiag (r2.irreps.map fun i => T.mat i g)
    set Y := blockDiag (r1.irreps.map fun i => T.mat i g)
    have hX1 : X.rows = r2.size := (irrepsBlock_rows hT h2.ok hg).trans h2.size
    have hX2 : X.cols = r2.size := (irrepsBlock_cols hT h2.ok hg).trans h2.size
    have hY1 : Y.rows = r1.size := (irrepsBlock_rows hT h1.ok hg).trans h1.size
    have hY2 : Y.cols = r1.size := (irrepsBlock_cols hT h1.ok hg).trans h1.size
    have step : ∀ (P X R C S : NpMat ℝ), P.cols = X.rows → X.cols = R.rows → R.rows = P.cols → R.cols = P.rows → C.rows = X.cols → C.cols = S.rows →
        mul R P ≈ eye P.cols → mul (mul (mul P X) R) (mul (mul P C) S) ≈ mul (mul P (mul X C)) S := by
      intro P X R C S q1 q2 q3 q4 q5 q6 hinv
      have a1 : mul (mul (mul P X) R) (mul (mul P C) S) ≈ mul (mul (mul (mul P X) R) (mul P C)) S := (mul_assoc' _ _ _).symm
      refine a1.trans (mul_congr_left S ?_ q6)
      refine (mul_assoc' _ _ _).trans ?_
      have a2 : mul R (mul P C) ≈ C := by
        refine (mul_assoc' _ _ _).symm.trans ((mul_congr_left C hinv ?_).trans (eye_mul' C ?_))
        · simp; omega
        · omega
      exact (mul_congr_right _ a2 (by simp; omega)).trans (mul_assoc' _ _ _)
    have step' : ∀ (P C S Y Q : NpMat ℝ), C.cols = S.rows → S.cols = Q.rows → Q.cols = Y.rows → S.rows = Y.rows → 
        mul S Q ≈ eye S.rows → ∀ R, Y.cols = R.rows → mul (mul (mul P C) S) (mul (mul Q Y) R) ≈ mul (mul P (mul C Y)) R := by
      intro P C S Y Q q1 q2 q3 q4 hinv R q5
      have a1 : mul (mul (mul P C) S) (mul (mul Q Y) R) ≈ mul (mul (mul (mul P C) S) (mul Q Y)) R := (mul_assoc' _ _ _).symm
      refine a1.trans (mul_congr_left R ?_ (by simpa using q5))
      refine (mul_assoc' _ _ _).trans ?_
      have a2 : mul S (mul Q Y) ≈ Y := by
        refine (mul_assoc' _ _ _).symm.trans ((mul_congr_left Y hinv ?_).trans (eye_mul' Y ?_))
        · simp; omega
        · omega
      exact (mul_congr_right _ a2 (by simp; omega)).trans (mul_assoc' _ _ _)
    have hr2 := h2.cob_rows; have hc2 := h2.cob_cols; have hir2 := h2.inv_rows; have hic2 := h2.inv_cols
    have hr1 := h1.cob_rows; have hc1 := h1.cob_cols; have hir1 := h1.inv_rows; have hic1 := h1.inv_cols
    have i2 := h2.inv.2.2.2.2
    have i1 := h1.inv.2.2.2.2
    refine (mul_congr_left _ (h2.mat g hg) ?_).trans ?_
    · rw [h2.cols hg]; exact hr2.symm
    refine (step r2.cob X r2.cobInv C r1.cobInv (by omega) (by omega) (by omega) (by omega) (by omega) (by omega) ?_).trans ?_
    · rw [hc2]; rw [hr2] at i2; exact i2
    refine Eqv.trans ?_ (mul_congr_right _ (h1.mat g hg) ?_).symm
    · refine Eqv.trans ?_ (step' r2.cob C r1.cobInv Y r1.cob (by omega) (by omega) (by omega) (by omega) ?_ r1.cobInv (by omega)).symm
      · refine mul_congr_left _ (mul_congr_right _ hcomm ?_) ?_
        · simp; omega
        · simp; omega
      · rw [hir1]; rw [hr1] at i1; exact i1
    · simp only [mul_cols]; rw [hic1, h1.rows hg]
  · rw [homSpace, List.length_map, homOuter_length T typ _ _ _ _ _ hL]
  · intro c hc
    rw [homSpace, List.length_map] at hc ⊢
    set L := homOuter T typ r2.size r1.size r2.irreps 0 r1.irreps with hLdef
    refine indep_of_orth hshape (homOuter_pairwise T typ _ _ hL h2.size.le (by rw [zero_add]; exact h1.size.le))
      (fun B hB => homOuter_pos T typ _ _ hL h2.size.le h1.size.le hB) c ?_
    -- undo the change of basis
    let M : NpMat ℝ := ⟨r2.size, r1.size, fun i j => ∑ k ∈ Finset.range L.length, c k * (L.getD k (zeros 0 0)).get i j⟩
    have hM : mul (mul r2.cob M) r1.cobInv ≈ zeros r2.size r1.size := by
      refine ⟨h2.cob_rows, h1.inv_cols, fun i j hi hj => ?_⟩
      have hi' : i < r2.size := hi
      have hj' : j < r1.size := h1.inv_cols ▸ hj
      rw [show (zeros r2.size r1.size : NpMat ℝ).get i j = 0 from rfl, ← hc i hi' j hj']
      have e : ∀ k ∈ Finset.range L.length,
          c k * ((L.map fun B => mul (mul r2.cob B) r1.cobInv).getD k (zeros 0 0)).get i j =
          ∑ y ∈ Finset.range r1.size, ∑ x ∈ Finset.range r2.cob.cols, c k * (r2.cob.get i x * (L.getD k (zeros 0 0)).get x y * r1.cobInv.get y j) := by
        intro k hk
        rw [Finset.mem_range] at hk
        rw [List.getD_eq_getElem _ _ (by simpa using hk), List.getElem_map, List.getD_eq_getElem _ _ hk]
        have hs := (hshape _ (List.getElem_mem hk)).2
        simp only [mul, hs, Finset.sum_mul, Finset.mul_sum]
      rw [Finset.sum_congr rfl e, Finset.sum_comm]
      simp only [mul, M, Finset.mul_sum, Finset.sum_mul]
      refine Finset.sum_congr rfl fun y _ => ?_
      rw [Finset.sum_comm]
      refine Finset.sum_congr rfl fun k _ => Finset.sum_congr rfl fun x _ => by ring
    have hr2 := h2.cob_rows; have hc2 := h2.cob_cols; have hir2 := h2.inv_rows; have hic2 := h2.inv_cols
    have hr1 := h1.cob_rows; have hc1 := h1.cob_cols; have hir1 := h1.inv_rows; have hic1 := h1.inv_cols
    have hMr : M.rows = r2.size := rfl
    have hMc : M.cols = r1.size := rfl
    have i2 := h2.inv.2.2.2.2
    have i1 := h1.inv.2.2.2.2
    have back : M ≈ mul (mul r2.cobInv (mul (mul r2.cob M) r1.cobInv)) r1.cob := by
      have b1 : mul (mul (mul r2.cob M) r1.cobInv) r1.cob ≈ mul r2.cob M := by
        refine (mul_assoc' _ _ _).trans ((mul_congr_right _ i1 ?_).trans (mul_eye' _ ?_))
        · simp; omega
        · simp; omega
      have b2 : mul r2.cobInv (mul r2.cob M) ≈ M := by
        refine (mul_assoc' _ _ _).symm.trans ((mul_congr_left _ i2 ?_).trans (eye_mul' _ ?_))
        · simp; omega
        · omega
      refine b2.symm.trans ((mul_congr_right _ b1.symm ?_).trans (mul_assoc' _ _ _).symm)
      simp; omega
    have hz : mul (mul r2.cobInv (mul (mul r2.cob M) r1.cobInv)) r1.cob ≈ zeros r2.size r1.size := by
      refine (mul_congr_left _ (mul_congr_right _ hM ?_) ?_).trans ?_
      · simp; omega
      · simp; omega
      · refine ⟨by simp; omega, by simp; omega, fun i j _ _ => ?_⟩
        simp [mul, zeros]
    intro i hi j hj
    exact (back.trans hz).2.2 i j hi hj

/-- The hypotheses hold for all representations built by the library over `C_N`; e.g. the direct sum `irrep(1) ⊕ irrep(1)` of
`C_5`, whose endomorphism space has dimension 8. -/
example : ∃ r, mkRep (Cyclic.table 5) [] "r" [1, 1] (eye 4) ∅ none = .ok r ∧
    (homSpace (Cyclic.table 5) (Cyclic.irrepType 5) r r).length = 8 := by
  obtain ⟨r, h, hwf, -, hi, -⟩ := C14_constructor (Cyclic.table_valid 5 (by norm_num)) [] "r" [1, 1] (eye 4) (eye 4) ∅ (by simp)
    (by simp) (IsInv.eye 4) (by simp [Cyclic.table]) (by simp [Cyclic.table, Cyclic.irrepSize]) false
  refine ⟨r, h, ?_⟩
  rw [(C18_homomorphism_space (Cyclic.table_valid 5 (by norm_num)) (Cyclic.C18_cyclic 5 (by norm_num)).1 r r hwf hwf).2.1, hi]
  decide

end Escnn
