import Verif.Model.Generators
import Verif.Spec.FinGroup
import Verif.Spec.Rep
import Verif.Lemmas.MatAlg
import Verif.Props.C16_Regular
import Mathlib.Data.List.Perm.Subperm

/-!
# C20 — irreps from generators
-/

namespace Escnn

open NpMat

variable {G : Type} [DecidableEq G] {els : List G} {op : G → G → G} {inv : G → G} {one : G}

/-- The values of the dictionary agree with `ψ`. -/
def Agrees (els : List G) (ψ : G → NpMat ℝ) (rho : G → Option (NpMat ℝ)) : Prop := ∀ x M, rho x = some M → x ∈ els ∧ M ≈ ψ x

theorem mem_setAdd {s : List G} {x y : G} : y ∈ setAdd s x ↔ y ∈ s ∨ y = x := by
  unfold setAdd
  split_ifs with h
  · exact ⟨.inl, fun h' => h'.elim id fun e => e ▸ h⟩
  · simp

theorem setAdd_nodup {s : List G} (h : s.Nodup) (x : G) : (setAdd s x).Nodup := by
  unfold setAdd
  split_ifs with hx
  · exact h
  · exact List.nodup_append.2 ⟨h, by simp, by rintro a ha b hb rfl; simp at hb; exact hx (hb ▸ ha)⟩

theorem dictSet_isSome {V : Type} {d : G → Option V} {k x : G} {v : V} (h : (d x).isSome) : (dictSet d k v x).isSome := by
  unfold dictSet; split_ifs <;> simp [h]

theorem ortho_transpose {d : ℕ} {ψ : G → NpMat ℝ} (hG : FinGroup els op inv one) (hψ : OrthoRep (· ∈ els) op one d ψ) {g : G}
    (hg : g ∈ els) : transpose (ψ g) ≈ ψ (inv g) := by
  have hi := hG.inv_mem g hg
  have e1 : mul (ψ g) (ψ (inv g)) ≈ eye d :=
    (hψ.map_mul g _ hg hi).symm.trans ((Eqv.of_eq (by rw [hG.mul_inv g hg])).trans hψ.map_one)
  have ho := hψ.ortho g hg
  have hr := hψ.rows g hg; have hc := hψ.cols g hg
  have hi1 : IsInv (ψ g) (transpose (ψ g)) := IsInv.of_ortho ho
  have e2 := mul_eye_comm hr hc (hψ.rows _ hi) (hψ.cols _ hi) e1
  have hi2 : IsInv (ψ g) (ψ (inv g)) :=
    ⟨hr.trans hc.symm, by rw [hψ.rows _ hi, hr], by rw [hψ.cols _ hi, hr], by rw [hr]; exact e1, by rw [hr]; exact e2⟩
  exact hi1.unique hi2

section
variable {d : ℕ} {ψ : G → NpMat ℝ}

theorem setMissing_ok (hG : FinGroup els op inv one) (hψ : OrthoRep (· ∈ els) op one d ψ) {rho : G → Option (NpMat ℝ)}
    (ha : Agrees els ψ rho) {g e : G} (hg : (rho g).isSome) (he : (rho e).isSome) (tr : Bool) :
    ∃ rho', setMissing rho (op (if tr then inv g else g) e) g e tr = .ok rho' ∧ Agrees els ψ rho' ∧
      (∀ x, (rho x).isSome → rho' x = rho x) ∧ (rho' (op (if tr then inv g else g) e)).isSome := by
  unfold setMissing
  by_cases h : (rho (op (if tr = true then inv g else g) e)).isSome = true
  · rw [if_pos h]
    exact ⟨rho, rfl, ha, fun _ _ => rfl, h⟩
  · rw [if_neg h]
    obtain ⟨A, hA⟩ := Option.isSome_iff_exists.1 hg
    obtain ⟨B, hB⟩ := Option.isSome_iff_exists.1 he
    obtain ⟨gm, gA⟩ := ha g A hA
    obtain ⟨em, eB⟩ := ha e B hB
    rw [hA, hB]
    refine ⟨_, rfl, ?_, ?_, by simp [dictSet]⟩
    · intro x M hx
      unfold dictSet at hx
      by_cases hxk : x = op (if tr then inv g else g) e
      · rw [if_pos hxk] at hx
        cases hx
        subst hxk
        have gm' : (if tr then inv g else g) ∈ els := by cases tr <;> simp [gm, hG.inv_mem g gm]
        refine ⟨hG.mul_mem _ gm' _ em, ?_⟩
        refine (mul_congr ?_ eB ?_).trans (hψ.map_mul _ e gm' em).symm
        · cases tr
          · exact gA
          · exact (transpose_congr gA).trans (ortho_transpose hG hψ gm)
        · rw [eB.1, hψ.rows e em]
          cases tr
          · show A.cols = d
            rw [gA.2.1, hψ.cols g gm]
          · show A.rows = d
            rw [gA.1, hψ.rows g gm]
      · rw [if_neg hxk] at hx
        exact ha x M hx
    · intro x hx
      unfold dictSet
      rw [if_neg]
      rintro rfl
      exact h hx

theorem bfsRound_ok (hG : FinGroup els op inv one) (hψ : OrthoRep (· ∈ els) op one d ψ) (L : List (G × G)) {rho : G → Option (NpMat ℝ)}
    (ha : Agrees els ψ rho) (hL : ∀ p ∈ L, (rho p.1).isSome ∧ (rho p.2).isSome) (new : List G)
    (hnew : ∀ x ∈ new, (rho x).isSome) (hnd : new.Nodup) :
    ∃ rho' new', bfsRound op inv L rho new = .ok (rho', new') ∧ Agrees els ψ rho' ∧ (∀ x, (rho x).isSome → rho' x = rho x) ∧
      (∀ x, x ∈ new' ↔ x ∈ new ∨ ∃ p ∈ L, x = op p.1 p.2 ∨ x = op (inv p.1) p.2) ∧ new'.Nodup ∧ ∀ x ∈ new', (rho' x).isSome := by
  induction L generalizing rho new with
  | nil => exact ⟨rho, new, rfl, ha, fun _ _ => rfl, by simp, hnd, hnew⟩
  | cons p L ih =>
    obtain ⟨g, e⟩ := p
    obtain ⟨hg, he⟩ := hL (g, e) (List.mem_cons_self ..)
    obtain ⟨rho1, e1, a1, s1, m1⟩ := setMissing_ok hG hψ ha hg he false
    obtain ⟨rho2, e2, a2, s2, m2⟩ := setMissing_ok hG hψ a1 (g := g) (e := e) (by rw [s1 g hg]; exact hg) (by rw [s1 e he]; exact he) true
    simp only [Bool.false_eq_true, if_false] at e1 m1
    simp only [if_true] at e2 m2
    have s12 : ∀ x, (rho x).isSome → rho2 x = rho x := fun x hx => (s2 x (by rw [s1 x hx]; exact hx)).trans (s1 x hx)
    obtain ⟨rho', new', e3, a3, s3, mem3, nd3, ok3⟩ := ih a2 (fun p hp => by
        obtain ⟨h1, h2⟩ := hL p (List.mem_cons_of_mem _ hp)
        exact ⟨by rw [s12 _ h1]; exact h1, by rw [s12 _ h2]; exact h2⟩) (setAdd (setAdd new (op g e)) (op (inv g) e)) (by
        intro x hx
        rw [mem_setAdd, mem_setAdd] at hx
        rcases hx with (hx | rfl) | rfl
        · have := hnew x hx; rw [s12 x this]; exact this
        · rw [s2 _ m1]; exact m1
        · exact m2) (setAdd_nodup (setAdd_nodup hnd _) _)
    refine ⟨rho', new', ?_, a3, fun x hx => ?_, fun x => ?_, nd3, ok3⟩
    · simp only [bfsRound, e1, e2, e3]
    · rw [s3 x (by rw [s12 x hx]; exact hx), s12 x hx]
    · rw [mem3, mem_setAdd, mem_setAdd]
      constructor
      · rintro (((h | h) | h) | ⟨p, hp, h⟩)
        · exact .inl h
        · exact .inr ⟨(g, e), List.mem_cons_self .., .inl h⟩
        · exact .inr ⟨(g, e), List.mem_cons_self .., .inr h⟩
        · exact .inr ⟨p, List.mem_cons_of_mem _ hp, h⟩
      · rintro (h | ⟨p, hp, h⟩)
        · exact .inl (.inl (.inl h))
        · rcases List.mem_cons.1 hp with rfl | hp
          · rcases h with h | h
            · exact .inl (.inl (.inr h))
            · exact .inl (.inr h)
          · exact .inr ⟨p, hp, h⟩

/-- The loop terminates within `|G|` iterations, and its result is closed under the generators and their inverses. -/
theorem bfsLoop_ok (hG : FinGroup els op inv one) (hψ : OrthoRep (· ∈ els) op one d ψ) (gens : List G) (ord : List G → List G)
    (hord : ∀ L, (ord L).Perm L) (fuel : ℕ) (elements added : List G) {rho : G → Option (NpMat ℝ)}
    (ha : Agrees els ψ rho) (hgens : ∀ g ∈ gens, (rho g).isSome) (hel : ∀ x ∈ elements, (rho x).isSome) (hnd : elements.Nodup)
    (hadd : ∀ x ∈ added, x ∈ elements)
    (hclosed : ∀ x ∈ elements, x ∉ added → ∀ g ∈ gens, op g x ∈ elements ∧ op (inv g) x ∈ elements)
    (hfuel : els.length + 2 ≤ fuel + elements.length ∨ added = [] ∧ 0 < fuel) :
    ∃ elements' rho', bfsLoop op inv gens ord fuel elements added rho = .ok (elements', rho') ∧ Agrees els ψ rho' ∧
      elements'.Nodup ∧ (∀ x ∈ elements, x ∈ elements') ∧ (∀ x ∈ elements', (rho' x).isSome) ∧
      (∀ x, (rho x).isSome → rho' x = rho x) ∧ ∀ x ∈ elements', ∀ g ∈ gens, op g x ∈ elements' ∧ op (inv g) x ∈ elements' := by
  induction fuel generalizing elements added rho with
  | zero =>
    have : elements.length ≤ els.length := (hnd.subperm fun x hx => by
      obtain ⟨M, hM⟩ := Option.isSome_iff_exists.1 (hel x hx)
      exact (ha x M hM).1).length_le
    omega
  | succ n ih =>
    unfold bfsLoop
    split_ifs with h0
    · exact ⟨elements, rho, rfl, ha, hnd, fun _ h => h, hel, fun _ _ => rfl, fun x hx g hg => hclosed x hx (by simp [h0]) g hg⟩
    · obtain ⟨rho', new, e1, a1, s1, mem1, nd1, ok1⟩ := bfsRound_ok hG hψ (gens.flatMap fun g => (ord added).map fun e => (g, e)) ha
        (by
          intro p hp
          obtain ⟨g, hg, hp⟩ := List.mem_flatMap.1 hp
          obtain ⟨e, he, rfl⟩ := List.mem_map.1 hp
          exact ⟨hgens g hg, hel e (hadd e ((hord added).mem_iff.1 he))⟩) [] (by simp) List.nodup_nil
      rw [e1]
      simp only
      have memnew : ∀ x, x ∈ new ↔ ∃ g ∈ gens, ∃ e ∈ added, x = op g e ∨ x = op (inv g) e := by
        intro x
        rw [mem1]
        constructor
        · rintro (h | ⟨p, hp, h⟩)
          · simp at h
          · obtain ⟨g, hg, hp⟩ := List.mem_flatMap.1 hp
            obtain ⟨e, he, rfl⟩ := List.mem_map.1 hp
            exact ⟨g, hg, e, (hord added).mem_iff.1 he, h⟩
        · rintro ⟨g, hg, e, he, h⟩
          exact .inr ⟨(g, e), List.mem_flatMap.2 ⟨g, hg, List.mem_map.2 ⟨e, (hord added).mem_iff.2 he, rfl⟩⟩, h⟩
      obtain ⟨E, r, h1, h2, h3, h4, h5, h6, h7⟩ := ih (elements ++ new.filter fun x => x ∉ elements) (new.filter fun x => x ∉ elements) a1
        (fun g hg => by rw [s1 g (hgens g hg)]; exact hgens g hg)
        (fun x hx => by
          rcases List.mem_append.1 hx with hx | hx
          · rw [s1 x (hel x hx)]; exact hel x hx
          · exact ok1 x (List.mem_of_mem_filter hx))
        (List.nodup_append.2 ⟨hnd, nd1.filter _, by
          rintro a ha b hb rfl
          simp only [List.mem_filter, decide_eq_true_eq] at hb
          exact hb.2 ha⟩)
        (fun x hx => List.mem_append_right _ hx)
        (fun x hx hxn g hg => by
          have hxe : x ∈ elements := (List.mem_append.1 hx).resolve_right hxn
          have key : ∀ y, y ∈ elements ∨ y ∈ new → y ∈ elements ++ new.filter fun x => x ∉ elements := by
            intro y hy
            by_cases hye : y ∈ elements
            · exact List.mem_append_left _ hye
            · refine List.mem_append_right _ (List.mem_filter.2 ⟨hy.resolve_left hye, by simpa using hye⟩)
          by_cases hxa : x ∈ added
          · exact ⟨key _ (.inr ((memnew _).2 ⟨g, hg, x, hxa, .inl rfl⟩)), key _ (.inr ((memnew _).2 ⟨g, hg, x, hxa, .inr rfl⟩))⟩
          · obtain ⟨k1, k2⟩ := hclosed x hxe hxa g hg
            exact ⟨key _ (.inl k1), key _ (.inl k2)⟩)
        (by
          rcases hfuel with hf | ⟨hf, _⟩
          · by_cases hnil : new.filter (fun x => x ∉ elements) = []
            · right
              refine ⟨hnil, ?_⟩
              have : elements.length ≤ els.length := (hnd.subperm fun x hx => by
                obtain ⟨M, hM⟩ := Option.isSome_iff_exists.1 (hel x hx)
                exact (ha x M hM).1).length_le
              omega
            · left
              have := List.length_pos_of_ne_nil hnil
              rw [List.length_append]
              omega
          · exact absurd hf h0)
      exact ⟨E, r, h1, h2, h3, fun x hx => h4 x (List.mem_append_left _ hx), h5,
        fun x hx => (h6 x (by rw [s1 x hx]; exact hx)).trans (s1 x hx), h7⟩

theorem initDict_agrees {els : List G} (gens : List (G × NpMat ℝ)) (h1 : one ∈ els) (hone : ψ one ≈ eye d)
    (hg : ∀ p ∈ gens, p.1 ∈ els ∧ p.2 ≈ ψ p.1) :
    Agrees els ψ (initDict gens one d) ∧ (∀ p ∈ gens, (initDict gens one d p.1).isSome) ∧ (initDict gens one d one).isSome := by
  have key : ∀ (L : List (G × NpMat ℝ)) (rho : G → Option (NpMat ℝ)), Agrees els ψ rho → (∀ p ∈ L, p.1 ∈ els ∧ p.2 ≈ ψ p.1) →
      Agrees els ψ (L.foldl (fun rho p => dictSet rho p.1 p.2) rho) ∧
      (∀ x, ((rho x).isSome ∨ ∃ p ∈ L, p.1 = x) → (L.foldl (fun rho p => dictSet rho p.1 p.2) rho x).isSome) := by
    intro L
    induction L with
    | nil => intro rho ha _; exact ⟨ha, fun x hx => hx.resolve_right (by simp)⟩
    | cons p L ih =>
      intro rho ha hL
      have hp := hL p (List.mem_cons_self ..)
      obtain ⟨i1, i2⟩ := ih (dictSet rho p.1 p.2) (by
        intro x M hx
        unfold dictSet at hx
        split_ifs at hx with h
        · cases hx; rw [h]; exact hp
        · exact ha x M hx) (fun q hq => hL q (List.mem_cons_of_mem _ hq))
      refine ⟨i1, fun x hx => i2 x ?_⟩
      rcases hx with hx | ⟨q, hq, rfl⟩
      · exact .inl (dictSet_isSome hx)
      · rcases List.mem_cons.1 hq with rfl | hq
        · left; simp [dictSet]
        · exact .inr ⟨q, hq, rfl⟩
  obtain ⟨k1, k2⟩ := key gens (fun _ => none) (by intro x M h; cases h) hg
  refine ⟨?_, fun p hp => dictSet_isSome (k2 p.1 (.inr ⟨p, hp, rfl⟩)), by simp [initDict, dictSet]⟩
  intro x M hx
  unfold initDict dictSet at hx
  split_ifs at hx with h
  · cases hx; rw [h]; exact ⟨h1, hone.symm⟩
  · exact k1 x M hx

/-- **C20** If the images of the generators are those of a representation `ψ` and the generators generate the group, then for every
iteration order of the sets the procedure terminates without any assertion failing, and the matrix assigned to every element of the
group is `ψ` of it. -/
theorem C20_generators_complete (hG : FinGroup els op inv one) (hψ : OrthoRep (· ∈ els) op one d ψ) (gens : List (G × NpMat ℝ))
    (hne : gens ≠ []) (hg : ∀ p ∈ gens, p.1 ∈ els ∧ p.2 ≈ ψ p.1)
    (hgen : ∀ S : G → Prop, S one → (∀ x, S x → ∀ p ∈ gens, S (op p.1 x) ∧ S (op (inv p.1) x)) → ∀ x ∈ els, S x)
    (ord : List G → List G) (hord : ∀ L, (ord L).Perm L) (fuel : ℕ) (hfuel : els.length + 1 ≤ fuel) :
    ∃ rho, generateIrrep op inv one els.length ord fuel gens = .ok rho ∧ ∀ x ∈ els, ∃ M, rho x = some M ∧ M ≈ ψ x := by
  obtain ⟨p, gens', rfl⟩ := List.exists_cons_of_ne_nil hne
  have hshape : ∀ q ∈ p :: gens', q.2.rows = d ∧ q.2.cols = d := fun q hq =>
    ⟨(hg q hq).2.1.trans (hψ.rows _ (hg q hq).1), (hg q hq).2.2.1.trans (hψ.cols _ (hg q hq).1)⟩
  have hd : p.2.rows = d := (hshape p (List.mem_cons_self ..)).1
  obtain ⟨a1, a2, a3⟩ := initDict_agrees (p :: gens') hG.one_mem hψ.map_one hg
  obtain ⟨E, rho, e1, e2, e3, e4, e5, e6, e7⟩ := bfsLoop_ok hG hψ ((p :: gens').map Prod.fst) ord hord fuel [one] [one] a1
    (fun g hg' => by obtain ⟨q, hq, rfl⟩ := List.mem_map.1 hg'; exact a2 q hq) (by simpa using a3) (by simp) (by simp) (by simp)
    (by left; simp; omega)
  have hEsub : ∀ x ∈ E, x ∈ els := fun x hx => by
    obtain ⟨M, hM⟩ := Option.isSome_iff_exists.1 (e5 x hx)
    exact (e2 x M hM).1
  have hall : ∀ x ∈ els, x ∈ E := hgen (· ∈ E) (e4 one (by simp)) fun x hx q hq =>
    e7 x hx q.1 (List.mem_map.2 ⟨q, hq, rfl⟩)
  have hlen : E.length = els.length := le_antisymm (e3.subperm hEsub).length_le (hG.nodup.subperm hall).length_le
  have val : ∀ x ∈ els, ∃ M, rho x = some M ∧ M ≈ ψ x := by
    intro x hx
    obtain ⟨M, hM⟩ := Option.isSome_iff_exists.1 (e5 x (hall x hx))
    exact ⟨M, hM, (e2 x M hM).2⟩
  refine ⟨rho, ?_, val⟩
  unfold generateIrrep
  have h0 : els.length ≠ 0 := (hG.length_pos).ne'
  rw [if_neg h0]
  simp only
  rw [if_neg, hd, e1]
  · simp only
    rw [if_neg (not_not.2 hlen), if_neg]
    rw [not_not]
    intro a ha
    have ha' := hEsub a ha
    have hia := hG.inv_mem a ha'
    obtain ⟨A, hA, hA'⟩ := val a ha'
    obtain ⟨B, hB, hB'⟩ := val _ hia
    refine ⟨hall _ hia, ⟨A, B, hA, hB, hB'.trans ((ortho_transpose hG hψ ha').symm.trans (transpose_congr hA'.symm))⟩, fun b hb => ?_⟩
    have hb' := hEsub b hb
    have hab := hG.mul_mem a ha' b hb'
    obtain ⟨B, hB, hB'⟩ := val b hb'
    obtain ⟨C, hC, hC'⟩ := val _ hab
    refine ⟨hall _ hab, A, B, C, hA, hB, hC, (mul_congr hA' hB' ?_).trans ((hψ.map_mul a b ha' hb').symm.trans hC'.symm)⟩
    rw [hA'.2.1, hB'.1, hψ.cols a ha', hψ.rows b hb']
  · rw [not_not, List.all_eq_true]
    intro q hq
    rw [decide_eq_true_eq, hd]
    exact hshape q hq

/-! ### soundness -/

theorem setMissing_inv {rho rho' : G → Option (NpMat ℝ)} {key g e : G} {tr : Bool} (h : setMissing rho key g e tr = .ok rho') :
    ∀ x, (rho x).isSome → rho' x = rho x := by
  unfold setMissing at h
  split at h
  · cases h; exact fun _ _ => rfl
  · rename_i hk
    split at h
    · cases h
      intro x hx
      unfold dictSet
      rw [if_neg]
      rintro rfl
      exact hk hx
    · cases h

theorem bfsRound_inv (L : List (G × G)) {rho rho' : G → Option (NpMat ℝ)} {new new' : List G}
    (h : bfsRound op inv L rho new = .ok (rho', new')) (hnd : new.Nodup) :
    (∀ x, (rho x).isSome → rho' x = rho x) ∧ new'.Nodup ∧
      ∀ x ∈ new', x ∈ new ∨ ∃ p ∈ L, x = op p.1 p.2 ∨ x = op (inv p.1) p.2 := by
  induction L generalizing rho new with
  | nil => simp only [bfsRound] at h; cases h; exact ⟨fun _ _ => rfl, hnd, fun x hx => .inl hx⟩
  | cons p L ih =>
    obtain ⟨g, e⟩ := p
    simp only [bfsRound] at h
    split at h
    · cases h
    rename_i rho1 h1
    split at h
    · cases h
    rename_i rho2 h2
    obtain ⟨i1, i2, i3⟩ := ih h (setAdd_nodup (setAdd_nodup hnd _) _)
    have s1 := setMissing_inv h1
    have s2 := setMissing_inv h2
    refine ⟨fun x hx => ?_, i2, fun x hx => ?_⟩
    · have e1 := s1 x hx
      have e2 := s2 x (by rw [e1]; exact hx)
      rw [i1 x (by rw [e2, e1]; exact hx), e2, e1]
    · rcases i3 x hx with h | ⟨p, hp, h⟩
      · rw [mem_setAdd, mem_setAdd] at h
        rcases h with (h | h) | h
        · exact .inl h
        · exact .inr ⟨(g, e), List.mem_cons_self .., .inl h⟩
        · exact .inr ⟨(g, e), List.mem_cons_self .., .inr h⟩
      · exact .inr ⟨p, List.mem_cons_of_mem _ hp, h⟩

theorem bfsLoop_inv (hG : FinGroup els op inv one) (gens : List G) (hgens : ∀ g ∈ gens, g ∈ els) (ord : List G → List G)
    (hord : ∀ L, (ord L).Perm L) (fuel : ℕ) {elements added elements' : List G} {rho rho' : G → Option (NpMat ℝ)}
    (h : bfsLoop op inv gens ord fuel elements added rho = .ok (elements', rho')) (hnd : elements.Nodup)
    (hel : ∀ x ∈ elements, x ∈ els) (hadd : ∀ x ∈ added, x ∈ elements) :
    elements'.Nodup ∧ (∀ x ∈ elements', x ∈ els) ∧ ∀ x, (rho x).isSome → rho' x = rho x := by
  induction fuel generalizing elements added rho with
  | zero => simp [bfsLoop] at h
  | succ n ih =>
    unfold bfsLoop at h
    split_ifs at h with h0
    · cases h; exact ⟨hnd, hel, fun _ _ => rfl⟩
    · split at h
      · cases h
      rename_i rho1 new h1
      obtain ⟨b1, b2, b3⟩ := bfsRound_inv _ h1 List.nodup_nil
      have hsub : ∀ x ∈ new, x ∈ els := by
        intro x hx
        rcases b3 x hx with h | ⟨p, hp, h⟩
        · simp at h
        · obtain ⟨g, hg, hp⟩ := List.mem_flatMap.1 hp
          obtain ⟨e, he, rfl⟩ := List.mem_map.1 hp
          have he' := hel e (hadd e ((hord added).mem_iff.1 he))
          rcases h with rfl | rfl
          · exact hG.mul_mem g (hgens g hg) e he'
          · exact hG.mul_mem _ (hG.inv_mem g (hgens g hg)) e he'
      obtain ⟨i1, i2, i3⟩ := ih h (List.nodup_append.2 ⟨hnd, b2.filter _, by
          rintro a ha b hb rfl
          simp only [List.mem_filter, decide_eq_true_eq] at hb
          exact hb.2 ha⟩) (fun x hx => by
          rcases List.mem_append.1 hx with hx | hx
          · exact hel x hx
          · exact hsub x (List.mem_of_mem_filter hx)) (fun x hx => List.mem_append_right _ hx)
      exact ⟨i1, i2, fun x hx => (i3 x (by rw [b1 x hx]; exact hx)).trans (b1 x hx)⟩

/-- **C20** Whenever the procedure returns, every element of the group has a matrix, and they form an orthogonal representation of the
group with the prescribed images of the generators (a generator equal to the identity is mapped to the identity matrix, whatever the
prescribed image). -/
theorem C20_generators_sound (hG : FinGroup els op inv one) (gens : List (G × NpMat ℝ)) (hg : ∀ p ∈ gens, p.1 ∈ els)
    (hnd : (gens.map Prod.fst).Nodup) (ord : List G → List G) (hord : ∀ L, (ord L).Perm L) (fuel : ℕ) (rho : G → Option (NpMat ℝ))
    (h : generateIrrep op inv one els.length ord fuel gens = .ok rho) :
    ∃ d, ∃ ρ : G → NpMat ℝ, (∀ x ∈ els, rho x = some (ρ x)) ∧ OrthoRep (· ∈ els) op one d ρ ∧
      ∀ p ∈ gens, p.1 ≠ one → ρ p.1 = p.2 := by
  unfold generateIrrep at h
  split_ifs at h with h0
  split at h
  · cases h
  rename_i p gens'
  simp only at h
  split_ifs at h with h1
  split at h
  · cases h
  rename_i E rho' h2
  split_ifs at h with h3 h4
  cases h
  set d := p.2.rows
  obtain ⟨b1, b2, b3⟩ := bfsLoop_inv hG ((p :: gens').map Prod.fst) (fun g hg' => by
    obtain ⟨q, hq, rfl⟩ := List.mem_map.1 hg'; exact hg q hq) ord hord fuel h2 (by simp) (by simpa using hG.one_mem) (by simp)
  have hall : ∀ x ∈ els, x ∈ E := fun x hx =>
    ((b1.subperm b2).perm_of_length_le (by rw [not_not.1 h3])).mem_iff.2 hx
  have hone : rho one = some (eye d) := by
    rw [b3 one (by simp [initDict, dictSet])]; simp [initDict, dictSet]
  have hsome : ∀ x, ∃ M, x ∈ els → rho x = some M := by
    intro x
    by_cases hx : x ∈ els
    · obtain ⟨_, ⟨A, _, hA, _⟩, _⟩ := h4 x (hall x hx)
      exact ⟨A, fun _ => hA⟩
    · exact ⟨eye 0, fun h => absurd h hx⟩
  choose ρ hρ using hsome
  have hρ1 : ρ one = eye d := by have := hρ one hG.one_mem; rw [hone] at this; exact (Option.some.inj this).symm
  have hmul : ∀ a b, a ∈ els → b ∈ els → ρ (op a b) ≈ mul (ρ a) (ρ b) := by
    intro a b ha hb
    obtain ⟨_, A, B, C, hA, hB, hC, hABC⟩ := (h4 a (hall a ha)).2.2 b (hall b hb)
    rw [hρ a ha] at hA
    rw [hρ b hb] at hB
    rw [hρ _ (hG.mul_mem a ha b hb)] at hC
    cases hA; cases hB; cases hC
    exact hABC.symm
  have hrow : ∀ a ∈ els, (ρ a).rows = d := by
    intro a ha
    have := (hmul one a hG.one_mem ha).1
    rw [hG.one_mul a ha, mul_rows, hρ1] at this
    exact this
  have hcol : ∀ a ∈ els, (ρ a).cols = d := by
    intro a ha
    have := (hmul a one ha hG.one_mem).2.1
    rw [hG.mul_one a ha, mul_cols, hρ1] at this
    exact this
  refine ⟨d, ρ, hρ, ⟨hrow, hcol, Eqv.of_eq hρ1, hmul, fun a ha => ?_⟩, fun q hq hq1 => ?_⟩
  · have hia := hG.inv_mem a ha
    obtain ⟨_, ⟨A, A', hA, hA', hAA⟩, _⟩ := h4 a (hall a ha)
    rw [hρ a ha] at hA
    rw [hρ _ hia] at hA'
    cases hA; cases hA'
    refine ⟨(hrow a ha).trans (hcol a ha).symm, ?_, ?_⟩
    · refine (mul_congr_right _ hAA.symm ?_).trans ((hmul a _ ha hia).symm.trans ?_)
      · simp
      · rw [hG.mul_inv a ha, hρ1, hrow a ha]
    · refine (mul_congr_left _ hAA.symm ?_).trans ((hmul _ a hia ha).symm.trans ?_)
      · simp
      · rw [hG.inv_mul a ha, hρ1, hrow a ha]
  · have key : ∀ (L : List (G × NpMat ℝ)) (r0 : G → Option (NpMat ℝ)), (L.map Prod.fst).Nodup → ∀ q ∈ L,
        (L.foldl (fun rho p => dictSet rho p.1 p.2) r0) q.1 = some q.2 := by
      have key2 : ∀ (L : List (G × NpMat ℝ)) (r0 : G → Option (NpMat ℝ)) x, x ∉ L.map Prod.fst →
          (L.foldl (fun rho p => dictSet rho p.1 p.2) r0) x = r0 x := by
        intro L
        induction L with
        | nil => intro r0 x _; rfl
        | cons a L ih =>
          intro r0 x hx
          rw [List.map_cons, List.mem_cons, not_or] at hx
          rw [List.foldl_cons, ih _ x hx.2, dictSet, if_neg hx.1]
      intro L
      induction L with
      | nil => intro r0 _ q hq; simp at hq
      | cons a L ih =>
        intro r0 hnd q hq
        rw [List.map_cons, List.nodup_cons] at hnd
        rcases List.mem_cons.1 hq with rfl | hq
        · rw [List.foldl_cons, key2 _ _ _ hnd.1]; simp [dictSet]
        · exact ih _ hnd.2 q hq
    have hinit : initDict (p :: gens') one d q.1 = some q.2 := by
      unfold initDict
      rw [dictSet, if_neg hq1]
      exact key _ _ hnd q hq
    have := b3 q.1 (by rw [hinit]; rfl)
    rw [hinit, hρ q.1 (hg q hq)] at this
    exact Option.some.inj this

theorem bfsLoop_agrees (hG : FinGroup els op inv one) (hψ : OrthoRep (· ∈ els) op one d ψ) (gens : List G) (ord : List G → List G)
    (hord : ∀ L, (ord L).Perm L) (fuel : ℕ) {elements added elements' : List G} {rho rho' : G → Option (NpMat ℝ)}
    (h : bfsLoop op inv gens ord fuel elements added rho = .ok (elements', rho'))
    (ha : Agrees els ψ rho) (hgens : ∀ g ∈ gens, (rho g).isSome) (hadd : ∀ x ∈ added, (rho x).isSome) : Agrees els ψ rho' := by
  induction fuel generalizing elements added rho with
  | zero => simp [bfsLoop] at h
  | succ n ih =>
    unfold bfsLoop at h
    split_ifs at h with h0
    · cases h; exact ha
    · obtain ⟨rho1, new, e1, a1, s1, mem1, nd1, ok1⟩ := bfsRound_ok hG hψ (gens.flatMap fun g => (ord added).map fun e => (g, e)) ha
        (by
          intro p hp
          obtain ⟨g, hg, hp⟩ := List.mem_flatMap.1 hp
          obtain ⟨e, he, rfl⟩ := List.mem_map.1 hp
          exact ⟨hgens g hg, hadd e ((hord added).mem_iff.1 he)⟩) [] (by simp) List.nodup_nil
      rw [e1] at h
      simp only at h
      exact ih h a1 (fun g hg => by rw [s1 g (hgens g hg)]; exact hgens g hg) (fun x hx => ok1 x (List.mem_of_mem_filter hx))

/-- **C20** The result is the only representation with the prescribed images of the generators. -/
theorem C20_generators_unique (hG : FinGroup els op inv one) (hψ : OrthoRep (· ∈ els) op one d ψ) (gens : List (G × NpMat ℝ))
    (hg : ∀ p ∈ gens, p.1 ∈ els ∧ p.2 ≈ ψ p.1) (ord : List G → List G) (hord : ∀ L, (ord L).Perm L) (fuel : ℕ)
    (rho : G → Option (NpMat ℝ)) (h : generateIrrep op inv one els.length ord fuel gens = .ok rho) :
    ∀ x M, rho x = some M → M ≈ ψ x := by
  unfold generateIrrep at h
  split_ifs at h with h0
  split at h
  · cases h
  rename_i p gens'
  simp only at h
  split_ifs at h with h1
  split at h
  · cases h
  rename_i E rho' h2
  split_ifs at h with h3 h4
  cases h
  have hd : p.2.rows = d := (hg p (List.mem_cons_self ..)).2.1.trans (hψ.rows _ (hg p (List.mem_cons_self ..)).1)
  rw [hd] at h2
  obtain ⟨a1, a2, a3⟩ := initDict_agrees (p :: gens') hG.one_mem hψ.map_one hg
  have := bfsLoop_agrees hG hψ _ ord hord fuel h2 a1 (fun g hg' => by
    obtain ⟨q, hq, rfl⟩ := List.mem_map.1 hg'; exact a2 q hq) (by simpa using a3)
  exact fun x M hx => (this x M hx).2

end

/-- A concrete instance: the irrep of frequency 1 of `C_5` from the generator `1`. -/
example (ord : List ℤ → List ℤ) (hord : ∀ L, (ord L).Perm L) :
    ∃ rho, generateIrrep (Cyclic.combine 5) (Cyclic.inverse 5) Cyclic.identity (Cyclic.elements 5).length ord 6
      [(1, Cyclic.irrepMat 5 1 1)] = .ok rho ∧ ∀ x ∈ Cyclic.elements 5, ∃ M, rho x = some M ∧ M ≈ Cyclic.irrepMat 5 1 x := by
  refine C20_generators_complete (Cyclic.finGroup 5 (by norm_num)) (Cyclic.table_valid_mem 5 (by norm_num) 1 rfl)
    [(1, Cyclic.irrepMat 5 1 1)] (by simp) ?_ ?_ ord hord 6 (by simp [Cyclic.elements])
  · intro p hp
    rw [List.mem_singleton] at hp
    subst hp
    exact ⟨by decide, Eqv.refl _⟩
  · intro S h1 hS x hx
    have step : ∀ x, S x → S ((1 + x) % 5) := fun x hx => (hS x hx _ (List.mem_singleton.2 rfl)).1
    have s0 : S 0 := h1
    have s1 := step 0 s0
    have s2 := step _ s1
    have s3 := step _ s2
    have s4 := step _ s3
    have : x ∈ ([0, 1, 2, 3, 4] : List ℤ) := hx
    simp only [List.mem_cons, List.not_mem_nil, or_false] at this
    rcases this with rfl | rfl | rfl | rfl | rfl
    · exact s0
    · exact s1
    · exact s2
    · exact s3
    · exact s4

end Escnn
