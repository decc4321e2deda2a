import Verif.Lemmas.CGNumerical

/-!
# C84: the Clebsch–Gordan coefficients computed numerically
-/

namespace Escnn

open NpMat CGComplete

variable {G Id : Type} {T : IrrepTable G Id} {El : G → Prop} {op : G → G → G} {one : G}

/-- **C84** Whatever the numerical routines and the random samples are: if `_clebsh_gordan_tensor` returns an array, then its columns are orthonormal and every copy intertwines the irrep with the tensor product,
for all elements of the group which the generators and the samples of the check generate. -/
theorem C84_sound {N : Numerics} {typ : Id → IrrType} (hT : T.Valid El op one) (hel : El one) (hop : ∀ g h, El g → El h → El (op g h)) {J l j : Id} (hJ : T.ok J = true)
    (hl : T.ok l = true) (hj : T.ok j = true) (ht : HasType El (T.mat j) (typ j) (T.size j)) {gens : List G} (hgens : ∀ g ∈ gens, El g) {tries : List (List G × List G)} (htr : ∀ p ∈ tries, ∀ g ∈ p.2, El g)
    (hgen : ∀ p ∈ tries, ∀ g, El g → ∃ w : List G, (∀ x ∈ w, x ∈ gens ++ p.2) ∧ w.foldl op one = g) {R : CGArray} (h : cgTensor N T typ gens tries J l j = .ok R) :
    (∀ g, El g → Intertwines (T.mat J g) (T.mat l g) (T.mat j g) R) ∧ OrthonormalCG (J := Unit) (T.size J) (T.size l) (fun _ => T.size j) (fun _ => R) [((), R.mult)] := by
  obtain ⟨h1, h2⟩ := cgTensor_intertwines hT hel hop hJ hl hj ht hgens htr hgen h
  refine ⟨h1, fun p hp q hq s c s' c' hs hc hs' hc' => ?_⟩
  obtain rfl := List.mem_singleton.1 hp
  obtain rfl := List.mem_singleton.1 hq
  rw [h2 s hs c hc s' hs' c' hc']
  simp

theorem cgDecomposeLoop_ok {size : Id → ℕ} {cg : Id → Except Err CGArray} : ∀ {ids : List Id} {r : List (Id × ℕ) × ℕ}, cgDecomposeLoop size cg ids = .ok r →
    (r.1.map Prod.fst).Sublist ids ∧ r.2 = (r.1.map fun e => size e.1 * e.2).sum ∧ ∀ e ∈ r.1, 0 < e.2 ∧ ∃ A, cg e.1 = .ok A ∧ A.mult = e.2
  | [], r, h => by
    obtain rfl := Except.ok.inj h
    simp
  | j :: L, r, h => by
    obtain ⟨A, hA, h⟩ := ExRel.bind_ok h
    obtain ⟨r', hr', h⟩ := ExRel.bind_ok h
    obtain rfl := Except.ok.inj h
    obtain ⟨h1, h2, h3⟩ := cgDecomposeLoop_ok hr'
    by_cases h0 : 0 < A.mult
    · simp only [if_pos h0]
      refine ⟨by simpa using h1, by simp [h2], fun e he => ?_⟩
      rcases List.mem_cons.1 he with rfl | he
      · exact ⟨h0, A, hA, rfl⟩
      · exact h3 e he
    · simp only [if_neg h0]
      exact ⟨h1.trans (List.sublist_cons_self _ _), by simp [h2, (by omega : A.mult = 0)], h3⟩

/-- Columns of inequivalent irreps are orthogonal. -/
theorem cgInner_ineq {ρ σ : G → NpMat ℝ} {A B : G → NpMat ℝ} {d1 d2 d d' : ℕ} (hA : OrthoRep El op one d1 A) (hB : OrthoRep El op one d2 B) (hρ : OrthoRep El op one d ρ) (hσ : OrthoRep El op one d' σ)
    (hne : Inequivalent El σ ρ d' d) {x y : CGArray} (hx : ∀ g, El g → Intertwines (A g) (B g) (ρ g) x) (hy : ∀ g, El g → Intertwines (A g) (B g) (σ g) y) {s s' c c' : ℕ} (hs : s < x.mult)
    (hs' : s' < y.mult) (hc : c < d) (hc' : c' < d') : cgInner d1 d2 x y s c s' c' = 0 := by
  rw [cgInner_gram d1 d2 d d']
  refine (hne (mul (transpose (column (d1 * d2) d2 d x s)) (column (d1 * d2) d2 d' y s')) rfl rfl fun g hg => ?_).2.2 c c' hc hc'
  have sA : (A g).rows = d1 ∧ (A g).cols = d1 := ⟨hA.rows g hg, hA.cols g hg⟩
  have sB : (B g).rows = d2 ∧ (B g).cols = d2 := ⟨hB.rows g hg, hB.cols g hg⟩
  have hX := column_intertwines sA sB ⟨hρ.rows g hg, hρ.cols g hg⟩ (hx g hg) hs
  have hY := column_intertwines sA sB ⟨hσ.rows g hg, hσ.cols g hg⟩ (hy g hg) hs'
  have t := transpose_intertwines ((hA.ortho g hg).kron (hB.ortho g hg)) (by rw [kron_rows, sA.1, sB.1]) (hρ.ortho g hg) (hρ.rows g hg) (N := d1 * d2) ⟨rfl, rfl⟩ hX
  refine (mul_assoc' _ _ _).trans ((mul_congr_right _ hY.symm rfl).trans ?_)
  refine (mul_assoc' _ _ _).symm.trans ((mul_congr_left _ t ?_).trans (mul_assoc' _ _ _))
  rw [mul_cols, kron_cols, sA.2, sB.2]; rfl

/-- **C84** If `_find_tensor_decomposition` returns a list, then it is the decomposition of the tensor product: together the coefficients are orthonormal, they intertwine, and they span the whole tensor product. -/
theorem C84_decomposition [DecidableEq Id] {N : Numerics} {typ : Id → IrrType} (hT : T.Valid El op one) (hS : Schur T typ El) (hel : El one) (hop : ∀ g h, El g → El h → El (op g h)) {ids : List Id} (hnd : ids.Nodup)
    (hok : ∀ i ∈ ids, T.ok i = true) {gens : List G} (hgens : ∀ g ∈ gens, El g) {tries : Id → Id → Id → List (List G × List G)} (htr : ∀ J l j, ∀ p ∈ tries J l j, ∀ g ∈ p.2, El g)
    (hgen : ∀ J l j, ∀ p ∈ tries J l j, ∀ g, El g → ∃ w : List G, (∀ x ∈ w, x ∈ gens ++ p.2) ∧ w.foldl op one = g) {J l : Id} (hJ : T.ok J = true) (hl : T.ok l = true) {L : List (Id × ℕ)}
    (h : cgDecompose T.size ids (fun j => cgTensor N T typ gens (tries J l j) J l j) J l = .ok L) :
    CGLaw El T.ok T.size T.mat (numKGroup N T typ gens ids tries).tensor (numKGroup N T typ gens ids tries).cg J l := by
  have htens : (numKGroup N T typ gens ids tries).tensor J l = L := by
    show (match cgDecompose T.size ids (fun j => cgTensor N T typ gens (tries J l j) J l j) J l with
      | .ok L => L
      | .error _ => []) = L
    rw [h]
  obtain ⟨r, hr, h⟩ := ExRel.bind_ok h
  split_ifs at h with h1 h2
  obtain rfl := Except.ok.inj h
  obtain ⟨hsub, hsum, hmem⟩ := cgDecomposeLoop_ok hr
  have hcg : ∀ e ∈ r.1, ∃ A, cgTensor N T typ gens (tries J l e.1) J l e.1 = .ok A ∧ A.mult = e.2 ∧ (numKGroup N T typ gens ids tries).cg J l e.1 = A := fun e he => by
    obtain ⟨-, A, hA, hm⟩ := hmem e he
    refine ⟨A, hA, hm, ?_⟩
    show (match cgTensor N T typ gens (tries J l e.1) J l e.1 with
      | .ok A => A
      | .error _ => emptyCG) = A
    rw [hA]
  have hoke : ∀ e ∈ r.1, T.ok e.1 = true := fun e he => hok _ (hsub.subset (List.mem_map_of_mem he))
  refine ⟨?_, ?_, ?_, ?_, ?_, ?_⟩
  · rw [htens]
    exact hnd.sublist hsub
  · rw [htens]
    exact hoke
  · rw [htens]
    intro e he
    obtain ⟨A, -, hm, hA⟩ := hcg e he
    rw [hA, hm]
  · rw [htens, ← hsum]
    omega
  · rw [htens]
    intro e he g hg
    obtain ⟨A, hA, -, hk⟩ := hcg e he
    rw [hk]
    exact (cgTensor_intertwines hT hel hop hJ hl (hoke e he) (hS.type _ (hoke e he)) hgens (htr J l e.1) (hgen J l e.1) hA).1 g hg
  · rw [htens]
    intro p hp q hq s c s' c' hs hc hs' hc'
    obtain ⟨A, hA, hmA, hkA⟩ := hcg p hp
    obtain ⟨B, hB, hmB, hkB⟩ := hcg q hq
    obtain ⟨iA, oA⟩ := cgTensor_intertwines hT hel hop hJ hl (hoke p hp) (hS.type _ (hoke p hp)) hgens (htr J l p.1) (hgen J l p.1) hA
    obtain ⟨iB, -⟩ := cgTensor_intertwines hT hel hop hJ hl (hoke q hq) (hS.type _ (hoke q hq)) hgens (htr J l q.1) (hgen J l q.1) hB
    rw [hkA, hkB]
    by_cases hpq : p.1 = q.1
    · have hAB : A = B := by rw [← hkA, ← hkB, hpq]
      rw [← hAB, oA s (by rw [hmA]; exact hs) c hc s' (by rw [hAB, hmB]; exact hs') c' (by rw [hpq]; exact hc')]
      simp [hpq]
    · rw [cgInner_ineq (hT J hJ) (hT l hl) (hT _ (hoke p hp)) (hT _ (hoke q hq)) (hS.ineq q.1 p.1 (hoke q hq) (hoke p hp) (Ne.symm hpq)) iA iB (by rw [hmA]; exact hs) (by rw [hmB]; exact hs') hc hc',
        if_neg fun h => hpq (Prod.mk.inj h).1]

end Escnn
