import Verif.Props.C83_Numerical
import Verif.Lemmas.Fixtures

/-!
# C83: the numerical decomposition for groups which need not be finite
-/

namespace Escnn

open NpMat TensorRep

variable {G Id : Type}

/-- The array with the given columns. -/
def colMat (d : ℕ) (cs : List (ℕ → ℝ)) : NpMat ℝ := ⟨d, cs.length, fun r a => (cs.getD a fun _ => 0) r⟩

theorem colMat_append (d : ℕ) (A B : List (ℕ → ℝ)) : colMat d (A ++ B) ≈ hcat (colMat d A) (colMat d B) := by
  refine ⟨rfl, by simp [colMat, hcat], fun i j hi hj => ?_⟩
  show ((A ++ B).getD j fun _ => 0) i = if j < A.length then (A.getD j fun _ => 0) i else (B.getD (j - A.length) fun _ => 0) i
  by_cases h : j < A.length
  · rw [List.getD_append _ _ _ _ h, if_pos h]
  · rw [List.getD_append_right _ _ _ _ (by omega), if_neg h]

theorem range_mul_map {α : Type} (f : ℕ → α) (n : ℕ) : ∀ m : ℕ, (List.range (m * n)).map f = (List.range m).flatMap fun k => (List.range n).map fun i => f (k * n + i)
  | 0 => by simp
  | m + 1 => by
    rw [Nat.succ_mul, List.range_add, List.map_append, range_mul_map f n m, List.range_succ, List.flatMap_append]
    simp [List.map_map, Function.comp_def]

variable {T : IrrepTable G Id} {El : G → Prop} {op : G → G → G} {one : G}

/-- `rho(g)` acts on the columns as the direct sum of the irreps `I`. -/
def ColsOk (T : IrrepTable G Id) (d : ℕ) (rho : G → NpMat ℝ) (g : G) (cs : List (ℕ → ℝ)) (I : List Id) : Prop :=
  mul (rho g) (colMat d cs) ≈ mul (colMat d cs) (irrepsBlock T I g)

theorem ColsOk.append (hT : T.Valid El op one) {d : ℕ} {rho : G → NpMat ℝ} {g : G} (hg : El g) (hrho : (rho g).rows = d ∧ (rho g).cols = d) {A B : List (ℕ → ℝ)} {I J : List Id}
    (hI : ∀ i ∈ I, T.ok i = true) (hJ : ∀ i ∈ J, T.ok i = true) (hA : A.length = (I.map T.size).sum) (hB : B.length = (J.map T.size).sum) (h : ColsOk T d rho g A I) (h' : ColsOk T d rho g B J) :
    ColsOk T d rho g (A ++ B) (I ++ J) := by
  unfold ColsOk at *
  have e := colMat_append d A B
  have eb : irrepsBlock T (I ++ J) g ≈ diag2 (irrepsBlock T I g) (irrepsBlock T J g) := by
    unfold irrepsBlock
    rw [List.map_append]
    exact blockDiag_append _ _
  have rI := irrepsBlock_rows hT hI hg
  have rJ := irrepsBlock_rows hT hJ hg
  have s1 : mul (rho g) (colMat d (A ++ B)) ≈ hcat (mul (rho g) (colMat d A)) (mul (rho g) (colMat d B)) :=
    (mul_congr_right _ e (by rw [hrho.2]; rfl)).trans (mul_hcat _ _ _)
  have s2 : hcat (mul (rho g) (colMat d A)) (mul (rho g) (colMat d B)) ≈ hcat (mul (colMat d A) (irrepsBlock T I g)) (mul (colMat d B) (irrepsBlock T J g)) := by
    refine ⟨h.1, by show A.length + B.length = _; rw [show A.length = _ from h.2.1, show B.length = _ from h'.2.1]; rfl, fun i j hi hj => ?_⟩
    have hi' : i < (rho g).rows := hi
    have hc : (colMat d A).cols = (irrepsBlock T I g).cols := h.2.1
    have hj' : j < A.length + B.length := hj
    have hc' : (mul (colMat d A) (irrepsBlock T I g)).cols = A.length := hc.symm
    have hc'' : (mul (rho g) (colMat d A)).cols = A.length := rfl
    by_cases hj1 : j < A.length
    · simp only [hcat, hc', hc'', hj1, if_true]
      exact h.2.2 i j hi' hj1
    · simp only [hcat, hc', hc'', hj1, if_false]
      exact h'.2.2 i (j - A.length) hi' (by show j - A.length < B.length; omega)
  refine s1.trans (s2.trans ((hcat_mul (colMat d A) (colMat d B) _ _ ?_ ?_ rfl).symm.trans (mul_congr e eb ?_).symm))
  · exact hA.trans rI.symm
  · exact hB.trans rJ.symm
  · show (A ++ B).length = _
    rw [List.length_append, hA, hB, eb.1]
    exact (congrArg₂ (· + ·) rI rJ).symm

theorem Emb.columns_eq (E : Emb) {size : ℕ} : E.columns size = (List.range E.mult).flatMap fun k => (List.range size).map fun i r => E.get r i k := by
  unfold Emb.columns
  rw [range_mul_map]
  refine List.flatMap_congr fun k _ => List.map_congr_left fun i hi => ?_
  have hi := List.mem_range.1 hi
  have hs : 0 < size := by omega
  funext r
  rw [Nat.mul_comm, Nat.mul_add_div hs, Nat.div_eq_of_lt hi, add_zero, Nat.mul_add_mod, Nat.mod_eq_of_lt hi]

/-- The embedding intertwines the irrep and the representation on `g`. -/
def Emb.Ok (E : Emb) (psi : IrrepData G Id) (rho : G → NpMat ℝ) (d : ℕ) (g : G) : Prop :=
  ∀ r < d, ∀ o < psi.size, ∀ k < E.mult, ∑ i ∈ Finset.range psi.size, E.get r i k * (psi.mat g).get i o = ∑ i ∈ Finset.range d, (rho g).get r i * E.get i o k

theorem Emb.colsOk (hT : T.Valid El op one) {d : ℕ} {rho : G → NpMat ℝ} {g : G} (hg : El g) (hrho : (rho g).rows = d ∧ (rho g).cols = d) {psi : IrrepData G Id} (hok : T.ok psi.id = true)
    (hs : psi.size = T.size psi.id) (hm : psi.mat = T.mat psi.id) {E : Emb} (hE : E.Ok psi rho d g) : ColsOk T d rho g (E.columns psi.size) (List.replicate E.mult psi.id) := by
  rw [E.columns_eq]
  have hψ := hT psi.id hok
  suffices h : ∀ L : List ℕ, (∀ k ∈ L, k < E.mult) → ColsOk T d rho g (L.flatMap fun k => (List.range psi.size).map fun i r => E.get r i k) (List.replicate L.length psi.id) by
    have := h (List.range E.mult) fun k hk => List.mem_range.1 hk
    rwa [List.length_range] at this
  have one : ∀ k < E.mult, ColsOk T d rho g ((List.range psi.size).map fun i r => E.get r i k) [psi.id] := by
    intro k hk
    have eb : irrepsBlock T [psi.id] g ≈ psi.mat g := by rw [hm]; exact diag2_empty_right _
    have hr : (psi.mat g).rows = psi.size := by rw [hm, hs]; exact hψ.rows g hg
    have hc : (psi.mat g).cols = psi.size := by rw [hm, hs]; exact hψ.cols g hg
    have hl : (colMat d ((List.range psi.size).map fun i r => E.get r i k)).cols = psi.size := by simp [colMat]
    have hget : ∀ r, ∀ o < psi.size, (colMat d ((List.range psi.size).map fun i r => E.get r i k)).get r o = E.get r o k := by
      intro r o ho
      simp only [colMat]
      rw [List.getD_eq_getElem _ _ (by simpa using ho)]
      simp
    refine Eqv.trans ?_ (mul_congr_right _ eb (by rw [hl, eb.1, hr])).symm
    refine ⟨hrho.1, by rw [mul_cols, mul_cols, hl, hc], fun r o hr' ho => ?_⟩
    have hr' : r < d := hrho.1 ▸ hr'
    have ho : o < psi.size := hl ▸ ho
    simp only [mul]
    rw [hl, hrho.2]
    refine (Finset.sum_congr rfl fun i _ => by rw [hget i o ho]).trans ((hE r hr' o ho k hk).symm.trans ?_)
    exact Finset.sum_congr rfl fun i hi => by rw [hget r i (Finset.mem_range.1 hi)]
  intro L
  induction L with
  | nil =>
    intro _
    exact ⟨hrho.1, rfl, fun i j _ hj => absurd hj (Nat.not_lt_zero j)⟩
  | cons k L ih =>
    intro hk
    rw [List.flatMap_cons, List.length_cons, List.replicate_succ, ← List.singleton_append]
    refine ColsOk.append hT hg hrho (by simpa using hok) (fun i hi => by rw [List.eq_of_mem_replicate hi]; exact hok) (by simp [hs]) ?_ (one k (hk k (by simp))) (ih fun x hx => hk x (List.mem_cons_of_mem _ hx))
    rw [List.length_flatMap]
    simp [hs]

theorem generalLoop_spec (hT : T.Valid El op one) {d : ℕ} {rho : G → NpMat ℝ} {S : List G} (hS : ∀ g ∈ S, El g ∧ (rho g).rows = d ∧ (rho g).cols = d) {emb : IrrepData G Id → Except Err Emb} :
    ∀ (irreps : List (IrrepData G Id)), (∀ psi ∈ irreps, T.ok psi.id = true ∧ psi.size = T.size psi.id ∧ psi.mat = T.mat psi.id) → (∀ psi ∈ irreps, ∀ E, emb psi = .ok E → ∀ g ∈ S, E.Ok psi rho d g) →
    ∀ cols r, cols.length ≤ d → generalLoop d emb irreps cols = .ok r →
      ∃ cs, r.1 = cols ++ cs ∧ r.1.length ≤ d ∧ cs.length = ((multList r.2).map T.size).sum ∧ (∀ i ∈ multList r.2, ∃ psi ∈ irreps, psi.id = i) ∧ (∀ p ∈ r.2, 0 < p.2) ∧
        ∀ g ∈ S, ColsOk T d rho g cs (multList r.2) := by
  intro irreps
  induction irreps with
  | nil =>
    intro _ _ cols r hd h
    rw [generalLoop] at h
    rw [← Except.ok.inj h]
    exact ⟨[], by simp, hd, rfl, by simp [multList], by simp, fun g hg => ⟨(hS g hg).2.1, rfl, fun i j _ hj => absurd hj (Nat.not_lt_zero j)⟩⟩
  | cons psi L ih =>
    intro hir hemb cols r hd h
    rw [generalLoop] at h
    obtain ⟨E, hE, h1⟩ := ExRel.bind_ok h
    split_ifs at h1 with hlen h0
    all_goals
      obtain ⟨r', h2, h3⟩ := ExRel.bind_ok h1
      have e := Except.ok.inj h3
      subst e
      obtain ⟨hok, hs, hm⟩ := hir psi (by simp)
      have hcl : (E.columns psi.size).length = psi.size * E.mult := by simp [Emb.columns, Nat.mul_comm]
      obtain ⟨cs, hcs, hle, hl, hid, hpos, hcols⟩ := ih (fun p hp => hir p (List.mem_cons_of_mem _ hp)) (fun p hp => hemb p (List.mem_cons_of_mem _ hp)) (cols ++ E.columns psi.size) r' (by
        rw [List.length_append, hcl]; omega) h2
      simp only [h0, if_true, if_false]
    · refine ⟨E.columns psi.size ++ cs, by rw [hcs, List.append_assoc], hle, ?_, ?_, ?_, fun g hg => ?_⟩
      · rw [List.length_append, hl, hcl]
        simp [hs, multList, Nat.mul_comm]
      · intro i hi
        rw [multList, List.flatMap_cons, List.mem_append] at hi
        rcases hi with hi | hi
        · exact ⟨psi, by simp, (List.eq_of_mem_replicate hi).symm⟩
        · obtain ⟨p, hp, hpi⟩ := hid i hi
          exact ⟨p, List.mem_cons_of_mem _ hp, hpi⟩
      · intro p hp
        rcases List.mem_cons.1 hp with rfl | hp
        · exact Nat.cast_pos.2 h0
        · exact hpos p hp
      · obtain ⟨hgE, hgr⟩ := hS g hg
        have := ColsOk.append hT hgE hgr (I := List.replicate E.mult psi.id) (J := multList r'.2) (fun i hi => by rw [List.eq_of_mem_replicate hi]; exact hok)
          (fun i hi => by obtain ⟨p, hp, rfl⟩ := hid i hi; exact (hir p (List.mem_cons_of_mem _ hp)).1) (by rw [hcl]; simp [hs, Nat.mul_comm]) hl
          (E.colsOk hT hgE hgr hok hs hm (hemb psi (by simp) E hE g hg)) (hcols g hg)
        exact this
    · have hm0 : E.mult = 0 := by omega
      have hc0 : E.columns psi.size = [] := by simp [Emb.columns, hm0]
      rw [hc0, List.append_nil] at hcs
      exact ⟨cs, hcs, hle, hl, fun i hi => by obtain ⟨p, hp, hpi⟩ := hid i hi; exact ⟨p, List.mem_cons_of_mem _ hp, hpi⟩, hpos, hcols⟩

theorem embeddingsLoop_spec {N : Numerics} {psi : IrrepData G Id} {rho : G → NpMat ℝ} {d : ℕ} {gens : List G} : ∀ {tries : List (List G × List G)} {E : Emb},
    embeddingsLoop N psi rho d gens tries = .ok E → ∀ g ∈ gens, E.Ok psi rho d g
  | [], _, h => by cases h
  | (s, t) :: L, E, h => by
    rw [embeddingsLoop] at h
    obtain ⟨o, _, h1⟩ := ExRel.bind_ok h
    cases o with
    | none => exact embeddingsLoop_spec h1
    | some E' =>
      dsimp only at h1
      split_ifs at h1 with hc
      · have e := Except.ok.inj h1
        subst e
        exact fun g hg => hc g (List.mem_append_left _ hg)
      · exact embeddingsLoop_spec h1

theorem embeddingsGeneral_spec {N : Numerics} {psi : IrrepData G Id} {rho : G → NpMat ℝ} {gens : Option (List G)} {tries : List (List G × List G)} {E : Emb}
    (h : embeddingsGeneral N psi rho one gens tries = .ok E) : ∀ g ∈ gens.getD [], E.Ok psi rho (rho one).rows g := by
  unfold embeddingsGeneral at h
  split at h
  · intro g hg; simp at hg
  · exact embeddingsLoop_spec h
  · intro g hg; simp at hg

/-- **C83** Whatever the numerical routines and the random samples are: if the decomposition of a representation of a group returns, then the change of basis is orthogonal, the returned irreps are
given ones with positive multiplicities, and `rho(g) = Q @ P(g) @ Q.T` for every product `g` of generators and of elements sampled by the final check.  (For a group without finitely many generators
only the samples are checked.) -/
theorem C83_general_partial (hT : T.Valid El op one) (hone : El one) (hop : ∀ g h, El g → El h → El (op g h)) {rho : G → NpMat ℝ} {d : ℕ} (hrho : LinRep El op one d rho) (N : Numerics)
    {gens : Option (List G)} {irreps : List (IrrepData G Id)} (hir : ∀ psi ∈ irreps, T.ok psi.id = true ∧ psi.size = T.size psi.id ∧ psi.mat = T.mat psi.id)
    {tries : IrrepData G Id → List (List G × List G)} {checks : List G} (hel : ∀ g ∈ gens.getD [] ++ checks, El g) {Q : NpMat ℝ} {ms : List (Id × ℤ)}
    (h : decomposeGeneral N T rho one gens irreps tries checks = .ok (Q, ms)) :
    IsOrtho Q ∧ Q.rows = d ∧ ((multList ms).map T.size).sum = d ∧ (∀ i ∈ multList ms, ∃ psi ∈ irreps, psi.id = i) ∧ (∀ p ∈ ms, 0 < p.2) ∧
      ∀ w : List G, (∀ x ∈ w, x ∈ gens.getD [] ++ checks) → rho (w.foldl op one) ≈ mul (mul Q (blockDiag ((multList ms).map fun i => T.mat i (w.foldl op one)))) (transpose Q) := by
  have hd : (rho one).rows = d := hrho.rows one hone
  unfold decomposeGeneral at h
  dsimp only at h
  rw [hd] at h
  obtain ⟨r, h1, h2⟩ := ExRel.bind_ok h
  split_ifs at h2 with c1 c2
  obtain ⟨_, h3, h4⟩ := ExRel.bind_ok h2
  obtain ⟨rfl, rfl⟩ := Prod.mk.inj (Except.ok.inj h4)
  have hS : ∀ g ∈ gens.getD [], El g ∧ (rho g).rows = d ∧ (rho g).cols = d := fun g hg =>
    ⟨hel g (List.mem_append_left _ hg), hrho.rows g (hel g (List.mem_append_left _ hg)), hrho.cols g (hel g (List.mem_append_left _ hg))⟩
  obtain ⟨cs, hcs, hle, hl, hid, hpos, hcols⟩ := generalLoop_spec hT hS irreps hir (fun psi hpsi E hE => by
    have := embeddingsGeneral_spec hE
    rwa [hd] at this) [] r (Nat.zero_le d) h1
  rw [List.nil_append] at hcs
  have hlen : r.1.length = d := by omega
  have hsum : ((multList r.2).map T.size).sum = d := by rw [← hl, ← hcs, hlen]
  have hok : ∀ i ∈ multList r.2, T.ok i = true := fun i hi => by obtain ⟨p, hp, rfl⟩ := hid i hi; exact (hir p hp).1
  obtain ⟨Q, hQ⟩ : ∃ Q : NpMat ℝ, Q = ⟨d, d, fun i j => (r.1.getD j fun _ => 0) i⟩ := ⟨_, rfl⟩
  rw [← hQ] at c2 h3 ⊢
  have hQr : Q.rows = d := by rw [hQ]
  have hQc : Q.cols = d := by rw [hQ]
  have hQo : IsOrtho Q := ⟨by rw [hQr, hQc], by rw [hQr]; exact c2.1, by rw [hQr]; exact c2.2⟩
  have hinv := IsInv.of_ortho hQo
  have hσ := (irrepsBlock_orthoRep hT hone hok).toLinRep
  rw [hsum] at hσ
  have heq : colMat d cs = Q := by rw [hQ, ← hcs]; unfold colMat; rw [hlen]
  have hint : ∀ g ∈ gens.getD [] ++ checks, El g ∧ mul (rho g) Q ≈ mul Q (irrepsBlock T (multList r.2) g) := by
    intro g hg
    have hgE := hel g hg
    refine ⟨hgE, ?_⟩
    rcases List.mem_append.1 hg with hg | hg
    · have := hcols g hg
      unfold ColsOk at this
      rwa [heq] at this
    · rw [checkCob_iff] at h3
      exact (intertwine_conj hinv hQr ⟨hrho.rows g hgE, hrho.cols g hgE⟩ ⟨hσ.rows g hgE, hσ.cols g hgE⟩).2 (h3 _ (List.mem_map_of_mem hg)).2
  refine ⟨hQo, hQr, hsum, hid, hpos, fun w hw => ?_⟩
  have key := intertwine_word hrho hσ hone hop ⟨hQr, hQc⟩ hint w one hw hone (intertwine_one hrho hσ hone ⟨hQr, hQc⟩)
  exact (intertwine_conj hinv hQr ⟨hrho.rows _ key.1, hrho.cols _ key.1⟩ ⟨hσ.rows _ key.1, hσ.cols _ key.1⟩).1 key.2

/-! ### An example: the sign representation of the group with two elements -/

namespace SignExample

/-- Routines which are only called on arrays which need no change. -/
def num : Numerics := ⟨id, id, fun _ _ _ _ => 0⟩

/-- The irreps of the group with two elements. -/
noncomputable def data (i : Bool) : IrrepData Bool Bool := ⟨i, 1, 1, [eye 1], boolTable.mat i⟩

theorem one_eqv {A B : NpMat ℝ} (hA : A.rows = 1 ∧ A.cols = 1) (hB : B.rows = 1 ∧ B.cols = 1) (h : A.get 0 0 = B.get 0 0) : A ≈ B :=
  ⟨by rw [hA.1, hB.1], by rw [hA.2, hB.2], fun i j hi hj => by
    have : i = 0 := by omega
    have : j = 0 := by omega
    subst_vars
    exact h⟩

theorem sylvester (i : Bool) : buildSylvester [boolTable.mat true true] [boolTable.mat i true] = .ok (vstack [kronsum (boolTable.mat true true) (negT (boolTable.mat i true))]) := by
  unfold buildSylvester
  simp [boolTable]

theorem find_triv : findIntertwiner num [boolTable.mat true true] [boolTable.mat false true] = .ok (zeros 1 0) := by
  unfold findIntertwiner
  rw [sylvester]
  simp only [bind, Except.bind]
  rw [if_pos (by simp [vstack, kronsum, NpMat.add, kron, boolTable, negT]), if_neg]
  intro h
  have := h.2.2 0 0 (by simp [vstack, kronsum, NpMat.add, kron, boolTable, negT]) (by simp [vstack, kronsum, NpMat.add, kron, boolTable, negT])
  norm_num [vstack, kronsum, NpMat.add, kron, boolTable, negT, zeros, eye] at this

theorem find_sign : findIntertwiner num [boolTable.mat true true] [boolTable.mat true true] = .ok ⟨1, 1, fun _ _ => 1⟩ := by
  unfold findIntertwiner
  rw [sylvester]
  simp only [bind, Except.bind]
  rw [if_pos (by simp [vstack, kronsum, NpMat.add, kron, boolTable, negT]), if_pos]
  refine one_eqv (by simp [vstack, kronsum, NpMat.add, kron, boolTable, negT]) (by simp [vstack, kronsum, NpMat.add, kron, boolTable, negT, zeros]) ?_
  simp [vstack, kronsum, NpMat.add, kron, boolTable, negT, zeros, eye]

theorem emb_triv : embeddingsGeneral num (data false) (boolTable.mat true) false (some [true]) [([], [])] = .ok ⟨0, fun _ _ _ => 0⟩ := by
  unfold embeddingsGeneral embeddingsLoop irrepEmbeddings
  simp only [List.append_nil, List.map_cons, List.map_nil]
  rw [show (data false).mat = boolTable.mat false from rfl, find_triv]
  simp only [bind, Except.bind]
  rw [if_neg (by simp [zeros, boolTable, data]), if_neg (by simp [zeros, boolTable, data]), if_neg (by simp [zeros, boolTable, data]), if_pos (by simp [zeros, boolTable, data])]
  simp

theorem factor : factorOut [eye 1] 1 ⟨1, 1, fun _ _ => 1⟩ = .ok ⟨1, 1, fun _ _ => 1⟩ := by
  unfold factorOut
  rw [if_neg (by simp)]
  simp

theorem emb_sign : ∃ E, embeddingsGeneral num (data true) (boolTable.mat true) false (some [true]) [([], [])] = .ok E ∧ E.mult = 1 ∧ E.get 0 0 0 = 1 := by
  unfold embeddingsGeneral embeddingsLoop irrepEmbeddings
  simp only [List.append_nil, List.map_cons, List.map_nil]
  rw [show (data true).mat = boolTable.mat true from rfl, find_sign]
  simp only [bind, Except.bind]
  rw [if_neg (by simp [boolTable, data]), if_neg (by simp [data]), if_neg (by simp [boolTable, data]), if_neg (by simp [data])]
  rw [show factorOut (data true).endo (data true).size (num.orth ⟨1, 1, fun _ _ => 1⟩) = .ok ⟨1, 1, fun _ _ => 1⟩ from factor]
  simp only
  rw [if_neg (by simp [boolTable, data]), if_neg]
  · simp only
    rw [if_pos]
    · exact ⟨_, rfl, rfl, by simp⟩
    · intro g _ r hr o ho k hk
      have hr : r < 1 := hr
      have ho : o < 1 := ho
      have hk : k < 1 := hk
      obtain rfl : r = 0 := by omega
      obtain rfl : o = 0 := by omega
      obtain rfl : k = 0 := by omega
      simp [boolTable, data]
  · rw [not_not]
    exact one_eqv (by simp [transpose]) (by simp [data]) (by simp [mul, transpose, eye])

theorem ok : ∃ Q, decomposeGeneral num boolTable (boolTable.mat true) false (some [true]) [data false, data true] (fun _ => [([], [])]) [true] = .ok (Q, [(true, 1)]) := by
  obtain ⟨E, hE, hm, h1⟩ := emb_sign
  have hl : generalLoop 1 (fun psi => embeddingsGeneral num psi (boolTable.mat true) false (some [true]) [([], [])]) [data false, data true] [] = .ok (E.columns 1, [(true, 1)]) := by
    simp only [generalLoop]
    rw [emb_triv]
    simp only [bind, Except.bind]
    rw [hE]
    simp [hm, data, Emb.columns]
  have hc : E.columns 1 = [fun r => E.get r 0 0] := by
    simp [Emb.columns, hm]
  unfold decomposeGeneral
  dsimp only
  rw [show (boolTable.mat true false).rows = 1 from rfl, hl]
  simp only [bind, Except.bind]
  rw [hc, if_neg (by simp), if_neg, (checkCob_iff (D := _) (Dinv := _) (L := _)).2]
  · exact ⟨_, rfl⟩
  · intro p hp
    simp only [List.map_cons, List.map_nil, List.mem_singleton] at hp
    subst hp
    refine ⟨by simp [multList, irrepsBlock, blockDiag, boolTable, transpose, diag2, zeros], one_eqv (by simp [boolTable]) (by simp [transpose]) ?_⟩
    simp [multList, irrepsBlock, blockDiag, boolTable, transpose, diag2, zeros, mul, h1]
  · rw [not_not]
    exact ⟨one_eqv (by simp [transpose]) (by simp) (by simp [mul, transpose, eye, h1]), one_eqv (by simp [transpose]) (by simp) (by simp [mul, transpose, eye, h1])⟩

/-- The hypotheses of `C83_general_partial` hold for the sign representation of the group with two elements. -/
example : ∃ Q : NpMat ℝ, IsOrtho Q ∧ ∀ g : Bool, boolTable.mat true g ≈ mul (mul Q (blockDiag [boolTable.mat true g])) (transpose Q) := by
  obtain ⟨Q, hQ⟩ := ok
  have h := C83_general_partial (T := boolTable) (El := fun _ => True) (op := Bool.xor) boolTable_valid trivial (fun _ _ _ _ => trivial) (boolTable_valid true rfl).toLinRep num (irreps := [data false, data true])
    (by intro psi hpsi; simp only [List.mem_cons, List.not_mem_nil, or_false] at hpsi; rcases hpsi with rfl | rfl <;> exact ⟨rfl, rfl, rfl⟩) (fun _ _ => trivial) hQ
  refine ⟨Q, h.1, fun g => ?_⟩
  cases g
  · exact h.2.2.2.2.2 [] (by simp)
  · exact h.2.2.2.2.2 [true] (by simp)

end SignExample

end Escnn
