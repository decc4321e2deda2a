import Verif.Model.InducedFlags
import Verif.Props.C51_InducedGated

/-!
# C51: the sizes of the subfields of induced representations; examples
-/

namespace Escnn

variable {G H Id IdH : Type}

theorem subSize_eq {pre nl : String} {r : Rep G Id} {s : ℕ} (h1 : nl ∈ r.nonlin) (h2 : pyStartsWith nl pre = true) (h3 : ∀ nl' ∈ r.nonlin, pyStartsWith nl' pre = true → nl' = nl)
    (h4 : lastPartNat nl = some s) (h5 : 0 < s) (h6 : r.size % s = 0) : subSize pre r = .ok s := by
  have hex : ∃ nl, nl ∈ r.nonlin ∧ pyStartsWith nl pre = true := ⟨nl, h1, h2⟩
  have hc : hex.choose = nl := h3 _ hex.choose_spec.1 hex.choose_spec.2
  unfold subSize
  rw [dif_pos hex, hc, if_pos h3, h4]
  simp only
  rw [if_neg h5.ne', if_pos h6]

theorem lastPartNat_flag (pre : String) (n : ℕ) : lastPartNat (pre ++ "_" ++ Nat.repr n) = some n := by
  have h1 : (pre ++ "_" ++ Nat.repr n).toList = pre.toList ++ '_' :: Nat.toDigits 10 n := by
    rw [String.toList_append, String.toList_append, Nat.toList_repr]
    simp
  have hd : ∀ c ∈ Nat.toDigits 10 n, c.isDigit = true := fun c hc => Nat.isDigit_of_mem_toDigits (by norm_num) (by norm_num) hc
  have hu : '_' ∉ Nat.toDigits 10 n := Nat.underscore_not_in_toDigits
  have h2 : (((pre ++ "_" ++ Nat.repr n).toList.reverse.takeWhile (· ≠ '_')).reverse) = Nat.toDigits 10 n := by
    rw [h1, List.reverse_append, List.reverse_cons, List.append_assoc, List.takeWhile_append_of_pos (by
      intro c hc
      have hc := List.mem_reverse.1 hc
      simpa using fun e : c = '_' => hu (e ▸ hc))]
    simp
  unfold lastPartNat
  simp only [h2]
  rw [if_pos ⟨Nat.toDigits_ne_nil, by rw [List.all_eq_true]; exact hd⟩]
  congr 1
  have h3 := Nat.ofDigitChars_ten_toDigits (n := n)
  rw [Nat.ofDigitChars_eq_foldl] at h3
  have h4 : ∀ (l : List Char) (a b : ℕ), a = b → l.foldl (fun n c => n * 10 + (c.toNat - '0'.toNat)) a = l.foldl (fun sofar c => 10 * sofar + (c.toNat - '0'.toNat)) b := by
    intro l
    induction l with
    | nil => exact fun a b h => h
    | cons c l ih => exact fun a b h => ih _ _ (by subst h; simp only [Nat.mul_comm])
  rw [h4 _ 0 0 rfl]
  exact h3

theorem not_startsWith {s pre rest : String} (h : pre.toList.isPrefixOf (s.toList ++ rest.toList) = false) : pyStartsWith (s ++ rest) pre = false := by
  rw [pyStartsWith, String.toList_append]
  exact h

/-- **C51** A representation induced from `psi` (a multiple of the size of `psi`, with the nonlinearities computed by `_induced_nonlinearities`): if `psi` supports `norm` and is not induced itself, the
subfields of the norm nonlinearities are the copies of `psi`; the same holds for gates. -/
theorem C51_flags (psi : Rep H IdH) (r : Rep G Id) (hpos : 0 < psi.size) {n : ℕ} (hsize : r.size = n * psi.size) (hnl : r.nonlin = inducedNonlin psi)
    (hfresh : ∀ nl ∈ psi.nonlin, pyStartsWith nl "induced_norm" = false ∧ pyStartsWith nl "induced_gated" = false) :
    ("norm" ∈ psi.nonlin → subSize "induced_norm" r = .ok psi.size) ∧ ("gated" ∈ psi.nonlin → subSize "induced_gated" r = .ok psi.size) ∧
    ("norm" ∉ psi.nonlin → subSize "induced_norm" r = .error .assertion) := by
  have hf1 : inducedFlag "induced_norm" psi = "induced_norm" ++ "_" ++ Nat.repr psi.size := dif_neg fun ⟨nl, h1, h2⟩ => by rw [(hfresh nl h1).1] at h2; cases h2
  have hf2 : inducedFlag "induced_gated" psi = "induced_gated" ++ "_" ++ Nat.repr psi.size := dif_neg fun ⟨nl, h1, h2⟩ => by rw [(hfresh nl h1).2] at h2; cases h2
  have hmod : r.size % psi.size = 0 := by rw [hsize]; exact Nat.mul_mod_left _ _
  have hmem : ∀ nl, nl ∈ r.nonlin → nl = "pointwise" ∨ nl = "concatenated" ∨ nl = "gated" ∨ nl = "induced_gated" ++ "_" ++ Nat.repr psi.size ∨ (nl = "norm" ∧ "norm" ∈ psi.nonlin) ∨
      (nl = "induced_norm" ++ "_" ++ Nat.repr psi.size ∧ "norm" ∈ psi.nonlin) ∨ nl = "induced_gate" := by
    intro nl h
    rw [hnl, inducedNonlin, hf1, hf2] at h
    simp only [Finset.mem_union] at h
    rcases h with (((h | h) | h) | h) | h <;> split_ifs at h <;> simp_all <;> tauto
  have sn : ∀ rest : String, pyStartsWith ("induced_norm" ++ "_" ++ rest) "induced_norm" = true := fun rest => by
    rw [pyStartsWith, String.append_assoc, String.toList_append]
    rw [List.isPrefixOf_iff_prefix]
    exact List.prefix_append _ _
  have sg : ∀ rest : String, pyStartsWith ("induced_gated" ++ "_" ++ rest) "induced_gated" = true := fun rest => by
    rw [pyStartsWith, String.append_assoc, String.toList_append]
    rw [List.isPrefixOf_iff_prefix]
    exact List.prefix_append _ _
  have nn : ∀ rest : String, pyStartsWith ("induced_gated" ++ "_" ++ rest) "induced_norm" = false := fun rest => by
    rw [pyStartsWith, String.append_assoc, String.toList_append]
    rfl
  have ng : ∀ rest : String, pyStartsWith ("induced_norm" ++ "_" ++ rest) "induced_gated" = false := fun rest => by
    rw [pyStartsWith, String.append_assoc, String.toList_append]
    rfl
  refine ⟨fun h => ?_, fun h => ?_, fun h => ?_⟩
  · refine subSize_eq (nl := "induced_norm" ++ "_" ++ Nat.repr psi.size) ?_ (sn _) (fun nl' h1 h2 => ?_) (lastPartNat_flag _ _) hpos hmod
    · rw [hnl, inducedNonlin, hf1]
      simp [h]
    · rcases hmem nl' h1 with rfl | rfl | rfl | rfl | ⟨rfl, -⟩ | ⟨rfl, -⟩ | rfl
      · exact absurd h2 (by decide)
      · exact absurd h2 (by decide)
      · exact absurd h2 (by decide)
      · rw [nn] at h2; cases h2
      · exact absurd h2 (by decide)
      · rfl
      · exact absurd h2 (by decide)
  · refine subSize_eq (nl := "induced_gated" ++ "_" ++ Nat.repr psi.size) ?_ (sg _) (fun nl' h1 h2 => ?_) (lastPartNat_flag _ _) hpos hmod
    · rw [hnl, inducedNonlin, hf2]
      simp [h]
    · rcases hmem nl' h1 with rfl | rfl | rfl | rfl | ⟨rfl, -⟩ | ⟨rfl, -⟩ | rfl
      · exact absurd h2 (by decide)
      · exact absurd h2 (by decide)
      · exact absurd h2 (by decide)
      · rfl
      · exact absurd h2 (by decide)
      · rw [ng] at h2; cases h2
      · exact absurd h2 (by decide)
  · unfold subSize
    rw [dif_neg]
    rintro ⟨nl, h1, h2⟩
    rcases hmem nl h1 with rfl | rfl | rfl | rfl | ⟨-, h⟩ | ⟨-, h⟩ | rfl
    · exact absurd h2 (by decide)
    · exact absurd h2 (by decide)
    · exact absurd h2 (by decide)
    · rw [nn] at h2; cases h2
    · contradiction
    · contradiction
    · exact absurd h2 (by decide)

/-! ### Examples -/

/-- A representation of the group with two elements induced from the sign representation of the trivial subgroup, i.e. `2 × 2` permutations with the flags of induced representations. -/
noncomputable def indRep : Rep Bool Unit := ⟨"induced", [(), ()], NpMat.eye 2, NpMat.eye 2, swapRep.mat, {"norm", "induced_norm_1", "gated", "induced_gated_1", "induced_gate"}⟩

theorem indRep_sub (pre : String) (h : pre = "induced_norm" ∨ pre = "induced_gated") : subSize pre indRep = .ok 1 := by
  rcases h with rfl | rfl
  · refine subSize_eq (nl := "induced_norm_1") (by simp [indRep]) (by decide) ?_ (by decide) one_pos rfl
    intro nl' h1 h2
    simp only [indRep, Finset.mem_insert, Finset.mem_singleton] at h1
    rcases h1 with rfl | rfl | rfl | rfl | rfl
    · exact absurd h2 (by decide)
    · rfl
    · exact absurd h2 (by decide)
    · exact absurd h2 (by decide)
    · exact absurd h2 (by decide)
  · refine subSize_eq (nl := "induced_gated_1") (by simp [indRep]) (by decide) ?_ (by decide) one_pos rfl
    intro nl' h1 h2
    simp only [indRep, Finset.mem_insert, Finset.mem_singleton] at h1
    rcases h1 with rfl | rfl | rfl | rfl | rfl
    · exact absurd h2 (by decide)
    · exact absurd h2 (by decide)
    · exact absurd h2 (by decide)
    · rfl
    · exact absurd h2 (by decide)

theorem IsPermMat.blockPerm {n : ℕ} {M : NpMat ℝ} (h : IsPermMat n M) : IsBlockPermMat n 1 M := by
  obtain ⟨h1, h2, σ, h3⟩ := h
  refine ⟨by rw [h1, Nat.mul_one], by rw [h2, Nat.mul_one], σ, fun _ => NpMat.eye 1, fun _ => ⟨rfl, rfl, fun i j => ?_⟩, fun i j p q hp hq => ?_⟩
  · obtain rfl := Subsingleton.elim i j
    simp [NpMat.eye]
  · obtain rfl : p = 0 := by omega
    obtain rfl : q = 0 := by omega
    simp only [Nat.mul_one, Nat.add_zero, h3]
    simp [NpMat.eye]

theorem indType_blocks : BlockPerms "induced_norm" (fun _ => True) (⟨(), [indRep, indRep]⟩ : FType Unit (Rep Bool Unit)) := by
  intro r hr s hs g _
  obtain rfl : r = indRep := by simpa using hr
  rw [indRep_sub _ (.inl rfl)] at hs
  obtain rfl := Except.ok.inj hs
  exact (swapRep_perm g).blockPerm

theorem indType_pos : ∀ r ∈ (⟨(), [indRep, indRep]⟩ : FType Unit (Rep Bool Unit)).reprs, 0 < r.size := by
  intro r hr
  obtain rfl : r = indRep := by simpa using hr
  exact two_pos

theorem indType_subs (pre : String) (h : pre = "induced_norm" ∨ pre = "induced_gated") : mapE (subSize pre) [indRep, indRep] = .ok [1, 1] := by
  simp only [mapE, indRep_sub pre h, bind, Except.bind]

example : ∃ m, InducedNormNL.init (⟨(), [indRep, indRep]⟩ : FType Unit (Rep Bool Unit)) "n_relu" true = .ok m ∧
    FibreEquivariant (B := Unit) (P := Unit) (C := Unit) (fun _ => True) ⟨(), [indRep, indRep]⟩ ⟨(), [indRep, indRep]⟩ (InducedNormNL.forward (fun _ _ _ => 7) m) := by
  obtain ⟨tab, ht, -⟩ := runTable_spec (sz := Rep.size) (⟨(), [indRep, indRep]⟩ : FType Unit (Rep Bool Unit)) indType_pos [(2, 1), (2, 1)] rfl
  have hm : ∃ m, InducedNormNL.init (⟨(), [indRep, indRep]⟩ : FType Unit (Rep Bool Unit)) "n_relu" true = .ok m := by
    unfold InducedNormNL.init
    simp only [indType_subs _ (.inl rfl), bind, Except.bind, InducedNormNL.functionOf, if_true]
    rw [show (List.map Rep.size [indRep, indRep]).zip [1, 1] = [(2, 1), (2, 1)] from rfl, ht]
    exact ⟨_, rfl⟩
  obtain ⟨m, hm⟩ := hm
  refine ⟨m, hm, ?_⟩
  have := (InducedNormNL.C51_equivariant (B := Unit) (P := Unit) (C := Unit) _ indType_blocks indType_pos hm m.function m.logBias m.eps (fun _ _ _ => 7)).1
  exact this

example : ∃ m, PoolMap.inducedInit trivRep (⟨(), [indRep, indRep]⟩ : FType Unit (Rep Bool Unit)) = .ok m ∧
    FibreInvariant (B := Unit) (P := Unit) (C := Unit) (fun _ => True) ⟨(), [indRep, indRep]⟩ ⟨(), [trivRep, trivRep]⟩ (PoolMap.forward PoolMap.inducedStep (fun _ _ _ => 7) m) := by
  obtain ⟨tab, ht, -⟩ := runPoolTables_spec (sz := Rep.size) (sz' := Rep.size) (⟨(), [indRep, indRep]⟩ : FType Unit (Rep Bool Unit)) indType_pos [(2, 1), (2, 1)] rfl [trivRep, trivRep] rfl
    (fun r hr => by obtain rfl : r = trivRep := by simpa using hr
                    rfl)
  have hm : ∃ m, PoolMap.inducedInit trivRep (⟨(), [indRep, indRep]⟩ : FType Unit (Rep Bool Unit)) = .ok m := by
    unfold PoolMap.inducedInit
    simp only [indType_subs _ (.inl rfl), bind, Except.bind]
    rw [show (List.map Rep.size [indRep, indRep]).zip [1, 1] = [(2, 1), (2, 1)] from rfl, ht]
    exact ⟨_, rfl⟩
  obtain ⟨m, hm⟩ := hm
  exact ⟨m, hm, (PoolMap.C51_pool (B := Unit) (P := Unit) (C := Unit) trivRep rfl _ indType_pos indType_blocks hm (fun _ _ _ => 7)).1⟩

theorem inducedGated_init {S : Type} {t : FType S (Rep G Id)} {a c : Rep G Id} (ht : t.reprs = [a, c]) (ha : "induced_gate" ∈ a.nonlin) (hc : ∃ nl ∈ c.nonlin, pyStartsWith nl "induced_gated" = true)
    (hpa : 0 < a.size) {s : ℕ} (hs : subSize "induced_gated" c = .ok s) (hq : c.size / s = a.size) (bias : ℕ → ℝ) : ∃ m, InducedGated.init bias t (some ["gate", "gated"]) true = .ok m := by
  have hpc : 0 < c.size := by
    rcases Nat.eq_zero_or_pos c.size with h | h
    · rw [h, Nat.zero_div] at hq
      omega
    · exact h
  obtain ⟨tab, e1, -⟩ := gatedTables_spec (sz := Rep.size) (rs := [a, c]) (by intro r hr; simp at hr; rcases hr with rfl | rfl <;> assumption) [none, some (c.size, s)] rfl true
  have hout : ∃ out, gatedOut t ["gate", "gated"] true = .ok out := by
    refine ⟨⟨t.gspace, [c]⟩, ?_⟩
    unfold gatedOut
    rw [if_pos rfl, indexSelect_nat]
    refine ⟨by decide, rfl, ?_⟩
    rw [ht]
    exact .cons rfl .nil
  obtain ⟨out, hout⟩ := hout
  have hlen : t.len = 2 := by rw [FType.len, ht]; rfl
  unfold InducedGated.init
  simp only [defaultGates, bind, Except.bind, hlen]
  rw [if_neg (by simp)]
  simp only [ht, List.zip_cons_cons, List.zip_nil_right, mapE, InducedGated.checkField, if_true, if_pos ha, if_pos hc, bind, Except.bind, String.reduceEq, if_false]
  rw [if_neg (by decide)]
  have hQ : InducedGated.quotientSize [("gate", a), ("gated", c)] = .ok (some a.size) := by
    unfold InducedGated.quotientSize
    simp
  simp only [hQ, InducedGated.subField, if_true, String.reduceEq, if_false, hs, hq, bind, Except.bind, hout, InducedGated.label, List.flatten_cons, List.flatten_nil, List.append_nil, List.nil_append]
  have hd : dictGet [(c.name, s)] c.name = .ok s := by simp [dictGet, FType.lookupLast]
  simp only [hd, e1]
  exact ⟨_, rfl⟩

example : ∃ m, InducedGated.init (fun _ => 1) (⟨(), [indRep, indRep]⟩ : FType Unit (Rep Bool Unit)) (some ["gate", "gated"]) true = .ok m ∧
    FibreEquivariant (B := Unit) (P := Unit) (C := Unit) (fun _ => True) ⟨(), [indRep, indRep]⟩ m.outType (InducedGated.forward (fun _ _ _ => 7) m) := by
  obtain ⟨m, hm⟩ := inducedGated_init (t := (⟨(), [indRep, indRep]⟩ : FType Unit (Rep Bool Unit))) (a := indRep) (c := indRep) rfl (by simp [indRep]) ⟨"induced_gated_1", by simp [indRep], by decide⟩
    two_pos (indRep_sub _ (.inr rfl)) rfl (fun _ => 1)
  have hget : ∀ (k : ℕ) r, ([indRep, indRep] : List (Rep Bool Unit))[k]? = some r → r = indRep := fun k r h => by
    have := List.mem_of_getElem? h
    simpa using this
  refine ⟨m, hm, (InducedGated.C51_gated (B := Unit) (P := Unit) (C := Unit) _ _ indType_pos ?_ _ hm 2 ["gate", "gated"] rfl (fun k r _ hr => by rw [hget k r hr]; rfl) ?_ _).2.1⟩
  · intro r hr r' hr' _
    obtain rfl : r = indRep := by simpa using hr
    obtain rfl : r' = indRep := by simpa using hr'
    rfl
  · intro g _
    obtain ⟨h1, h2, σ, h3⟩ := swapRep_perm g
    refine ⟨σ, fun k r _ hr => ?_, fun k r s _ hr hs => ?_⟩
    · rw [hget k r hr]
      exact ⟨h1, h2, h3⟩
    · rw [hget k r hr] at hs ⊢
      rw [indRep_sub _ (.inr rfl)] at hs
      obtain rfl := Except.ok.inj hs
      refine ⟨h1, h2, fun _ => NpMat.eye 1, fun i j p q hp hq => ?_⟩
      obtain rfl : p = 0 := by omega
      obtain rfl : q = 0 := by omega
      have := h3 i j
      simp only [Nat.mul_one, Nat.add_zero]
      refine this.trans ?_
      rw [show (NpMat.eye 1 : NpMat ℝ).get 0 0 = 1 from by simp [NpMat.eye]]
      exact ite_congr rfl (fun _ => rfl) fun _ => rfl

/-! ### Gates induced from another subgroup -/

/-- The representation of `Z2 × Z2` on the cosets of one factor. -/
noncomputable def factorRep (name : String) (f : Bool × Bool → Bool) : Rep (Bool × Bool) Unit :=
  ⟨name, [(), ()], NpMat.eye 2, NpMat.eye 2, fun g => swapRep.mat (f g), {"induced_gate", "induced_gated_1"}⟩

/-- **C51** `InducedGatedNonLinearity1` only compares the numbers of cosets: with a gate induced from one factor of `Z2 × Z2` and a gated field induced from the other one, it is accepted but not equivariant. -/
theorem C51_gated_subgroups_violated : ∃ m, InducedGated.init (fun _ => 0) (⟨(), [factorRep "a" Prod.fst, factorRep "b" Prod.snd]⟩ : FType Unit (Rep (Bool × Bool) Unit)) (some ["gate", "gated"]) true = .ok m ∧
    ¬ FibreEquivariant (B := Unit) (P := Unit) (C := Unit) (fun _ => True) (⟨(), [factorRep "a" Prod.fst, factorRep "b" Prod.snd]⟩ : FType Unit (Rep (Bool × Bool) Unit)) m.outType
      (InducedGated.forward (fun _ _ _ => 0) m) := by
  have hsub : ∀ name f, subSize "induced_gated" (factorRep name f) = .ok 1 := by
    intro name f
    refine subSize_eq (nl := "induced_gated_1") (by simp [factorRep]) (by decide) ?_ (by decide) one_pos (Nat.mod_one _)
    intro nl' h1 h2
    simp only [factorRep, Finset.mem_insert, Finset.mem_singleton] at h1
    rcases h1 with rfl | rfl
    · exact absurd h2 (by decide)
    · rfl
  set t : FType Unit (Rep (Bool × Bool) Unit) := ⟨(), [factorRep "a" Prod.fst, factorRep "b" Prod.snd]⟩ with ht
  obtain ⟨m, hm⟩ := inducedGated_init (t := t) rfl (by simp [factorRep]) ⟨"induced_gated_1", by simp [factorRep], by decide⟩ two_pos (hsub "b" Prod.snd) rfl (fun _ => 0)
  refine ⟨m, hm, fun h => ?_⟩
  obtain ⟨gs, e0, F, hb⟩ := InducedGated.facts hm
  obtain rfl : gs = ["gate", "gated"] := (Except.ok.inj e0).symm
  have hsq : t.Square (fun _ => True) := by
    intro r hr g _
    simp only [ht, List.mem_cons, List.not_mem_nil, or_false] at hr
    rcases hr with rfl | rfl <;> exact ⟨rfl, rfl⟩
  have hpos : ∀ r ∈ t.reprs, 0 < r.size := by
    intro r hr
    simp only [ht, List.mem_cons, List.not_mem_nil, or_false] at hr
    rcases hr with rfl | rfl <;> exact two_pos
  have hname : InducedGated.NamesDetermine t := by
    intro r hr r' hr' e
    simp only [ht, List.mem_cons, List.not_mem_nil, or_false] at hr hr'
    rcases hr with rfl | rfl <;> rcases hr' with rfl | rfl
    · rfl
    · exact absurd e (by simp [factorRep])
    · exact absurd e (by simp [factorRep])
    · rfl
  have hsz : t.size Rep.size = 4 := by rw [FType.size_eq]; rfl
  have hout : m.outType.reprs = [factorRep "b" Prod.snd] := by
    have hk := (kept_fields (rs := t.reprs) F.labels_len true).1
    rw [← F.out, F.kept_eq, show labelled ["gate", "gated"] "gated" = [1] from by decide] at hk
    exact GatedNL.forall₂_unique (f := fun k : ℕ => t.reprs[k]?) hk (.cons rfl .nil)
  have hgate : m.gateOf 1 = 0 := by
    have h1 := (F.gateOf_spec (k := 1) rfl rfl).1
    rw [F.gates_eq, show labelled ["gate", "gated"] "gate" = [0] from by decide] at h1
    have := List.mem_of_getElem? h1
    simpa using this
  have hsqo : m.outType.Square (fun _ => True) := by
    intro r hr g _
    rw [hout] at hr
    obtain rfl : r = factorRep "b" Prod.snd := by simpa using hr
    exact ⟨rfl, rfl⟩
  let x : FTensor Unit Unit := ⟨4, fun _ c _ => if c = 0 then 0 else 1⟩
  obtain ⟨y, gx, gy, gy', e1, e2, e3, e4, e5, e6, e7, e8, e9⟩ := h ⟨x, t, ()⟩ rfl hsz.symm (true, false) trivial
  obtain ⟨gx', f1, f2, f3⟩ := transformFibers_act (P := Unit) hsq (g := (true, false)) trivial x hsz.symm
  have hgx : gx = ⟨gx', t, ()⟩ := by
    simp only [GTensor.transformFibers, bind, Except.bind, f1] at e4
    rw [GTensor.mk', if_pos f2] at e4
    exact (Except.ok.inj e4).symm
  subst hgx
  obtain ⟨gy'', g1, g2, g3⟩ := transformFibers_act (P := Unit) hsqo (g := (true, false)) trivial y.tensor e3
  have hgy : gy' = ⟨gy'', m.outType, y.coords⟩ := by
    simp only [GTensor.transformFibers, bind, Except.bind, e2, g1] at e6
    rw [GTensor.mk', if_pos g2] at e6
    exact (Except.ok.inj e6).symm
  subst hgy
  obtain ⟨y1, a1, a2, a3, a4, a5⟩ := F.forward_spec (C := Unit) hname hpos (fun _ _ _ => 0) ⟨x, t, ()⟩ rfl hsz.symm
  obtain rfl : y = y1 := Except.ok.inj (e1.symm.trans a1)
  obtain ⟨y2, b1, b2, b3, b4, b5⟩ := F.forward_spec (C := Unit) hname hpos (fun _ _ _ => 0) ⟨gx', t, ()⟩ rfl f2
  obtain rfl : gy = y2 := Except.ok.inj (e5.symm.trans b1)
  have hsb : (factorRep "b" Prod.snd).size = 2 := rfl
  have hk : (labelled ["gate", "gated"] "gated")[0]? = some 1 := by decide
  have p0 := a5 0 1 (factorRep "b" Prod.snd) 1 hk rfl (hsub _ _) 0 two_pos () ()
  have p1 := a5 0 1 (factorRep "b" Prod.snd) 1 hk rfl (hsub _ _) 1 one_lt_two () ()
  have q0 := b5 0 1 (factorRep "b" Prod.snd) 1 hk rfl (hsub _ _) 0 two_pos () ()
  have r0 := g3 0 (factorRep "b" Prod.snd) (by rw [hout]; rfl) () 0 () two_pos
  have s0 := f3 0 (factorRep "a" Prod.fst) rfl () 0 () two_pos
  have s2 := f3 1 (factorRep "b" Prod.snd) rfl () 0 () two_pos
  have z := e9.2 () 0 () (by rw [b4, FType.size_eq, hout]; exact two_pos)
  have o0 : chanOffset Rep.size m.outType.reprs 0 = 0 := rfl
  have o1 : chanOffset Rep.size t.reprs 1 = 2 := rfl
  have o2 : chanOffset Rep.size t.reprs 0 = 0 := rfl
  have hsa : (factorRep "a" Prod.fst).size = 2 := rfl
  have hmb : ∀ i j, ((factorRep "b" Prod.snd).mat (true, false)).get i j = if i = j then 1 else 0 := fun i j => by simp [factorRep, swapRep]
  have hma : ∀ i j, ((factorRep "a" Prod.fst).mat (true, false)).get i j = if i = j then 0 else 1 := fun i j => by simp [factorRep, swapRep]
  simp only [hsb, o0, o1, hgate, hb, o2, Nat.zero_add, Nat.add_zero, Nat.div_one, sub_zero, x] at p0 p1 q0
  simp only [hsa, hsb, hma, hmb, o0, o1, o2, Finset.sum_range_succ, Finset.sum_range_zero, x] at r0 s0 s2
  norm_num at p0 p1 r0 s0 s2 q0
  rw [s0, s2] at q0
  rw [q0, r0, p0] at z
  have hexp : Real.exp (-1) < 1 := (Real.exp_lt_exp.2 (by norm_num : (-1 : ℝ) < 0)).trans_eq Real.exp_zero
  norm_num [torchSigmoid] at z
  rw [one_div, inv_inj] at z
  linarith

end Escnn
