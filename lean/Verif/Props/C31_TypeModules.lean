import Verif.Model.TypeModules
import Verif.Lemmas.Grouped
import Verif.Lemmas.Selection
import Verif.Props.C13_RestrictRep
import Verif.Props.C19_Disentangle
import Verif.Props.C27_Arith

/-!
# C31: the restriction and disentangle modules
-/

namespace Escnn

open NpMat

variable {B P S S' C G H Id Id' : Type} {T : IrrepTable G Id} {TH : IrrepTable H Id'} {El : G → Prop} {ElH : H → Prop} {op : G → G → G} {one : G}

/-- The output of `RestrictionModule` holds the tensor of the input with the restricted type, and acting by `h` on it is acting by the
included element `g` on the input.  (Representations sharing a name are excluded, see C24.) -/
theorem C31_restriction_partial (t : FType S (Rep G Id)) (hne : t.reprs ≠ []) (res : Rep G Id → Except Err (Rep H Id')) (sub : S') (parent : H → Except Err G)
    (uniq : List (Rep G Id)) (hu : ∀ r, r ∈ uniq ↔ r ∈ t.reprs)
    (hname : ∀ r ∈ t.reprs, ∀ r' ∈ t.reprs, r.name = r'.name → r = r')
    (hres : ∀ r ∈ t.reprs, ∃ r', res r = .ok r' ∧ r'.size = r.size ∧ ∀ h g, ElH h → parent h = .ok g → r'.mat h ≈ r.mat g) :
    ∃ m, RestrictionM.init Rep.name res sub uniq t = .ok m ∧ List.Forall₂ (fun r r' => res r = .ok r') t.reprs m.outType.reprs ∧ m.outType.gspace = sub ∧
      ∀ x : GTensor B P S (Rep G Id) C, x.type = t → x.tensor.chans = x.type.size Rep.size →
        ∃ y, m.forward Rep.PyEq Rep.size x = .ok y ∧ y.tensor = x.tensor ∧ y.type = m.outType ∧ y.coords = x.coords ∧
          ∀ h g, ElH h → parent h = .ok g → y.type.fiberRep h ≈ x.type.fiberRep g ∧
            ∀ x', x.transformFibers g = .ok x' → ∃ y' z, y.transformFibers h = .ok y' ∧ m.forward Rep.PyEq Rep.size x' = .ok z ∧
              z.type = y'.type ∧ z.coords = y'.coords ∧ z.tensor ≈ y'.tensor := by
  haveI : Nonempty (Rep H Id') := by
    obtain ⟨r, L, hr⟩ := List.exists_cons_of_ne_nil hne
    obtain ⟨r', -⟩ := hres r (by rw [hr]; simp)
    exact ⟨r'⟩
  choose! f hf1 hf2 hf3 using hres
  have hR := FType.C24_restrict_partial Rep.name res sub t hne uniq hu f hf1 hname
  refine ⟨⟨t, sub, t.reprs.map f⟩, by rw [RestrictionM.init, hR]; rfl, ?_, rfl, fun x hxt hx => ?_⟩
  · rw [List.forall₂_map_right_iff, List.forall₂_same]
    exact hf1
  have hsz : (⟨sub, t.reprs.map f⟩ : FType S' (Rep H Id')).size Rep.size = t.size Rep.size := by
    rw [FType.size_eq, FType.size_eq, List.map_map]
    congr 1
    exact List.map_congr_left fun r hr => hf2 r hr
  have hfwd : ∀ u : GTensor B P S (Rep G Id) C, u.type = t → u.tensor.chans = t.size Rep.size →
      RestrictionM.forward Rep.PyEq Rep.size ⟨t, sub, t.reprs.map f⟩ u = .ok ⟨u.tensor, ⟨sub, t.reprs.map f⟩, u.coords⟩ := by
    intro u hu hc
    rw [RestrictionM.forward, if_pos (by rw [hu]; exact FType.PyEq.refl _)]
    rw [GTensor.mk', if_pos (by rw [hc, hsz])]
  have hfib : ∀ h g, ElH h → parent h = .ok g → (⟨sub, t.reprs.map f⟩ : FType S' (Rep H Id')).fiberRep h ≈ t.fiberRep g := by
    intro h g hh hg
    unfold FType.fiberRep
    rw [List.map_map]
    exact blockDiag_map_congr fun r hr => hf3 r hr h g hh hg
  refine ⟨_, hfwd x hxt (by rw [hx, hxt]), rfl, rfl, rfl, fun h g hh hg => ⟨by rw [hxt]; exact hfib h g hh hg, fun x' hx' => ?_⟩⟩
  have hE := hfib h g hh hg
  unfold GTensor.transformFibers FType.transformFibers at hx' ⊢
  rw [hxt] at hx'
  simp only [bind, Except.bind] at hx' ⊢
  split at hx'
  · cases hx'
  · rename_i d hd
    obtain ⟨hc1, rfl⟩ := matChannels_iff.1 hd
    obtain ⟨h1, rfl⟩ := GTensor.mk'_ok_iff.1 hx'
    rw [matChannels_ok (hE.2.1.trans hc1)]
    rw [← FType.size_eq] at h1
    refine ⟨⟨chanMul ((⟨sub, t.reprs.map f⟩ : FType S' (Rep H Id')).fiberRep h) x.tensor, ⟨sub, t.reprs.map f⟩, x.coords⟩,
      ⟨chanMul (t.fiberRep g) x.tensor, ⟨sub, t.reprs.map f⟩, x.coords⟩, ?_, ?_, rfl, rfl, ?_⟩
    · simp only
      rw [GTensor.mk', if_pos]
      rw [hsz]
      exact (hE.1 : _).trans h1
    · exact hfwd _ rfl h1
    · exact chanMul_congr hE.symm (FTensor.Eqv.refl _) hc1

/-- The case of `Group.restrict_representation` (C13): the hypotheses on `res` are met by any group whose `_restrict_irrep` is
correct. -/
theorem C31_restrict_representation (opH : H → H → H) (oneH : H) (parent : H → Except Err G) (restrictIrrep : Id → Except Err (NpMat ℝ × List Id'))
    (hT : T.Valid El op one) (hS : TH.Valid ElH opH oneH) (honeH : ElH oneH) (hpar : ∀ h g, ElH h → parent h = .ok g → El g)
    (hR : RestrictsCorrectly T TH ElH parent restrictIrrep) (taken : List String) (gname : String) (trivial : Id') (r : Rep G Id) (hwf : r.WF T El)
    (hname : gname ++ ":" ++ r.name ∉ taken) :
    ∃ r', restrictRep T TH taken gname trivial restrictIrrep r = .ok r' ∧ r'.size = r.size ∧ ∀ h g, ElH h → parent h = .ok g → r'.mat h ≈ r.mat g := by
  obtain ⟨r', h1, -, h3, -, h5⟩ := C13_restrict T TH El ElH opH oneH parent restrictIrrep op one hT hS honeH hpar hR taken gname trivial r hwf hname
  exact ⟨r', h1, h3, h5⟩

/-! ### disentangling -/

theorem sum_flatMap' {α : Type} (L : List α) (f : α → List ℕ) : (L.flatMap f).sum = (L.map fun a => (f a).sum).sum := by
  induction L with
  | nil => rfl
  | cons a L ih => simp [ih]

/-- `P` maps fields of type `r` to fields of type `⊕ reps`. -/
structure IsDisentangling (T : IrrepTable G Id) (El : G → Prop) (r : Rep G Id) (P : NpMat ℝ) (reps : List (Rep G Id)) : Prop where
  rows : P.rows = r.size
  cols : P.cols = r.size
  wf : ∀ f ∈ reps, f.WF T El
  size : (reps.map Rep.size).sum = r.size
  intertwines : ∀ g, El g → mul (blockDiag (reps.map fun f => f.mat g)) P ≈ mul P (r.mat g)

theorem permMatrix_ortho {P : NpMat ℝ} {n : ℕ} {order : List ℕ} (h : IsPermMatrix P n order) : mul (transpose P) P ≈ eye n := by
  obtain ⟨hp, hr, hc, hP⟩ := h
  have hr : P.rows = n := hr
  have hc : P.cols = n := hc
  have hl : order.length = n := by simpa using hp.length_eq
  refine ⟨hc, hc, fun i j hi hj => ?_⟩
  have hi : i < n := by rw [← hc]; exact hi
  have hj : j < n := by rw [← hc]; exact hj
  have hnd : order.Nodup := hp.nodup_iff.2 List.nodup_range
  have hmem : ∀ k, k < n → k ∈ order := fun k hk => hp.mem_iff.2 (List.mem_range.2 hk)
  simp only [mul, transpose, eye]
  rw [hr]
  have e : ∀ k ∈ Finset.range n, P.get k i * P.get k j = if k = order.idxOf i ∧ k = order.idxOf j then 1 else 0 := by
    intro k hk
    rw [Finset.mem_range] at hk
    rw [hP k i (by rw [hr]; exact hk) (by rw [hc]; exact hi), hP k j (by rw [hr]; exact hk) (by rw [hc]; exact hj)]
    have key : ∀ i, i < n → (order.getD k 0 = i ↔ k = order.idxOf i) := by
      intro i hi
      rw [List.getD_eq_getElem _ _ (by rw [hl]; exact hk)]
      constructor
      · rintro rfl
        exact (hnd.idxOf_getElem k _).symm
      · rintro rfl
        exact List.getElem_idxOf _
    simp only [key i hi, key j hj]
    by_cases h1 : k = order.idxOf i <;> by_cases h2 : k = order.idxOf j <;> simp [h1, h2]
  rw [Finset.sum_congr rfl e]
  have hil : order.idxOf i < n := by rw [← hl]; exact List.idxOf_lt_length_iff.2 (hmem i hi)
  by_cases hij : i = j
  · subst hij
    simp [hil]
  · rw [if_neg hij]
    refine Finset.sum_eq_zero fun k _ => if_neg ?_
    rintro ⟨h1, h2⟩
    exact hij ((List.idxOf_inj (hmem i hi)).1 (h1.symm.trans h2))

/-- The result of `disentangle` is as required. -/
theorem C31_disentangle_spec (hT : T.Valid El op one) (hone : El one) (taken : List String) (r : Rep G Id) (hwf : r.WF T El) (nBlocks : ℕ) (labels : ℕ → ℕ)
    (hcomp : IsComponents (disGraph (r.irreps.map T.size) r.cob) (r.irreps.length + r.size) nBlocks labels)
    (hpos : ∀ i, T.ok i = true → 0 < T.size i) (hname : ∀ β < nBlocks, r.name ++ "_" ++ toString β ∉ taken) :
    ∃ P reps, disentangle T taken r nBlocks labels = .ok (P, reps) ∧ IsDisentangling T El r P reps := by
  obtain ⟨P, reps, order, h1, h2, h3, h4, h5, h6⟩ := C19_disentangle hT taken r hwf nBlocks labels hcomp hpos hname
  have hPr : P.rows = r.size := h2.2.1
  have hPc : P.cols = r.size := h2.2.2.1
  have hmr : ∀ f ∈ reps, ∀ g, El g → (f.mat g).rows = f.size ∧ (f.mat g).cols = f.size := fun f hf g hg => ⟨(h4 f hf).1.rows hg, (h4 f hf).1.cols hg⟩
  have hrm : ∀ g, El g → (r.mat g).rows = r.size ∧ (r.mat g).cols = r.size := fun g hg => ⟨hwf.rows hg, hwf.cols hg⟩
  have hsize : (reps.map Rep.size).sum = r.size := by
    have := (h6 one hone).1
    rw [blockDiag_rows, List.map_map] at this
    rw [← hPr]
    rw [show P.rows = _ from this]
    congr 1
    exact List.map_congr_left fun f hf => ((hmr f hf one hone).1).symm
  refine ⟨P, reps, h1, hPr, hPc, fun f hf => (h4 f hf).1, hsize, fun g hg => ?_⟩
  have hc : (mul (mul P (r.mat g)) (transpose P)).cols = P.rows := rfl
  refine (mul_congr (h6 g hg).symm (Eqv.refl P) ?_).trans ?_
  · rw [(h6 g hg).2.1.symm]
    exact hc
  · refine (mul_assoc' _ _ _).trans ?_
    have h7 := permMatrix_ortho h2
    refine (mul_congr_right _ h7 ?_).trans (mul_eye' _ (hrm g hg).2)
    change (r.mat g).cols = P.cols
    rw [(hrm g hg).2, hPc]

variable {uniq : List (Rep G Id)} {t : FType S (Rep G Id)} {dis : Rep G Id → Except Err (NpMat ℝ × List (Rep G Id))}

/-- The output of `DisentangleModule`, for representations with distinct names: its type is the concatenation of the disentangled
representations, field after field; the channels of field `k` are multiplied by the change of basis of its representation. -/
theorem disentangle_forward (hne : t.reprs ≠ []) (hu : ∀ r, r ∈ uniq ↔ r ∈ t.reprs) (hname : ∀ r ∈ t.reprs, ∀ r' ∈ t.reprs, r.name = r'.name → r = r')
    (hpos : ∀ r ∈ t.reprs, 0 < r.size) (Q : Rep G Id → NpMat ℝ) (fs : Rep G Id → List (Rep G Id)) (hdis : ∀ r ∈ t.reprs, dis r = .ok (Q r, fs r))
    (hQ : ∀ r ∈ t.reprs, (Q r).rows = r.size ∧ (Q r).cols = r.size) (hfs : ∀ r ∈ t.reprs, ((fs r).map Rep.size).sum = r.size) (junk : B → ℕ → P → ℝ) :
    ∃ m, DisentangleM.init dis uniq t = .ok m ∧ m.inType = t ∧ m.outType = ⟨t.gspace, t.reprs.flatMap fs⟩ ∧
      ∀ x : GTensor B P S (Rep G Id) C, x.type.PyEq Rep.PyEq t → x.tensor.chans = t.size Rep.size →
        ∃ y, m.forward junk x = .ok y ∧ y.type = m.outType ∧ y.coords = x.coords ∧ y.tensor ≈ chanMul (blockDiag (t.reprs.map Q)) x.tensor := by
  have hdict : mapE (fun r => do
      let d ← dis r
      .ok (r.name, r.size, d.1, d.2)) uniq = .ok (uniq.map fun r => (r.name, r.size, Q r, fs r)) :=
    mapE_map fun r hr => by rw [hdis r ((hu r).1 hr)]; rfl
  have hlook : ∀ r ∈ t.reprs, tabGet (uniq.map fun r => (r.name, r.size, Q r, fs r)) r.name = .ok (r.size, Q r, fs r) := by
    intro r hr
    rw [tabGet_ok]
    unfold FType.lookupLast
    have hmem : ∀ p ∈ (uniq.map fun r => (r.name, r.size, Q r, fs r)).filter (fun p => p.1 = r.name), p = (r.name, r.size, Q r, fs r) := by
      intro p hp
      obtain ⟨a, b⟩ := List.mem_filter.1 hp
      obtain ⟨x, hx, rfl⟩ := List.mem_map.1 a
      rw [hname x ((hu x).1 hx) r hr (by simpa using b)]
    have hin : (r.name, r.size, Q r, fs r) ∈ (uniq.map fun r => (r.name, r.size, Q r, fs r)).filter (fun p => p.1 = r.name) :=
      List.mem_filter.2 ⟨List.mem_map.2 ⟨r, (hu r).2 hr, rfl⟩, by simp⟩
    rw [List.getLast?_eq_some_getLast (List.ne_nil_of_mem hin), hmem _ (List.getLast_mem _)]
    rfl
  have hlen : (t.reprs.map Rep.name).length = t.len := by simp [FType.len]
  obtain ⟨tab, htab, -⟩ := fieldTable_spec (sz := Rep.size) t hpos (t.reprs.map Rep.name) hlen
  have hfne : t.reprs.flatMap fs ≠ [] := by
    obtain ⟨r, L, hr⟩ := List.exists_cons_of_ne_nil hne
    have h1 := hfs r (by rw [hr]; simp)
    have h2 := hpos r (by rw [hr]; simp)
    rw [hr, List.flatMap_cons]
    intro h0
    rw [(List.append_eq_nil_iff.1 h0).1] at h1
    simp at h1
    omega
  have hinit : DisentangleM.init dis uniq t = .ok ⟨t, ⟨t.gspace, t.reprs.flatMap fs⟩, t.reprs.map Rep.name, uniq.map fun r => (r.name, r.size, Q r, fs r), tab⟩ := by
    unfold DisentangleM.init
    rw [hdict]
    simp only [bind, Except.bind]
    rw [mapE_map (g := fun r : Rep G Id => (r.size, Q r, fs r)) hlook]
    simp only [List.flatMap_map]
    rw [FType.mk'_ok_iff.2 ⟨hfne, rfl⟩]
    simp only
    rw [htab]
  refine ⟨_, hinit, rfl, rfl, fun x hxt hx => ?_⟩
  have hx' : x.tensor.chans = (t.reprs.map Rep.size).sum := by rw [hx, FType.size_eq]
  -- the size and the matrix as functions of the name
  have hsz : ∃ s : String → ℕ, ∀ r ∈ t.reprs, s r.name = r.size := by
    refine ⟨fun n => match tabGet (uniq.map fun r => (r.name, r.size, Q r, fs r)) n with | .ok e => e.1 | .error _ => 0, fun r hr => ?_⟩
    simp only [hlook r hr]
  have hq : ∃ q : String → NpMat ℝ, ∀ r ∈ t.reprs, q r.name = Q r := by
    refine ⟨fun n => match tabGet (uniq.map fun r => (r.name, r.size, Q r, fs r)) n with | .ok e => e.2.1 | .error _ => zeros 0 0, fun r hr => ?_⟩
    simp only [hlook r hr]
  obtain ⟨s, hs⟩ := hsz
  obtain ⟨q, hq⟩ := hq
  have hget : ∀ (k : ℕ) l r, (t.reprs.map Rep.name)[k]? = some l → t.reprs[k]? = some r → Rep.size r = s l := by
    intro k l r h1 h2
    rw [List.getElem?_map, h2] at h1
    have : r.name = l := by simpa using h1
    rw [← this, hs r (List.mem_of_getElem? h2)]
  have hcount : ∀ l : String, (t.reprs.map Rep.name).count l = (labelled (t.reprs.map Rep.name) l).length := by
    intro l
    generalize t.reprs.map Rep.name = labels
    rw [labelled, List.count_eq_countP, List.countP_eq_length_filter]
    have : labels.filter (fun a => a == l) = ((List.range labels.length).filter fun k => labels[k]? = some l).filterMap fun k => labels[k]? := by
      have h0 : labels = (List.range labels.length).filterMap fun k => labels[k]? := by
        have := filterMap_range' labels 0 labels.length
        rw [← List.range_eq_range'] at this
        rw [this]; simp
      conv_lhs => rw [h0]
      rw [List.filter_filterMap, List.filterMap_filter]
      refine List.filterMap_congr fun k _ => ?_
      cases h : labels[k]? with
      | none => simp
      | some a => by_cases e : a = l <;> simp [Option.guard, Option.filter, e]
    rw [this, List.length_filterMap_eq_countP]
    refine List.countP_eq_length.2 fun k hk => ?_
    have := (List.mem_filter.1 hk).2
    simp at this
    simp [this]
  obtain ⟨res, e1, e2, e3⟩ := groupedLoop_fields (B := B) (P := P) (sz := Rep.size) (sz' := Rep.size) (t := t) (t' := t) (rs := t.reprs) (rs' := t.reprs)
    (labels := t.reprs.map Rep.name) (s := s) (s' := s) (x := x.tensor) (out := ⟨x.tensor.chans, junk⟩)
    (F := DisentangleM.step ⟨t, ⟨t.gspace, t.reprs.flatMap fs⟩, t.reprs.map Rep.name, uniq.map fun r => (r.name, r.size, Q r, fs r), tab⟩)
    (fun l => ⟨(labelled (t.reprs.map Rep.name) l).length, s l, fun b n o p => ∑ i ∈ Finset.range (s l), (q l).get o i *
      x.tensor.get b (chanOffset Rep.size t.reprs ((labelled (t.reprs.map Rep.name) l).getD n 0) + i) p⟩)
    rfl rfl hlen hlen hpos hpos hget hget htab htab hx' hx' (fun l hl f hf d hd => by
      obtain ⟨r, hr, rfl⟩ := List.mem_map.1 hl
      obtain ⟨f1, f2, f3⟩ := hf
      refine ⟨FieldsT.flat ⟨(labelled (t.reprs.map Rep.name) r.name).length, (Q r).rows, fun b c o p => ∑ i ∈ Finset.range (Q r).cols, (Q r).get o i *
        d.get b (c * r.size + i) p⟩, ?_, ?_⟩
      · unfold DisentangleM.step
        simp only [bind, Except.bind]
        rw [hlook r hr]
        simp only
        rw [FTensor.toFields, if_pos]
        · simp only [FieldsT.matMul]
          rw [if_pos (hQ r hr).2, hcount]
        · rw [hcount, hd.1]
          simp only [FieldsT.flat, f1, f2, fieldsView, hs r hr]
      · refine FieldsT.Eqv.flat ⟨rfl, by simp only; rw [(hQ r hr).1, hs r hr], fun b n o p hn ho => ?_⟩
        simp only at hn ho ⊢
        rw [(hQ r hr).2, hs r hr, hq r hr]
        refine Finset.sum_congr rfl fun i hi => ?_
        rw [Finset.mem_range] at hi
        congr 1
        have hlt : n * r.size + i < f.n * f.size := by
          rw [f1, f2]
          simp only [fieldsView, hs r hr]
          calc n * r.size + i < n * r.size + r.size := by omega
            _ = (n + 1) * r.size := by ring
            _ ≤ _ := Nat.mul_le_mul_right _ hn
        rw [hd.2 b _ p (by rw [hd.1]; exact hlt)]
        simp only [FieldsT.flat]
        have hfs : f.size = r.size := by rw [f2]; simp only [fieldsView, hs r hr]
        rw [hfs, Nat.mul_comm, Nat.mul_add_div (by omega), Nat.div_eq_of_lt hi, Nat.mul_add_mod, Nat.mod_eq_of_lt hi, Nat.add_zero,
          f3 b n i p (by rw [f1]; exact hn) (by rw [hfs]; exact hi)]
        rfl) (fun l _ => ⟨rfl, rfl⟩)
  have hout : res.chans = (((t.reprs.flatMap fs)).map Rep.size).sum := by
    rw [e2]
    simp only
    rw [hx', List.map_flatMap, sum_flatMap']
    congr 1
    exact (List.map_congr_left fun r hr => hfs r hr).symm
  refine ⟨⟨res, ⟨t.gspace, t.reprs.flatMap fs⟩, x.coords⟩, ?_, rfl, rfl, ?_⟩
  · rw [DisentangleM.forward, if_pos hxt]
    simp only [bind, Except.bind]
    rw [e1]
    exact GTensor.mk'_ok_iff.2 ⟨hout, rfl⟩
  · refine ⟨?_, fun b c p hc => ?_⟩
    · simp only [e2, hx', chanMul, blockDiag_rows, List.map_map]
      congr 1
      exact (List.map_congr_left fun r hr => (hQ r hr).1).symm
    · simp only [e2, hx'] at hc
      obtain ⟨k, r, o, h1, h2, rfl⟩ := exists_field hc
      have hr := List.mem_of_getElem? h1
      obtain ⟨n, h3, h4⟩ := e3 k r.name (by rw [List.getElem?_map, h1]; rfl)
      have hk := (List.getElem?_eq_some_iff.1 h1).1
      have hk' : k < (t.reprs.map Q).length := by simpa using hk
      have hrk : t.reprs[k] = r := (List.getElem?_eq_some_iff.1 h1).2
      have ha := blockDiag_apply (t.reprs.map Q) (fun i => x.tensor.get b i p) k o hk' (by simp only [List.getElem_map, hrk, (hQ r hr).1]; exact h2)
      have er : (((t.reprs.map Q).take k).map rows).sum = chanOffset Rep.size t.reprs k := by
        rw [chanOffset, ← List.map_take, List.map_map]
        congr 1
        exact List.map_congr_left fun r hr => (hQ r (List.mem_of_mem_take hr)).1
      have ec : (((t.reprs.map Q).take k).map cols).sum = chanOffset Rep.size t.reprs k := by
        rw [chanOffset, ← List.map_take, List.map_map]
        congr 1
        exact List.map_congr_left fun r hr => (hQ r (List.mem_of_mem_take hr)).2
      rw [er, ec] at ha
      simp only [chanMul]
      rw [ha, h4 b o p (by rw [hs r hr]; exact h2)]
      simp only [List.getElem_map, hrk]
      rw [hs r hr, hq r hr, (hQ r hr).2]
      refine Finset.sum_congr rfl fun i _ => ?_
      rw [List.getD_eq_getElem?_getD, h3]
      rfl

/-- `DisentangleModule` is equivariant: its output transforms under the disentangled type. -/
theorem C31_disentangle_partial (hT : T.Valid El op one) (hne : t.reprs ≠ []) (hu : ∀ r, r ∈ uniq ↔ r ∈ t.reprs)
    (hname : ∀ r ∈ t.reprs, ∀ r' ∈ t.reprs, r.name = r'.name → r = r') (hwf : ∀ r ∈ t.reprs, r.WF T El) (hpos : ∀ r ∈ t.reprs, 0 < r.size)
    (hdis : ∀ r ∈ t.reprs, ∃ Q fs, dis r = .ok (Q, fs) ∧ IsDisentangling T El r Q fs) (junk : B → ℕ → P → ℝ) :
    ∃ m, DisentangleM.init dis uniq t = .ok m ∧ m.inType = t ∧ m.outType.gspace = t.gspace ∧
      (∃ fss, List.Forall₂ (fun r fs => ∃ Q, dis r = .ok (Q, fs)) t.reprs fss ∧ m.outType.reprs = fss.flatten) ∧
      ∀ x : GTensor B P S (Rep G Id) C, x.WF T El → x.type.PyEq Rep.PyEq t →
        ∃ y, m.forward junk x = .ok y ∧ y.type = m.outType ∧ y.WF T El ∧
          ∀ g, El g → ∃ x' y' z, x.transformFibers g = .ok x' ∧ y.transformFibers g = .ok y' ∧ m.forward junk x' = .ok z ∧ z ≈ y' := by
  haveI : Nonempty (Rep G Id) := ⟨t.reprs.head hne⟩
  haveI : Nonempty (NpMat ℝ) := ⟨zeros 0 0⟩
  choose! Q fs hd1 hd2 using hdis
  obtain ⟨m, h1, h2, h3, h4⟩ := disentangle_forward (B := B) (P := P) (C := C) hne hu hname hpos Q fs hd1 (fun r hr => ⟨(hd2 r hr).rows, (hd2 r hr).cols⟩) (fun r hr => (hd2 r hr).size) junk
  refine ⟨m, h1, h2, by rw [h3], ⟨t.reprs.map fs, ?_, by rw [h3]; rfl⟩, fun x hx hxt => ?_⟩
  · rw [List.forall₂_map_right_iff, List.forall₂_same]
    exact fun r hr => ⟨Q r, hd1 r hr⟩
  have hxc : x.tensor.chans = t.size Rep.size := hx.chans.trans hxt.size
  obtain ⟨y, e1, e2, e3, e4⟩ := h4 x hxt hxc
  have hywf : y.WF T El := by
    refine ⟨?_, ?_⟩
    · rw [e2, h3, FType.size_eq, e4.1]
      simp only [chanMul]
      rw [blockDiag_rows, List.map_flatMap, sum_flatMap', List.map_map]
      congr 1
      refine List.map_congr_left fun r hr => ?_
      exact (hd2 r hr).rows.trans (hd2 r hr).size.symm
    · rw [e2, h3]
      intro f hf
      obtain ⟨r, hr, hf⟩ := List.mem_flatMap.1 hf
      exact (hd2 r hr).wf f hf
  refine ⟨y, e1, e2, hywf, fun g hg => ?_⟩
  have hx' := GTensor.transformFibers_ok hT hx hg
  have hy' := GTensor.transformFibers_ok hT hywf hg
  have hxw := GTensor.WF.transform hT hx hg hx'
  obtain ⟨z, f1, f2, f3, f4⟩ := h4 ⟨chanMul (x.type.fiberRep g) x.tensor, x.type, x.coords⟩ hxt (hxw.chans.trans hxt.size)
  refine ⟨_, _, z, hx', hy', f1, ?_⟩
  refine ⟨by rw [f2, e2], by rw [f3, e3], ?_⟩
  -- the tensors
  simp only at f4 ⊢
  have hfx : x.type.fiberRep g ≈ t.fiberRep g := hxt.fiberRep hx.reps hwf hT hg
  have hD : mul (m.outType.fiberRep g) (blockDiag (t.reprs.map Q)) ≈ mul (blockDiag (t.reprs.map Q)) (t.fiberRep g) := by
    unfold FType.fiberRep
    rw [h3]
    simp only
    have a1 := blockDiag_flatMap t.reprs fs (fun f => f.mat g)
    have shapes : ∀ r ∈ t.reprs, (blockDiag ((fs r).map fun f => f.mat g)).cols = (Q r).rows := by
      intro r hr
      rw [blockDiag_cols, List.map_map, (hd2 r hr).rows, ← (hd2 r hr).size]
      congr 1
      exact List.map_congr_left fun f hf => ((hd2 r hr).wf f hf).cols hg
    refine (mul_congr_left _ a1 ?_).trans ?_
    · rw [a1.2.1, blockDiag_cols, blockDiag_rows, List.map_map, List.map_map]
      congr 1
      exact List.map_congr_left shapes
    refine (blockDiag_mul _ _ _ shapes).trans ?_
    refine Eqv.trans ?_ (blockDiag_mul _ _ _ ?_).symm
    · exact blockDiag_map_congr fun r hr => (hd2 r hr).intertwines g hg
    · intro r hr
      rw [(hd2 r hr).cols, (hwf r hr).rows hg]
  have hDc : (blockDiag (t.reprs.map Q)).cols = t.size Rep.size := by
    rw [blockDiag_cols, List.map_map, FType.size_eq]
    congr 1
    exact List.map_congr_left fun r hr => (hd2 r hr).cols
  have hDr : (blockDiag (t.reprs.map Q)).rows = t.size Rep.size := by
    rw [blockDiag_rows, List.map_map, FType.size_eq]
    congr 1
    exact List.map_congr_left fun r hr => (hd2 r hr).rows
  have hts := fiberRep_shape hwf hT hg
  refine f4.trans ?_
  refine (chanMul_congr (Eqv.refl _) (chanMul_congr hfx (FTensor.Eqv.refl _) ?_) ?_).trans ?_
  · rw [hfx.2.1, hts.2, hxc]
  · rw [hDc]
    change _ = (x.type.fiberRep g).rows
    rw [hfx.1, hts.1]
  refine (chanMul_mul _ _ _).symm.trans ?_
  refine (chanMul_congr hD.symm (FTensor.Eqv.refl _) ?_).trans ?_
  · change (t.fiberRep g).cols = _
    rw [hts.2, hxc]
  refine (chanMul_mul _ _ _).trans ?_
  rw [e2]
  refine chanMul_congr (Eqv.refl _) e4.symm ?_
  have h5 := fiberRep_shape hywf.reps hT hg
  rw [e2] at h5
  rw [h5.2]
  rw [← e2, ← hywf.chans]
  exact e4.1

/-! ### representations sharing a name -/

noncomputable section

/-- The matrix exchanging two coordinates. -/
def swap2 : NpMat ℝ := of2 0 1 1 0

/-- A representation of `C_2` with the irreps `0, 1` and the change of basis `A`, which is its own inverse. -/
def twoRep (A : NpMat ℝ) : Rep ℤ ℕ := ⟨"r", [0, 1], A, A, fun g => mul (mul A (irrepsBlock (Cyclic.table 2) [0, 1] g)) A, ∅⟩

/-- An irrep of `C_2`. -/
def irr2 (k : ℕ) : Rep ℤ ℕ := ⟨"irrep", [k], eye 1, eye 1, (Cyclic.table 2).mat k, ∅⟩

open Classical in
/-- A correct way to disentangle `twoRep (eye 2)` and `twoRep swap2`, see `twoRep_dis`. -/
def dis2 (r : Rep ℤ ℕ) : Except Err (NpMat ℝ × List (Rep ℤ ℕ)) := if r.cob.get 0 0 = 1 then .ok (eye 2, [irr2 0, irr2 1]) else .ok (swap2, [irr2 0, irr2 1])

theorem dis2_eye : dis2 (twoRep (eye 2)) = .ok (eye 2, [irr2 0, irr2 1]) := by
  rw [dis2, if_pos]; simp [twoRep, eye]

theorem dis2_swap : dis2 (twoRep swap2) = .ok (swap2, [irr2 0, irr2 1]) := by
  rw [dis2, if_neg]; simp [twoRep, swap2, of2]

/-- Membership in `C_2`. -/
abbrev El2 (e : ℤ) : Prop := Cyclic.isElement 2 e = true

theorem irr2_wf (k : ℕ) (hk : k = 0 ∨ k = 1) : (irr2 k).WF (Cyclic.table 2) El2 := by
  have hok : (Cyclic.table 2).ok k = true := by rcases hk with rfl | rfl <;> decide
  have hs : (Cyclic.table 2).size k = 1 := by rcases hk with rfl | rfl <;> rfl
  have hv := Cyclic.table_valid 2 (by norm_num) k hok
  refine ⟨Nat.one_pos, ⟨rfl, rfl, rfl, mul_eye _, mul_eye _⟩, by simpa [irr2] using hok, by simpa [irr2, Rep.size, eye] using hs, fun g hg => ?_⟩
  have h1 : ((Cyclic.table 2).mat k g).rows = 1 := (hv.rows g hg).trans hs
  have h2 : ((Cyclic.table 2).mat k g).cols = 1 := (hv.cols g hg).trans hs
  have h3 := blockDiag_single ((Cyclic.table 2).mat k g)
  refine Eqv.symm ?_
  change mul (mul (eye 1) (blockDiag [(Cyclic.table 2).mat k g])) (eye 1) ≈ (Cyclic.table 2).mat k g
  refine (mul_eye' _ ?_).trans ((eye_mul' _ ?_).trans h3)
  · change (blockDiag [(Cyclic.table 2).mat k g]).cols = 1
    rw [h3.2.1, h2]
  · rw [h3.1, h1]

theorem twoRep_wf {A : NpMat ℝ} (hA : IsInv A A) (hr : A.rows = 2) : (twoRep A).WF (Cyclic.table 2) El2 :=
  ⟨by change 0 < A.rows; omega, hA, show ∀ i ∈ [0, 1], (Cyclic.table 2).ok i = true by decide, by change _ = A.rows; rw [hr]; rfl, fun g _ => Eqv.refl _⟩

theorem twoRep_dis {A : NpMat ℝ} (hA : IsInv A A) (hr : A.rows = 2) : IsDisentangling (Cyclic.table 2) El2 (twoRep A) A [irr2 0, irr2 1] := by
  have hc : A.cols = 2 := hA.1.symm.trans hr
  refine ⟨rfl, hA.1.symm, ?_, by change _ = A.rows; rw [hr]; rfl, fun g hg => ?_⟩
  · intro f hf
    simp only [List.mem_cons, List.not_mem_nil, or_false] at hf
    rcases hf with rfl | rfl
    · exact irr2_wf 0 (.inl rfl)
    · exact irr2_wf 1 (.inr rfl)
  · have hT := Cyclic.table_valid 2 (by norm_num)
    have hD : (irrepsBlock (Cyclic.table 2) [0, 1] g).rows = 2 := irrepsBlock_rows (L := [0, 1]) hT (by decide) hg
    have hD2 : (irrepsBlock (Cyclic.table 2) [0, 1] g).cols = 2 := irrepsBlock_cols (L := [0, 1]) hT (by decide) hg
    change mul (irrepsBlock (Cyclic.table 2) [0, 1] g) A ≈ mul A (mul (mul A (irrepsBlock (Cyclic.table 2) [0, 1] g)) A)
    generalize irrepsBlock (Cyclic.table 2) [0, 1] g = D at *
    have e1 : mul A (mul (mul A D) A) ≈ mul (mul A (mul A D)) A := (mul_assoc' _ _ _).symm
    have e2 : mul A (mul A D) ≈ mul (mul A A) D := (mul_assoc' _ _ _).symm
    have e3 : mul (mul A A) D ≈ mul (eye 2) D := mul_congr_left _ (by have := hA.2.2.2.1; rwa [hr] at this) (by change A.cols = _; rw [hc, hD])
    have e4 := e2.trans (e3.trans (eye_mul' D hD))
    refine (e1.trans (mul_congr_left _ e4 ?_)).symm
    rw [e4.2.1, hD2, hr]

theorem swap2_inv : IsInv swap2 swap2 := by
  refine ⟨rfl, rfl, rfl, ?_, ?_⟩ <;>
  · refine ⟨rfl, rfl, fun i j hi hj => ?_⟩
    have hi : i < 2 := hi
    have hj : j < 2 := hj
    interval_cases i <;> interval_cases j <;> simp [mul, swap2, of2, eye, Finset.sum_range_succ]

theorem eye2_inv : IsInv (eye 2 : NpMat ℝ) (eye 2) := ⟨rfl, rfl, rfl, mul_eye _, mul_eye _⟩

/-- The type with the fields `twoRep (eye 2)` and `twoRep swap2`, which have the same name. -/
def type2 : FType Unit (Rep ℤ ℕ) := ⟨(), [twoRep (eye 2), twoRep swap2]⟩

/-- If two representations share a name, the module uses the change of basis of the last one for both, and its output does not
transform under the disentangled type. -/
theorem C31_disentangle_violated (junk : Unit → ℕ → Unit → ℝ) :
    (∀ r ∈ type2.reprs, r.WF (Cyclic.table 2) El2 ∧ ∃ Q fs, dis2 r = .ok (Q, fs) ∧ IsDisentangling (Cyclic.table 2) El2 r Q fs) ∧
    ∃ (m : DisentangleM Unit ℤ ℕ) (x y x' y' z : GTensor Unit Unit Unit (Rep ℤ ℕ) Unit), DisentangleM.init dis2 type2.reprs type2 = .ok m ∧ x.type = type2 ∧
      m.forward junk x = .ok y ∧ x.transformFibers 1 = .ok x' ∧ y.transformFibers 1 = .ok y' ∧ m.forward junk x' = .ok z ∧ ¬ z ≈ y' := by
  have hdis : ∀ r ∈ type2.reprs, r.WF (Cyclic.table 2) El2 ∧ ∃ Q fs, dis2 r = .ok (Q, fs) ∧ IsDisentangling (Cyclic.table 2) El2 r Q fs := by
    intro r hr
    simp only [type2, List.mem_cons, List.not_mem_nil, or_false] at hr
    rcases hr with rfl | rfl
    · exact ⟨twoRep_wf eye2_inv rfl, _, _, dis2_eye, twoRep_dis eye2_inv rfl⟩
    · exact ⟨twoRep_wf swap2_inv rfl, _, _, dis2_swap, twoRep_dis swap2_inv rfl⟩
  refine ⟨hdis, ?_⟩
  have hT := Cyclic.table_valid 2 (by norm_num)
  let m : DisentangleM Unit ℤ ℕ := ⟨type2, ⟨(), [irr2 0, irr2 1, irr2 0, irr2 1]⟩, ["r", "r"], [("r", 2, eye 2, [irr2 0, irr2 1]), ("r", 2, swap2, [irr2 0, irr2 1])],
    [("r", true, [0, 4]), ("r", true, [0, 4])]⟩
  have hinit : DisentangleM.init dis2 type2.reprs type2 = .ok m := by
    unfold DisentangleM.init
    simp only [mapE, type2, dis2_eye, dis2_swap, bind, Except.bind]
    rfl
  have hfwd : ∀ x : GTensor Unit Unit Unit (Rep ℤ ℕ) Unit, x.type = type2 → x.tensor.chans = 4 → ∃ y, m.forward junk x = .ok y ∧ y.type = m.outType ∧ y.tensor.chans = 4 ∧
      y.tensor.get () 0 () = x.tensor.get () 1 () := by
    intro x hx hc
    have hg : ∃ d : FTensor Unit Unit, groupedLoop m.step m.table m.table x.tensor ⟨4, junk⟩ (keysInOrder m.names) = .ok d ∧ d.chans = 4 ∧ d.get () 0 () = x.tensor.get () 1 () := by
      refine ⟨_, rfl, rfl, ?_⟩
      simp [FieldsT.flat, swap2, of2, GTensor.chanSlice, Finset.sum_range_succ]
    obtain ⟨d, h1, h2, h3⟩ := hg
    refine ⟨⟨d, m.outType, x.coords⟩, ?_, rfl, h2, h3⟩
    rw [DisentangleM.forward, if_pos (by rw [hx]; exact FType.PyEq.refl _), hc]
    simp only [bind, Except.bind]
    rw [h1]
    simp only
    rw [GTensor.mk', if_pos (by rw [h2]; rfl)]
  let x : GTensor Unit Unit Unit (Rep ℤ ℕ) Unit := ⟨⟨4, fun _ c _ => if c = 1 then 1 else 0⟩, type2, ()⟩
  have hxw : x.WF (Cyclic.table 2) El2 := ⟨rfl, fun r hr => (hdis r hr).1⟩
  obtain ⟨y, y1, y2, y3, y4⟩ := hfwd x rfl rfl
  have h1 : El2 1 := by decide
  have hx' := GTensor.transformFibers_ok hT hxw h1
  have hyw : y.WF (Cyclic.table 2) El2 := ⟨by rw [y3, y2]; rfl, by
    rw [y2]
    intro r hr
    have : r = irr2 0 ∨ r = irr2 1 ∨ r = irr2 0 ∨ r = irr2 1 := by simpa [m] using hr
    rcases this with rfl | rfl | rfl | rfl
    · exact irr2_wf 0 (.inl rfl)
    · exact irr2_wf 1 (.inr rfl)
    · exact irr2_wf 0 (.inl rfl)
    · exact irr2_wf 1 (.inr rfl)⟩
  have hy' := GTensor.transformFibers_ok hT hyw h1
  obtain ⟨z, z1, z2, z3, z4⟩ := hfwd _ (rfl : (⟨chanMul (x.type.fiberRep 1) x.tensor, x.type, x.coords⟩ : GTensor Unit Unit Unit (Rep ℤ ℕ) Unit).type = type2)
    ((GTensor.WF.transform hT hxw h1 hx').chans)
  refine ⟨m, x, y, _, _, z, hinit, rfl, y1, hx', hy', z1, fun h => ?_⟩
  have h5 := h.2.2.2 () 0 () (by rw [z3]; norm_num)
  rw [z4] at h5
  have hc0 : (Cyclic.irrepMat 2 1 1) = of1 (-1) := by
    rw [Cyclic.irrepMat, if_neg (by norm_num), if_pos (by norm_num)]
    congr 1
    simp [Cyclic.radians]
  -- the left side is `-1`, the right side `1`
  have hl : (chanMul (x.type.fiberRep 1) x.tensor).get () 1 () = -1 := by
    have h0 := blockDiag_apply (x.type.reprs.map fun r => r.mat 1) (fun i => x.tensor.get () i ()) 0 1 (by simp [x, type2]) (by simp [x, type2, twoRep, mul, eye])
    refine Eq.trans ?_ (h0.trans ?_)
    · simp [chanMul, FType.fiberRep]
    · simp [x, type2, twoRep, mul, eye, irrepsBlock, Cyclic.table, Cyclic.irrepMat, blockDiag, diag2, Finset.sum_range_succ, of1]
      simp [Cyclic.radians]
  have hr : (chanMul (y.type.fiberRep 1) y.tensor).get () 0 () = 1 := by
    rw [y2]
    have h0 := blockDiag_apply (m.outType.reprs.map fun r => r.mat 1) (fun i => y.tensor.get () i ()) 0 0 (by simp [m]) (by simp [m, irr2, Cyclic.table, Cyclic.irrepMat, eye])
    refine Eq.trans ?_ (h0.trans ?_)
    · simp [chanMul, FType.fiberRep]
    · simp [m, irr2, Cyclic.table, Cyclic.irrepMat, eye, y4, x]
  simp only at h5
  rw [hl, hr] at h5
  norm_num at h5

/-- The hypotheses of `C31_disentangle_partial` hold for a type with two fields of the swapped representation. -/
example (junk : Unit → ℕ → Unit → ℝ) := by
  have hT := Cyclic.table_valid 2 (by norm_num)
  have hr : ∀ r ∈ [twoRep swap2, twoRep swap2], r = twoRep swap2 := by simp
  exact C31_disentangle_partial (B := Unit) (P := Unit) (C := Unit) (t := (⟨(), [twoRep swap2, twoRep swap2]⟩ : FType Unit (Rep ℤ ℕ))) (uniq := [twoRep swap2]) (dis := dis2) hT
    (by simp) (fun r => by simp) (fun r h r' h' _ => (hr r h).trans (hr r' h').symm) (fun r h => hr r h ▸ twoRep_wf swap2_inv rfl)
    (fun r h => by rw [hr r h]; change 0 < 2; norm_num) (fun r h => hr r h ▸ ⟨_, _, dis2_swap, twoRep_dis swap2_inv rfl⟩) junk

/-- The hypotheses of `C31_restriction_partial` hold for restricting `C_2` to itself. -/
example := by
  have hr : ∀ r ∈ [twoRep swap2, twoRep swap2], r = twoRep swap2 := by simp
  exact C31_restriction_partial (B := Unit) (P := Unit) (C := Unit) (ElH := El2) (⟨(), [twoRep swap2, twoRep swap2]⟩ : FType Unit (Rep ℤ ℕ)) (by simp)
    (fun r => .ok r) () (fun h => .ok h) [twoRep swap2] (fun r => by simp) (fun r h r' h' _ => (hr r h).trans (hr r' h').symm)
    (fun r _ => ⟨r, rfl, rfl, fun h g _ e => by cases e; exact Eqv.refl _⟩)

end

end Escnn
