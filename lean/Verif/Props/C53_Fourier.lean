import Verif.Lemmas.Fourier
import Verif.Props.C49_Norm

/-!
# C53: FourierPointwise and QuotientFourierPointwise are equivariant on complete grids
-/

namespace Escnn

open Finset NpMat

variable {G Id S B P C : Type} {els grid : List G} {op : G → G → G} {inv : G → G} {one : G} {T : IrrepTable G Id} {mult ssc : Id → ℕ}

theorem spectralIds_append {L M ids : List Id} (h : spectralIds mult ssc (L ++ M) = .ok ids) :
    ∃ a b, spectralIds mult ssc L = .ok a ∧ spectralIds mult ssc M = .ok b ∧ ids = a ++ b := by
  induction L generalizing ids with
  | nil => exact ⟨[], ids, rfl, h, rfl⟩
  | cons i L ih =>
    rw [List.cons_append, spectralIds] at h
    obtain ⟨m, h1, h⟩ := bind_ok h
    obtain ⟨rest, h2, h⟩ := bind_ok h
    obtain ⟨a, b, e1, e2, rfl⟩ := ih h2
    obtain rfl := Except.ok.inj h
    refine ⟨List.replicate m i ++ a, b, ?_, e2, by simp⟩
    rw [spectralIds, h1, e1]
    rfl

theorem spectralIds_mem {L ids : List Id} (h : spectralIds mult ssc L = .ok ids) : ∀ i ∈ ids, i ∈ L := by
  induction L generalizing ids with
  | nil => obtain rfl := Except.ok.inj h; simp
  | cons i L ih =>
    rw [spectralIds] at h
    obtain ⟨m, h1, h⟩ := bind_ok h
    obtain ⟨rest, h2, h⟩ := bind_ok h
    obtain rfl := Except.ok.inj h
    intro j hj
    rcases List.mem_append.1 hj with hj | hj
    · rw [List.eq_of_mem_replicate hj]; simp
    · exact List.mem_cons_of_mem _ (ih h2 j hj)

/-- What `spectral_…_representation` returns: the direct sum of the irreps, with their multiplicities. -/
theorem spectralRep_ok {El : G → Prop} (hT : T.Valid El op one) {name : String} {irreps : List Id} {r : Rep G Id} (h : spectralRep T mult ssc name irreps = .ok r) :
    ∃ ids, spectralIds mult ssc irreps = .ok ids ∧ Fourier.Split T El r ∧ r.irreps = ids := by
  unfold spectralRep at h
  split_ifs at h with h1 h2 h3
  obtain ⟨ids, e, h⟩ := bind_ok h
  split_ifs at h with h4
  have hok : ∀ i ∈ ids, T.ok i = true := fun i hi => List.all_eq_true.1 h2 i (spectralIds_mem e i hi)
  obtain ⟨r', f1, f2, -, f4, f5, -⟩ := C14_constructor (El := El) hT [] name ids (eye (irrepsSize T ids)) (eye (irrepsSize T ids)) {"norm", "gated", "concatenated"} (by simp)
    (Nat.pos_of_ne_zero h4) (IsInv.eye _) hok rfl false
  rw [if_neg (by simp), h] at f1
  obtain rfl := Except.ok.inj f1
  refine ⟨ids, e, ⟨f2, ?_⟩, f4⟩
  rw [show r.size = irrepsSize T ids by rw [Rep.size, f5]; rfl, f5]

/-- The first block of the representation of a longer list of irreps. -/
theorem spectral_block {El : G → Prop} (hT : T.Valid El op one) {n n' : String} {L M : List Id} {out ext : Rep G Id} (h1 : spectralRep T mult ssc n L = .ok out) (h2 : spectralRep T mult ssc n' (L ++ M) = .ok ext) :
    ∃ Q : G → NpMat ℝ, ∀ g, El g → ext.mat g ≈ diag2 (out.mat g) (Q g) := by
  obtain ⟨a, e1, s1, i1⟩ := spectralRep_ok hT h1
  obtain ⟨ab, e2, s2, i2⟩ := spectralRep_ok hT h2
  obtain ⟨a', b, e3, e4, rfl⟩ := spectralIds_append e2
  obtain rfl : a = a' := Except.ok.inj (e1.symm.trans e3)
  refine ⟨fun g => irrepsBlock T b g, fun g hg => ?_⟩
  have f1 := s1.wf.mat_eye hT s1.cob hg
  have f2 := s2.wf.mat_eye hT s2.cob hg
  rw [i1] at f1
  rw [i2, List.map_append] at f2
  exact f2.trans ((blockDiag_append _ _).trans (diag2_congr f1.symm (Eqv.refl _)))

namespace Fourier

/-- What a constructed module satisfies. -/
structure Facts (T : IrrepTable G Id) (El : G → Prop) (grid : List G) (m : Fourier S G Id) (n : ℕ) (ext : Rep G Id) (K K' : List ℝ) (N : NpMat ℝ) (Q : G → NpMat ℝ) : Prop where
  inT : m.inType.reprs = List.replicate n m.rho
  outT : m.outType.reprs = List.replicate n m.rhoOut
  rho : Split T El m.rho
  out : Split T El m.rhoOut
  extS : Split T El ext
  block : ∀ g, El g → ext.mat g ≈ diag2 (m.rhoOut.mat g) (Q g)
  A : m.A = samplingMatrix m.rho K grid
  inv : IsInv (normalMatrix (samplingMatrix ext K' grid) ext.size) N
  rows : m.Ainv.rows = m.rhoOut.size
  Ainv : ∀ i j, m.Ainv.get i j = (NpMat.mul N (NpMat.transpose (samplingMatrix ext K' grid))).get i j

theorem mk'_ok {R : Type} {s : S} {L : List R} {t : FType S R} (h : FType.mk' s L = .ok t) : t.reprs = L := by
  unfold FType.mk' at h
  split_ifs at h
  obtain rfl := Except.ok.inj h
  rfl

theorem init_facts {El : G → Prop} (hT : T.Valid El op one) (hone : El one) {nameOf : List Id → String} {kern : List Id → List ℝ} {order : List Id → List Id} {space : S} {channels : ℕ} {irreps : List Id}
    {function : String} {outIrreps : Option (List Id)} {normalize : Bool} {m : Fourier S G Id}
    (h : init (fun L => spectralRep T mult ssc (nameOf L) L) kern order space channels irreps grid function outIrreps normalize = .ok m) :
    ∃ ext K K' N Q, Facts T El grid m channels ext K K' N Q := by
  unfold init at h
  obtain ⟨rho, h1, h⟩ := bind_ok h
  obtain ⟨inT, h2, h⟩ := bind_ok h
  obtain ⟨-, -, s1, -⟩ := spectralRep_ok hT h1
  cases outIrreps with
  | none =>
    obtain ⟨out, h3, h⟩ := bind_ok h
    obtain rfl := Except.ok.inj h3
    obtain ⟨outT, h4, h⟩ := bind_ok h
    obtain ⟨f, h5, h⟩ := bind_ok h
    split_ifs at h with h6 h7
    obtain ⟨N, h8, h⟩ := bind_ok h
    obtain rfl := Except.ok.inj h
    refine ⟨rho, _, _, N, fun _ => zeros 0 0, ⟨mk'_ok h2, mk'_ok h4, s1, s1, s1, fun g _ => (diag2_empty_right _).symm, rfl, npInv_ok h8, (npInv_ok h8).2.1, fun _ _ => rfl⟩⟩
  | some out =>
    obtain ⟨ro, h3, h⟩ := bind_ok h
    obtain ⟨outT, h4, h⟩ := bind_ok h
    obtain ⟨f, h5, h⟩ := bind_ok h
    split_ifs at h with h6 h7
    obtain ⟨ext, h8, h⟩ := bind_ok h
    split_ifs at h with h9
    obtain ⟨N, h10, h⟩ := bind_ok h
    obtain rfl := Except.ok.inj h
    obtain ⟨-, -, s2, -⟩ := spectralRep_ok hT h3
    obtain ⟨-, -, s3, -⟩ := spectralRep_ok hT h8
    obtain ⟨Q, hQ⟩ := spectral_block hT h3 h8
    refine ⟨ext, _, _, N, Q, ⟨mk'_ok h2, mk'_ok h4, s1, s2, s3, hQ, rfl, npInv_ok h10, ?_, fun _ _ => rfl⟩⟩
    have e1 : ext.size = ro.size + (Q one).rows := by
      rw [← s3.wf.rows hone, (hQ one hone).1, diag2_rows, s2.wf.rows hone]
    have e2 : N.rows = ext.size := (npInv_ok h10).2.1
    show min ro.size N.rows = ro.size
    omega

variable {El : G → Prop} {m : Fourier S G Id} {n : ℕ} {ext : Rep G Id} {K K' : List ℝ} {N : NpMat ℝ} {Q : G → NpMat ℝ}

theorem forward_spec (F : Facts T El grid m n ext K K' N Q) (φ : ℝ → ℝ) (x : GTensor B P S (Rep G Id) C) (hx : x.type = m.inType) (hc : x.tensor.chans = m.inType.size Rep.size) :
    ∃ y, forward { m with function := φ } x = .ok y ∧ y.type = m.outType ∧ y.coords = x.coords ∧ y.tensor.chans = m.outType.size Rep.size ∧
      ∀ (k : ℕ) (r : Rep G Id), m.outType.reprs[k]? = some r → ∀ o < r.size, ∀ b p, y.tensor.get b (chanOffset Rep.size m.outType.reprs k + o) p =
        ∑ g ∈ range grid.length, φ (∑ f ∈ range m.rho.size, x.tensor.get b (k * m.rho.size + f) p * m.A.get g f) * m.Ainv.get o g := by
  have hlen : m.inType.len = n := by rw [FType.len, F.inT, List.length_replicate]
  have h1 : x.tensor.chans = m.inType.len * m.rho.size := by rw [hc, FType.size_eq, hlen, F.inT]; simp
  have h2 : m.outType.size Rep.size = m.inType.len * m.rhoOut.size := by rw [FType.size_eq, hlen, F.outT]; simp
  have hA : m.A.rows = grid.length := by rw [F.A]; rfl
  refine ⟨⟨(⟨m.inType.len, m.Ainv.rows, fun b c f p => ∑ g ∈ range m.A.rows, φ (∑ f ∈ range m.rho.size, x.tensor.get b (c * m.rho.size + f) p * m.A.get g f) * m.Ainv.get f g⟩ : FieldsT B P).flat, m.outType, x.coords⟩,
    ?_, rfl, rfl, ?_, fun k r hk o ho b p => ?_⟩
  · rw [forward, if_pos hx, FTensor.toFields]
    simp only [bind, Except.bind]
    rw [if_pos h1]
    simp only [F.rows]
    rw [if_pos h2.symm]
    exact if_pos h2.symm
  · show m.inType.len * m.Ainv.rows = _
    rw [F.rows, h2]
  · have hk' := hk
    rw [F.outT, List.getElem?_replicate] at hk'
    split_ifs at hk' with hkn
    obtain rfl := Option.some.inj hk'
    rw [chanOffset_replicate Rep.size (fun r hr => by rw [F.outT] at hr; exact List.eq_of_mem_replicate hr) (by rw [F.outT, List.length_replicate]; omega)]
    have := FieldsT.flat_get (⟨m.inType.len, m.Ainv.rows, fun b c f p => ∑ g ∈ range m.A.rows, φ (∑ f ∈ range m.rho.size, x.tensor.get b (c * m.rho.size + f) p * m.A.get g f) * m.Ainv.get f g⟩ : FieldsT B P)
      b (n := k) (o := o) p (by rw [F.rows]; exact ho)
    simp only [F.rows] at this ⊢
    rw [this, hA]

/-- **C53** For each finite group, each list of irreps (and of output irreps), each kernel and each grid which contains each group element once, the module built by the constructor commutes with the action, whatever
function is applied to the samples, and computes the values at a position from the values at this position. -/
theorem C53_equivariant (hT : T.Valid (· ∈ els) op one) (hG : FinGroup els op inv one) (hgrid : grid.Perm els) {nameOf : List Id → String} {kern : List Id → List ℝ} {order : List Id → List Id} {space : S}
    {channels : ℕ} {irreps : List Id} {function : String} {outIrreps : Option (List Id)} {normalize : Bool} {m : Fourier S G Id}
    (hm : init (fun L => spectralRep T mult ssc (nameOf L) L) kern order space channels irreps grid function outIrreps normalize = .ok m) (φ : ℝ → ℝ) :
    FibreEquivariant (B := B) (P := P) (C := C) (· ∈ els) m.inType m.outType (forward { m with function := φ }) ∧
      PositionLocal (B := B) (P := P) (C := C) Rep.size m.inType (forward { m with function := φ }) := by
  obtain ⟨ext, K, K', N, Q, F⟩ := init_facts hT hG.one_mem hm
  have hin : m.inType.Square (· ∈ els) := fun r hr g hg => by
    rw [F.inT] at hr
    rw [List.eq_of_mem_replicate hr]
    exact ⟨F.rho.wf.rows hg, F.rho.wf.cols hg⟩
  have hout : m.outType.Square (· ∈ els) := fun r hr g hg => by
    rw [F.outT] at hr
    rw [List.eq_of_mem_replicate hr]
    exact ⟨F.out.wf.rows hg, F.out.wf.cols hg⟩
  have hf : ∀ x : GTensor B P S (Rep G Id) C, x.type = m.inType → x.tensor.chans = m.inType.size Rep.size → _ := fun x hx hc => forward_spec (C := C) F φ x hx hc
  refine ⟨FibreEquivariant.of_fields hin hout (fun x k o b p => ∑ g ∈ range grid.length, φ (∑ f ∈ range m.rho.size, x.get b (k * m.rho.size + f) p * m.A.get g f) * m.Ainv.get o g) hf ?_,
    PositionLocal.of_fields (fun x k o b p => ∑ g ∈ range grid.length, φ (∑ f ∈ range m.rho.size, x.get b (k * m.rho.size + f) p * m.A.get g f) * m.Ainv.get o g) hf (fun _ _ _ _ _ _ => rfl)⟩
  intro g hg x gx _ _ hact k r hk o ho b p
  rw [F.outT, List.getElem?_replicate] at hk
  split_ifs at hk with hkn
  obtain rfl := Option.some.inj hk
  have hoff : chanOffset Rep.size m.inType.reprs k = k * m.rho.size :=
    chanOffset_replicate Rep.size (fun r hr => by rw [F.inT] at hr; exact List.eq_of_mem_replicate hr) (by rw [F.inT, List.length_replicate]; omega)
  have hk' : m.inType.reprs[k]? = some m.rho := by rw [F.inT, List.getElem?_replicate, if_pos hkn]
  have hact' : ∀ o < m.rho.size, gx.get b (k * m.rho.size + o) p = ∑ j ∈ range m.rho.size, (m.rho.mat g).get o j * x.get b (k * m.rho.size + j) p := by
    intro o ho
    have := hact k m.rho hk' b o p ho
    rwa [hoff] at this
  simp only [F.A, F.Ainv]
  exact field_equivariant hT hG hgrid F.rho F.extS (fun g hg => ⟨F.out.wf.rows hg, F.out.wf.cols hg⟩) F.block K K' F.inv φ hg (x := fun f => x.get b (k * m.rho.size + f) p)
    (gx := fun f => gx.get b (k * m.rho.size + f) p) hact' ho

/-- The function is one of those the constructor knows. -/
def Known (function : String) : Prop := function ∈ ["p_relu", "p_elu", "p_sigmoid", "p_tanh"]

theorem chooseFunction_ok {function : String} : (∃ f, chooseFunction function = .ok f) ↔ Known function := by
  unfold chooseFunction Known
  split_ifs with h1 h2 h3 h4 <;> simp_all

theorem spectralIds_total {L : List Id} (h : ∀ i ∈ L, ssc i ∣ mult i) : ∃ ids, spectralIds mult ssc L = .ok ids ∧ ∀ T : IrrepTable G Id, irrepsSize T ids = (L.map fun i => mult i / ssc i * T.size i).sum := by
  induction L with
  | nil => exact ⟨[], rfl, fun _ => rfl⟩
  | cons i L ih =>
    obtain ⟨ids, e, hs⟩ := ih fun j hj => h j (List.mem_cons_of_mem _ hj)
    refine ⟨List.replicate (mult i / ssc i) i ++ ids, ?_, fun T => ?_⟩
    · rw [spectralIds, dimensionBasis, if_pos (h i (by simp)), e]
      rfl
    · have := hs T
      simp only [irrepsSize] at this ⊢
      simp [this]

theorem spectralRep_total (hT : T.Valid (· ∈ els) op one) (name : String) {L : List Id} (hne : L ≠ []) (hnd : L.Nodup) (hok : ∀ i ∈ L, T.ok i = true) (hd : ∀ i ∈ L, ssc i ∣ mult i)
    (hpos : ∃ i ∈ L, 0 < mult i / ssc i * T.size i) : ∃ r, spectralRep T mult ssc name L = .ok r ∧ r.size = (L.map fun i => mult i / ssc i * T.size i).sum := by
  obtain ⟨ids, e, hs⟩ := spectralIds_total (G := G) hd
  have hs := hs T
  have hp : 0 < irrepsSize T ids := by
    obtain ⟨i, hi, hp⟩ := hpos
    rw [hs]
    exact lt_of_lt_of_le hp (List.single_le_sum (by simp) _ (List.mem_map.2 ⟨i, hi, rfl⟩))
  obtain ⟨r, f1, -, -, -, f5, -⟩ := C14_constructor (El := (· ∈ els)) hT [] name ids (eye (irrepsSize T ids)) (eye (irrepsSize T ids)) {"norm", "gated", "concatenated"} (by simp) hp (IsInv.eye _)
    (fun i hi => hok i (spectralIds_mem e i hi)) rfl false
  refine ⟨r, ?_, ?_⟩
  · rw [spectralRep, if_neg hne, if_neg (by simpa using hok), if_neg (not_not.2 hnd), e]
    simp only [bind, Except.bind]
    rw [if_neg (by omega)]
    exact f1
  · rw [← hs, Rep.size, f5]
    rfl

theorem buildKernel_length (k : Id → NpMat ℝ) (L : List Id) : (buildKernel k L).length = (L.map fun i => (k i).cols * (k i).rows).sum := by
  unfold buildKernel flatCols
  simp [List.length_flatMap]

theorem normal_inv' {r : Rep G Id} (K : List ℝ) (grid : List G) : ∃ N, npInv (normalMatrix (samplingMatrix r K grid) r.size) = .ok N := normal_inv (samplingMatrix r K grid)

/-- **C53** The constructor of the quotient module accepts each list of distinct irreps with arrays of the right shape, one of which occurs in the functions on the quotient, each known function, and each grid: the matrix
inverted in the constructor is always invertible. -/
theorem C53_init (hT : T.Valid (· ∈ els) op one) {nameOf : List Id → String} {k : Id → NpMat ℝ} {order : List Id → List Id} (horder : ∀ L, (order L).Perm L) (space : S) {channels : ℕ} (hch : 0 < channels)
    {grid : List G} (hgrid : grid ≠ []) {function : String} (hf : Known function) (outIrreps : Option (List Id)) (normalize : Bool) {irreps : List Id}
    (hL : ∀ L, L = irreps ∨ outIrreps = some L → L ≠ [] ∧ L.Nodup ∧ (∃ i ∈ L, 0 < mult i / ssc i * T.size i) ∧
      ∀ i ∈ L, T.ok i = true ∧ ssc i ∣ mult i ∧ (k i).rows = T.size i ∧ (k i).cols = mult i / ssc i) :
    ∃ m : Fourier S G Id, initQuotient T mult ssc k nameOf order space channels irreps grid function outIrreps normalize = .ok m ∧ m.inType.reprs.length = channels ∧
      m.rho.size = (irreps.map fun i => mult i / ssc i * T.size i).sum := by
  classical
  have hmk : ∀ r : Rep G Id, FType.mk' space (List.replicate channels r) = .ok ⟨space, List.replicate channels r⟩ := fun r => by
    rw [FType.mk', if_pos (by simpa using hch)]
  have hkern : ∀ L : List Id, (∀ i ∈ L, (k i).rows = T.size i ∧ (k i).cols = mult i / ssc i) → (buildKernel k L).length = (L.map fun i => mult i / ssc i * T.size i).sum := by
    intro L h
    rw [buildKernel_length]
    congr 1
    exact List.map_congr_left fun i hi => by rw [(h i hi).1, (h i hi).2]
  obtain ⟨i1, i2, i3, i4⟩ := hL irreps (.inl rfl)
  obtain ⟨rho, e1, s1⟩ := spectralRep_total (mult := mult) (ssc := ssc) hT (nameOf irreps) i1 i2 (fun i hi => (i4 i hi).1) (fun i hi => (i4 i hi).2.1) i3
  obtain ⟨φ, e2⟩ := chooseFunction_ok.2 hf
  have hk1 := hkern irreps fun i hi => (i4 i hi).2.2
  unfold initQuotient init
  simp only [e1, bind, Except.bind]
  rw [hmk rho]
  cases outIrreps with
  | none =>
    obtain ⟨N, hN⟩ := normal_inv' (r := rho) (normalizeKernel normalize (buildKernel k irreps)) grid
    simp only [hmk, e2]
    rw [if_pos (hk1.trans s1.symm), if_neg hgrid, hN]
    exact ⟨_, rfl, by simp, s1⟩
  | some out =>
    obtain ⟨o1, o2, o3, o4⟩ := hL out (.inr rfl)
    obtain ⟨ro, e3, s3⟩ := spectralRep_total (mult := mult) (ssc := ssc) hT (nameOf out) o1 o2 (fun i hi => (o4 i hi).1) (fun i hi => (o4 i hi).2.1) o3
    let missing := order (irreps.dedup.filter fun i => i ∉ out)
    have hmem : ∀ i ∈ out ++ missing, i ∈ out ∨ i ∈ irreps := by
      intro i hi
      rcases List.mem_append.1 hi with h | h
      · exact .inl h
      · have := (horder _).mem_iff.1 h
        simp only [List.mem_filter, List.mem_dedup] at this
        exact .inr this.1
    have hall : ∀ i ∈ out ++ missing, T.ok i = true ∧ ssc i ∣ mult i ∧ (k i).rows = T.size i ∧ (k i).cols = mult i / ssc i := fun i hi =>
      (hmem i hi).elim (o4 i) (i4 i)
    have hnd : (out ++ missing).Nodup := by
      rw [List.nodup_append]
      refine ⟨o2, (horder _).nodup_iff.2 ((List.nodup_dedup _).filter _), ?_⟩
      rintro a ha b hb rfl
      have := (horder _).mem_iff.1 hb
      simp only [List.mem_filter, decide_not, Bool.not_eq_true', decide_eq_false_iff_not] at this
      exact this.2 ha
    obtain ⟨ext, e4, s4⟩ := spectralRep_total (mult := mult) (ssc := ssc) hT (nameOf (out ++ missing)) (by simp [o1]) hnd (fun i hi => (hall i hi).1) (fun i hi => (hall i hi).2.1)
      (o3.imp fun i hi => ⟨List.mem_append_left _ hi.1, hi.2⟩)
    have hk2 := hkern (out ++ missing) fun i hi => (hall i hi).2.2
    obtain ⟨N, hN⟩ := normal_inv' (r := ext) (normalizeKernel normalize (buildKernel k (out ++ missing))) grid
    simp only [e3, hmk, e2]
    rw [if_pos (hk1.trans s1.symm), if_neg hgrid]
    simp only [missing] at e4 hk2 hN s4
    simp only [e4, hN]
    rw [if_pos (hk2.trans s4.symm)]
    exact ⟨_, rfl, by simp, s1⟩

/-- **C53** The constructor of `FourierPointwise` accepts each non-empty list of distinct irreps, each known function and each grid. -/
theorem C53_regular_init (hT : T.Valid (· ∈ els) op one) (hone : one ∈ els) (hsize : ∀ i, T.ok i = true → 0 < T.size i ∧ 0 < ssc i ∧ ssc i ∣ T.size i) {nameOf : List Id → String} {order : List Id → List Id}
    (horder : ∀ L, (order L).Perm L) (space : S) {channels : ℕ} (hch : 0 < channels) {grid : List G} (hgrid : grid ≠ []) {function : String} (hf : Known function) (outIrreps : Option (List Id)) (normalize : Bool)
    {irreps : List Id} (hL : ∀ L, L = irreps ∨ outIrreps = some L → L ≠ [] ∧ L.Nodup ∧ ∀ i ∈ L, T.ok i = true) :
    ∃ m : Fourier S G Id, initRegular T ssc one nameOf order space channels irreps grid function outIrreps normalize = .ok m ∧ m.inType.reprs.length = channels ∧
      m.rho.size = (irreps.map fun i => T.size i / ssc i * T.size i).sum := by
  refine C53_init (mult := T.size) hT horder space hch hgrid hf outIrreps normalize fun L h => ?_
  obtain ⟨h1, h2, h3⟩ := hL L h
  refine ⟨h1, h2, ?_, fun i hi => ⟨h3 i hi, (hsize i (h3 i hi)).2.2, (hT i (h3 i hi)).rows _ hone, ?_⟩⟩
  · obtain ⟨i, hi⟩ := List.exists_mem_of_ne_nil L h1
    have := hsize i (h3 i hi)
    exact ⟨i, hi, Nat.mul_pos (Nat.div_pos (Nat.le_of_dvd this.1 this.2.2) this.2.1) this.1⟩
  · show min (T.size i / ssc i) (T.mat i one).cols = _
    rw [(hT i (h3 i hi)).cols _ hone]
    exact min_eq_left (Nat.div_le_self _ _)

theorem boolGroup : FinGroup [false, true] Bool.xor id false := by
  constructor <;> decide

theorem boolTable_valid' : boolTable.Valid (· ∈ [false, true]) Bool.xor false := fun i hi =>
  ⟨fun g _ => (boolTable_valid i hi).rows g trivial, fun g _ => (boolTable_valid i hi).cols g trivial, (boolTable_valid i hi).map_one, fun g h _ _ => (boolTable_valid i hi).map_mul g h trivial trivial,
    fun g _ => (boolTable_valid i hi).ortho g trivial⟩

theorem init_none {kern : List Id → List ℝ} {order : List Id → List Id} {space : S} {channels : ℕ} {irreps : List Id} {rep : List Id → Except Err (Rep G Id)}
    {function : String} {normalize : Bool} {m : Fourier S G Id} (h : init rep kern order space channels irreps grid function none normalize = .ok m) :
    ∃ rho N, rep irreps = .ok rho ∧ npInv (normalMatrix (samplingMatrix rho (normalizeKernel normalize (kern irreps)) grid) rho.size) = .ok N ∧ m.rho = rho ∧ m.rhoOut = rho ∧
      m.inType = ⟨space, List.replicate channels rho⟩ ∧ m.outType = ⟨space, List.replicate channels rho⟩ ∧ chooseFunction function = .ok m.function ∧
      m.A = samplingMatrix rho (normalizeKernel normalize (kern irreps)) grid ∧ m.Ainv = NpMat.mul N (NpMat.transpose m.A) := by
  have hmk : ∀ {L : List (Rep G Id)} {t : FType S (Rep G Id)}, FType.mk' space L = .ok t → t = ⟨space, L⟩ := by
    intro L t h
    unfold FType.mk' at h
    split_ifs at h
    exact (Except.ok.inj h).symm
  unfold init at h
  obtain ⟨rho, h1, h⟩ := bind_ok h
  obtain ⟨inT, h2, h⟩ := bind_ok h
  obtain ⟨out, h3, h⟩ := bind_ok h
  obtain rfl := Except.ok.inj h3
  obtain ⟨outT, h4, h⟩ := bind_ok h
  obtain ⟨f, h5, h⟩ := bind_ok h
  split_ifs at h with h6 h7
  obtain ⟨N, h8, h⟩ := bind_ok h
  obtain rfl := Except.ok.inj h
  exact ⟨rho, N, h1, h8, rfl, rfl, hmk h2, hmk h4, h5, rfl, rfl⟩

/-- **C53** The grid matters: for the group with two elements, both irreps and the grid which only contains the identity, the constructor accepts and the module does not commute with the action. -/
theorem C53_incomplete_grid : ∃ m : Fourier Unit Bool Bool, initRegular boolTable (fun _ => 1) false (fun _ => "regular") id () 1 [false, true] [false] "p_relu" none false = .ok m ∧
    ¬ FibreEquivariant (B := Unit) (P := Unit) (C := Unit) (· ∈ [false, true]) m.inType m.outType (forward m) := by
  obtain ⟨m, hm, -, -⟩ := C53_regular_init (S := Unit) (nameOf := fun _ => "regular") (order := id) (irreps := [false, true]) (grid := [false]) (function := "p_relu") (ssc := fun _ => 1) boolTable_valid' (by simp)
    (fun i _ => ⟨one_pos, one_pos, one_dvd _⟩) (fun L => List.Perm.refl L) () one_pos (by simp) (by simp [Known]) none false
    (fun L h => by rcases h with rfl | h; exacts [⟨by simp, by simp, fun _ _ => rfl⟩, by cases h])
  refine ⟨m, hm, fun hE => ?_⟩
  obtain ⟨ext, K, K', N', Q, F⟩ := init_facts (El := (· ∈ [false, true])) boolTable_valid' (by simp) hm
  obtain ⟨rho, N, h1, h2, h3, h4, h5, h6, h7, h8, h9⟩ := init_none hm
  obtain ⟨ids, e1, e2, e3⟩ := spectralRep_ok boolTable_valid' h1
  have hids : ids = [false, true] := (Except.ok.inj e1).symm
  have hs : rho.size = 2 := by rw [← e2.wf.size, e3, hids]; rfl
  have hmat : ∀ g ∈ [false, true], rho.mat g ≈ blockDiag ([false, true].map fun i => boolTable.mat i g) := fun g hg => by
    have := e2.wf.mat_eye boolTable_valid' e2.cob hg
    rwa [e3, hids] at this
  have hfn : m.function = torchRelu := by
    have : chooseFunction "p_relu" = .ok torchRelu := if_pos rfl
    exact (Except.ok.inj (this.symm.trans h7)).symm
  have hK : normalizeKernel false (buildKernel (regularKernel boolTable (fun _ => 1) false) [false, true]) = [1, 1] := by
    simp [normalizeKernel, buildKernel, flatCols, regularKernel, boolTable]
  rw [hK] at h2 h8
  have hA : ∀ f, f < 2 → m.A.get 0 f = 1 := by
    intro f hf
    rw [h8]
    show ∑ j ∈ range (rho.mat false).cols, (rho.mat false).get f j * [(1 : ℝ), 1].getD j 0 = 1
    have hr := hmat false (by simp)
    rw [hr.2.1, show (blockDiag ([false, true].map fun i => boolTable.mat i false)).cols = 2 from rfl, sum_range_succ, sum_range_one,
      hr.2.2 f 0 (by rw [hr.1]; exact hf) (by rw [hr.2.1]; exact two_pos), hr.2.2 f 1 (by rw [hr.1]; exact hf) (by rw [hr.2.1]; exact one_lt_two)]
    interval_cases f <;> simp [blockDiag, diag2, boolTable]
  have hrows : m.A.rows = 1 := by rw [h8]; rfl
  have hcols : m.A.cols = 2 := by rw [h8]; exact hs
  have hN := npInv_ok h2
  rw [← h8] at hN
  -- the columns of the pseudo inverse
  have hv : ∀ o, o < 2 → m.Ainv.get o 0 ≠ 0 := by
    intro o ho
    have hNc : N.cols = 2 := hN.2.2.1.trans hcols
    have e := hN.2.2.2.2
    have a0 := e.2.2 o 0 (by show o < N.rows; rw [hN.2.1]; show o < m.A.cols; rw [hcols]; exact ho) (by show 0 < m.A.cols; rw [hcols]; exact two_pos)
    have a1 := e.2.2 o 1 (by show o < N.rows; rw [hN.2.1]; show o < m.A.cols; rw [hcols]; exact ho) (by show 1 < m.A.cols; rw [hcols]; exact one_lt_two)
    simp only [NpMat.mul, normalMatrix, NpMat.transpose, NpMat.eye, hNc, hrows, sum_range_succ, sum_range_zero, zero_add, hA 0 two_pos, hA 1 one_lt_two] at a0 a1
    have a2 : m.Ainv.get o 0 = N.get o 0 + N.get o 1 := by
      rw [h9]
      simp only [NpMat.mul, NpMat.transpose, hNc, sum_range_succ, sum_range_zero, zero_add, hA 0 two_pos, hA 1 one_lt_two, mul_one]
    intro h0
    rw [a2] at h0
    interval_cases o <;> norm_num at a0 a1 <;> linarith
  -- the input (1, 0) is invariant, the output is not
  let x : GTensor Unit Unit Unit (Rep Bool Bool) Unit := ⟨⟨2, fun _ c _ => if c = 0 then 1 else 0⟩, m.inType, ()⟩
  have hin : m.inType.Square (· ∈ [false, true]) := fun r hr g hg => by
    rw [h5] at hr
    rw [List.eq_of_mem_replicate hr]
    exact ⟨e2.wf.rows hg, e2.wf.cols hg⟩
  have hout : m.outType = m.inType := by rw [h5, h6]
  have hsz : m.inType.size Rep.size = 2 := by rw [FType.size_eq, h5]; simp [hs]
  obtain ⟨y, gx, gy, gy', r1, r2, r3, r4, r5, r6, -, -, r9⟩ := hE x rfl hsz.symm true (by simp)
  have hrep : m.inType.reprs[0]? = some rho := by rw [h5]; rfl
  obtain ⟨t, q1, q2, q3⟩ := transformFibers_act hin (g := true) (by simp) x.tensor hsz.symm
  have hgx : gx = ⟨t, m.inType, ()⟩ := by
    have : x.transformFibers true = .ok ⟨t, m.inType, ()⟩ := by
      unfold GTensor.transformFibers
      rw [q1]
      exact if_pos q2
    exact (Except.ok.inj (this.symm.trans r4)).symm
  obtain ⟨t', q1', q2', q3'⟩ := transformFibers_act (hout ▸ hin) (g := true) (by simp) y.tensor r3
  have hgy' : gy'.tensor = t' := by
    unfold GTensor.transformFibers at r6
    rw [r2, q1'] at r6
    have h : GTensor.mk' Rep.size t' m.outType y.coords = .ok ⟨t', m.outType, y.coords⟩ := if_pos q2'
    exact congrArg GTensor.tensor (Except.ok.inj (r6.symm.trans h))
  have hm2 := hmat true (by simp)
  have hd : ∀ o j, o < 2 → j < 2 → (rho.mat true).get o j = if o = j then (if o = 0 then 1 else -1) else 0 := by
    intro o j ho hj
    rw [hm2.2.2 o j (by rw [hm2.1]; exact ho) (by rw [hm2.2.1]; exact hj)]
    interval_cases o <;> interval_cases j <;> simp [blockDiag, diag2, boolTable]
  have hspec : ∀ z : GTensor Unit Unit Unit (Rep Bool Bool) Unit, z.type = m.inType → z.tensor.chans = 2 → z.tensor.get () 0 () = 1 → z.tensor.get () 1 () = 0 → ∀ w, forward m z = .ok w →
      ∀ o < 2, w.tensor.get () o () = m.Ainv.get o 0 := by
    intro z hz hzc z0 z1 w hw o ho
    obtain ⟨w', f1, -, -, -, f5⟩ := forward_spec (C := Unit) F m.function z hz (hzc.trans hsz.symm)
    obtain rfl : w' = w := Except.ok.inj (f1.symm.trans hw)
    have := f5 0 rho (by rw [hout]; exact hrep) o (by rw [hs]; exact ho) () ()
    rw [show chanOffset Rep.size m.outType.reprs 0 + o = o by simp] at this
    rw [this, h3, hs, hfn]
    simp [sum_range_succ, z0, z1, hA 0 two_pos, torchRelu]
  have hy := hspec x rfl rfl rfl rfl y r1 1 one_lt_two
  have hgx0 : t.get () 0 () = 1 := by
    have := q3 0 rho hrep () 0 () (by rw [hs]; exact two_pos)
    rw [hs] at this
    simpa [sum_range_succ, hd, x] using this
  have hgx1 : t.get () 1 () = 0 := by
    have := q3 0 rho hrep () 1 () (by rw [hs]; exact one_lt_two)
    rw [hs] at this
    simpa [sum_range_succ, hd, x] using this
  have hgy := hspec gx (by rw [hgx]) (by rw [hgx]; exact q2.trans hsz) (by rw [hgx]; exact hgx0) (by rw [hgx]; exact hgx1) gy r5 1 one_lt_two
  have hgy1 : t'.get () 1 () = - y.tensor.get () 1 () := by
    have := q3' 0 rho (by rw [hout]; exact hrep) () 1 () (by rw [hs]; exact one_lt_two)
    rw [hs] at this
    simpa [sum_range_succ, hd] using this
  have hfin := r9.2 () 1 () (by rw [r9.1, hgy', q2', hout, hsz]; exact one_lt_two)
  rw [hgy', hgy1, hy, hgy] at hfin
  exact hv 1 one_lt_two (by linarith)

/-- A non-trivial instance: the regular representation of the group with two elements, and only the trivial irrep in the output. -/
example : ∃ m : Fourier Unit Bool Bool, initRegular boolTable (fun _ => 1) false (fun _ => "regular") id () 3 [false, true] [true, false] "p_elu" (some [false]) true = .ok m ∧
    FibreEquivariant (B := Fin 2) (P := Unit) (C := Unit) (· ∈ [false, true]) m.inType m.outType (forward m) := by
  obtain ⟨m, hm, -, -⟩ := C53_regular_init (S := Unit) (nameOf := fun _ => "regular") (order := id) (irreps := [false, true]) (grid := [true, false]) (function := "p_elu") (ssc := fun _ => 1) boolTable_valid' (by simp)
    (fun i _ => ⟨one_pos, one_pos, one_dvd _⟩) (fun L => List.Perm.refl L) () (channels := 3) (by simp) (by simp) (by simp [Known]) (some [false]) true
    (fun L h => by rcases h with rfl | h; exacts [⟨by simp, by simp, fun _ _ => rfl⟩, by cases h; exact ⟨by simp, by simp, fun _ _ => rfl⟩])
  exact ⟨m, hm, (C53_equivariant boolTable_valid' boolGroup (List.Perm.swap _ _ _) hm m.function).1⟩

end Fourier

end Escnn
