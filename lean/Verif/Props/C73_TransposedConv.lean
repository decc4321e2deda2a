import Verif.Lemmas.ConvTransposed
import Verif.Props.C43_Plane
import Verif.Props.C47_Shapes
import Verif.Props.C71_Upsampling
import Verif.Spec.GridCommutes

/-!
# C73: the transposed convolutions commute with the symmetries of the grid
-/

namespace Escnn

open NpMat NdArr Real

section

variable {n : ℕ} {B G J S : Type} [DecidableEq J] {T : IrrepTable G J} {El : G → Prop} {op : G → G → G} {one : G}

/-- The transposed convolution, for elements acting by signed permutations. -/
theorem convT_stage {Ai A' Ao Ao' : NpMat ℝ} {F : Kern} {k stride dil groups ci : ℕ} {pad opad : Fin n → ℕ} {b : Option (ℕ → ℝ)} {M : NpMat ℝ} {σ : Equiv.Perm (Fin n)} {ε : Fin n → ℝ} (hS : Signed n M σ ε) {x y x' : FMap n B}
    (h : Moved (arrPerm σ) (arrSign σ ε) Ai x y) (hx : convTransposeNd F.swap k stride pad opad dil groups b x = .ok x') (hp : ∀ i j, pad i = pad j) (hop : ∀ i, opad i = 0)
    (hro : Ao.rows = F.rows * groups) (hco : Ao.cols = F.rows * groups) (hri : Ai.rows = F.cols) (hcl : Ai.cols = F.cols) (hco' : Ao'.cols = F.rows) (hci : F.cols = groups * ci)
    (hA : ∀ t < groups, ∀ c < ci, ∀ f : ℕ → ℝ, ∑ c' ∈ Finset.range (groups * ci), Ai.get (t * ci + c) c' * f c' = ∑ c' ∈ Finset.range ci, A'.get c c' * f (t * ci + c'))
    (hO : ∀ t < groups, ∀ o < F.rows, ∀ f : ℕ → ℝ, ∑ o' ∈ Finset.range (groups * F.rows), Ao.get (t * F.rows + o) o' * f o' = ∑ o' ∈ Finset.range F.rows, Ao'.get o o' * f (t * F.rows + o'))
    (hF : ∀ (i j : ℕ) (v : Fin n → ℝ), (gridCoords n k dil)[i]? = some v → (gridCoords n k dil)[j]? = some (fun a : Fin n => ∑ b : Fin n, M.get a b * v b) → mul (F.at j) Ai ≈ mul Ao' (F.at i))
    (hb : ∀ o < F.rows * groups, ∑ o' ∈ Finset.range (F.rows * groups), Ao.get o o' * Linear.biasAt b o' = Linear.biasAt b o) :
    ∃ y', convTransposeNd F.swap k stride pad opad dil groups b y = .ok y' ∧ Moved (arrPerm σ) (arrSign σ ε) Ao x' y' := by
  refine h.convT hx hp hop hro hco hci hA hO (fun u o ho c' hc' => ?_) hb
  have e := hF (flatIndex k (sourceFin (arrPerm σ) (arrSign σ ε) u)) (flatIndex k u) _ (gridCoords_get dil _) (by
    rw [gridCoords_get dil u]
    congr 1
    funext a
    rw [grid_source hS u a, Finset.mul_sum]
    exact Finset.sum_congr rfl fun b _ => by ring)
  have := e.2.2 o c' ho (hcl.symm ▸ hc')
  simp only [mul, Kern.at] at this
  rw [hco'] at this
  exact this

/-- **C73** The transposed convolution with any filter which is steerable on the grid and a bias fixed by the output representation commutes with each element acting by a signed permutation of the axes, for every
kernel size, stride, dilation, padding (the same on each axis) and feature map, without output padding. -/
theorem C73_conv (hT : T.Valid El op one) {inT outT : FType S (Rep G J)} (hin : ∀ r ∈ inT.reprs, r.WF T El) (hout : ∀ r ∈ outT.reprs, r.WF T El) (base : G → NpMat ℝ)
    (interp : NdArr n (B × ℕ) → NpMat ℝ → Except Err (NdArr n (B × ℕ))) (F : Kern) (k stride dil : ℕ) (p : Fin n → ℕ) (b : Option (ℕ → ℝ)) (hk : 0 < k) (hs : 0 < stride) (hd : 0 < dil)
    (hp : ∀ i j, p i = p j) (hr : F.rows = outT.size Rep.size) (hc : F.cols = inT.size Rep.size) {g : G} (hg : El g) (hM : IsSignedPerm n (base g))
    (hF : ∀ (i j : ℕ) (v : Fin n → ℝ), (gridCoords n k dil)[i]? = some v → (gridCoords n k dil)[j]? = some (fun a : Fin n => ∑ b : Fin n, (base g).get a b * v b) →
      mul (F.at j) (inT.fiberRep g) ≈ mul (outT.fiberRep g) (F.at i))
    (hb : ∀ o < F.rows, ∑ o' ∈ Finset.range F.rows, (outT.fiberRep g).get o o' * Linear.biasAt b o' = Linear.biasAt b o)
    (x : FMap n B) (hx : x.chans = inT.size Rep.size) (hsize : ∀ i, 0 < x.shape i ∧ 2 * p i < (x.shape i - 1) * stride + dil * (k - 1) + 1) :
    CommutesWith base interp (fun z => do GMap.mk' Rep.size (← convTransposeNd F.swap k stride p (fun _ => 0) dil 1 b z.map) outT) g ⟨x, inT⟩ := by
  obtain ⟨hMr, hMc, σ, ε, hε, hMg⟩ := hM
  have hS : Signed n (base g) σ ε := ⟨hMr, hMc, hε, hMg⟩
  obtain ⟨hri, hci⟩ := fiberRep_shape hin hT hg
  obtain ⟨hro, hco⟩ := fiberRep_shape hout hT hg
  obtain ⟨gx, hgx, hmv⟩ := GMap.transform_moved hT hin base interp hg hS x hx
  obtain ⟨y, hy, hyc⟩ : ∃ y, convTransposeNd F.swap k stride p (fun _ => 0) dil 1 b x = .ok y ∧ y.chans = F.rows * 1 := by
    refine ⟨_, if_pos ⟨hk, hs, hd, Nat.one_pos, hx.trans hc.symm, Nat.mod_one _, fun i => ⟨(hsize i).1, .inl hs, ?_⟩⟩, rfl⟩
    obtain ⟨h1, h2⟩ := hsize i
    have e1 : ((x.shape i : ℤ) - 1) * stride = (((x.shape i - 1) * stride : ℕ) : ℤ) := by push_cast [Nat.cast_sub (show 1 ≤ x.shape i by omega)]; ring
    have e2 : (dil : ℤ) * ((k : ℤ) - 1) = ((dil * (k - 1) : ℕ) : ℤ) := by push_cast [Nat.cast_sub (show 1 ≤ k by omega)]; ring
    rw [e1, e2]
    push_cast
    omega
  obtain ⟨gy, hgy, hmv'⟩ := convT_stage (A' := inT.fiberRep g) (Ao := outT.fiberRep g) (Ao' := outT.fiberRep g) (ci := F.cols) hS hmv hy hp (fun _ => rfl) (by rw [mul_one, hro, hr]) (by rw [mul_one, hco, hr])
    (hri.trans hc.symm) (hci.trans hc.symm) (hco.trans hr.symm) (one_mul _).symm (fun t ht c _ f => by
      obtain rfl : t = 0 := by omega
      simp) (fun t ht c _ f => by
      obtain rfl : t = 0 := by omega
      simp) hF (by rw [mul_one]; exact hb)
  rw [mul_one, hr] at hyc
  obtain ⟨gy', h6, h7⟩ := GMap.transform_moved hT hout base interp hg hS y hyc
  refine ⟨⟨y, outT⟩, ⟨gx, inT⟩, ⟨gy, outT⟩, ⟨gy', outT⟩, ?_, hgx, ?_, h6, rfl, hmv'.unique h7⟩
  · simp only [bind, Except.bind, hy]
    exact if_pos hyc
  · simp only [bind, Except.bind, hgy]
    exact if_pos (hmv'.chans.trans hyc)

end

namespace RdConvT

variable {n : ℕ} {B G J J' S P A : Type} [DecidableEq J] [DecidableEq J'] {El : G → Prop} {op : G → G → G} {one : G}

/-- **C73** for the modules `R2ConvTransposed`, `R3ConvTransposed`: for all field types (whose representations are told apart by their escaped names, C34), weights, bias weights, groups, kernel sizes, strides, dilations,
paddings and feature maps, without output padding, and each element acting by a signed permutation of the axes.  `mk` builds the kernel bases on the base space with points `P`.  If no kernels exist the constructor
raises `ValueError`. -/
theorem C73_module {T : IrrepTable G J'} {triv : J'} (hT : T.Valid El op one) (hone : El one) (ht : T.IsTrivial El triv) {act : G → P → P} {Fsize : J → ℕ} (F : FBasis J P A)
    (mk : Rep G J' → Rep G J' → Except Err (SKB J J' A)) (toPt : (Fin n → ℝ) → P) (base : G → NpMat ℝ)
    (hbase : ∀ g, El g → IsSignedPerm n (base g) → ∀ v : Fin n → ℝ, act g (toPt v) = toPt fun a : Fin n => ∑ b : Fin n, (base g).get a b * v b)
    (interp : NdArr n (B × ℕ) → NpMat ℝ → Except Err (NdArr n (B × ℕ)))
    (inT outT : FType S (Rep G J')) (hsp : inT.gspace = outT.gspace) (hin : ∀ r ∈ inT.reprs, r.WF T El) (hout : ∀ r ∈ outT.reprs, r.WF T El) (hne : inT.reprs ≠ []) (hne' : outT.reprs ≠ [])
    (gdim : S → ℕ) (hgd : gdim inT.gspace ≤ n) (filt : Option (Attr (SAttr J J' A) → Bool))
    {uin uout : List (Rep G J')} (hui : ∀ r, r ∈ uin ↔ r ∈ inT.reprs) (hun : uin.Nodup) (huo : ∀ r, r ∈ uout ↔ r ∈ outT.reprs) (hon : uout.Nodup)
    (hni : ∀ r ∈ inT.reprs, ∀ r' ∈ inT.reprs, escName r.name = escName r'.name → r = r') (hno : ∀ r ∈ outT.reprs, ∀ r' ∈ outT.reprs, escName r.name = escName r'.name → r = r')
    (hser : ∀ i ∈ inT.reprs, ∀ o ∈ outT.reprs, SKB.Serves El act Fsize F i o (mk i o))
    (k : ℕ) (hk : 0 < k) (padding opadding : Padding) (p op : Fin n → ℕ) (hpa : padding.axes n = .ok p) (hoa : opadding.axes n = .ok op) (hp : ∀ i j, p i = p j) (hop : ∀ i, op i = 0)
    (stride dil : ℕ) (hs : 0 < stride) (hd : 0 < dil) (groups : ℕ) (hg : 0 < groups) (outT' : FType S (Rep G J')) (hgt : RdConv.groupType groups outT inT = .ok outT') (bias : Bool) (w0 : ℕ → ℝ) :
    let ini := init T.size triv gdim (fun pts => kernGen Fsize F (pts.map toPt) mk) filt uin uout inT outT k padding opadding stride dil groups bias w0
    (ini = .error .value ∧ ∃ m, Blocks.init Rep.name Rep.size (Blocks.blockFor (kernGen Fsize F ((gridCoords n k dil).map toPt) mk) filt (k ^ n)) uin uout inT.reprs outT'.reprs (k ^ n) = .ok m ∧ m.dim = 0) ∨
    ∃ l, ini = .ok l ∧ ∀ w bw g, El g → IsSignedPerm n (base g) → ∀ x : FMap n B, x.chans = inT.size Rep.size → (∀ i, 0 < x.shape i ∧ 2 * p i < (x.shape i - 1) * stride + dil * (k - 1) + 1) →
      CommutesWith base interp (forward { l with weights := w, bias := bw }) g ⟨x, inT⟩ := by
  intro ini
  obtain ⟨mo, mi, hlo, hro, hli, hri, rfl⟩ := RdConv.groupType_spec hg hgt
  have hmi : 0 < mi := Nat.pos_of_ne_zero fun h => hne (List.length_eq_zero_iff.1 (by rw [hli, h, Nat.mul_zero]))
  have hmo : 0 < mo := Nat.pos_of_ne_zero fun h => hne' (List.length_eq_zero_iff.1 (by rw [hlo, h, Nat.mul_zero]))
  have hmem : ∀ r, r ∈ outT.reprs.take mo ↔ r ∈ outT.reprs := fun r => ⟨List.mem_of_mem_take, fun h => by
    obtain ⟨i, hi, rfl⟩ := List.mem_iff_getElem.1 h
    refine List.mem_of_getElem? (i := i % mo) ?_
    rw [List.getElem?_take, if_pos (Nat.mod_lt _ hmo), ← hro i hi, List.getElem?_eq_getElem hi]⟩
  set outT' : FType S (Rep G J') := ⟨outT.gspace, outT.reprs.take mo⟩ with houtT'
  have hpl : 0 < ((gridCoords n k dil).map toPt).length := by rw [List.length_map, gridCoords_length]; positivity
  obtain ⟨-, m, hm1, hw⟩ := Blocks.steerable_filter (pts := (gridCoords n k dil).map toPt) hone inT outT' hpl hui hun (fun r => (huo r).trans (hmem r).symm) hon
    hni (fun r hr r' hr' => hno r ((hmem r).1 hr) r' ((hmem r').1 hr')) hin (fun r hr => hout r ((hmem r).1 hr)) (fun i hi o ho => hser i hi o ((hmem o).1 ho)) filt
  rw [List.length_map, gridCoords_length] at hm1
  have hinit : ini = if m.dim = 0 then .error .value else .ok ⟨inT, outT, k, padding, opadding, p, op, stride, dil, groups, m, if bias then Bias.expansion T.size triv outT.reprs else none, w0, fun _ => 0, true,
        some ⟨inT.size Rep.size, outT'.size Rep.size, fun _ _ _ => 0⟩, some ((if bias then Bias.expansion T.size triv outT.reprs else none).map fun _ _ => 0)⟩ := by
    show init T.size triv gdim (fun pts => kernGen Fsize F (pts.map toPt) mk) filt uin uout inT outT k padding opadding stride dil groups bias w0 = _
    rw [init, if_neg (by rintro (h | h) <;> [exact h hsp; omega])]
    simp only [bind, Except.bind, hpa, hoa, hgt]
    rw [hm1]
  by_cases hdim : m.dim = 0
  · exact .inl ⟨by rw [hinit, if_pos hdim], m, hm1, hdim⟩
  rw [hinit, if_neg hdim]
  refine .inr ⟨_, rfl, fun w bw g hgel hM x hx hsize => ?_⟩
  obtain ⟨f, hf, hfr, hfc, hst⟩ := hw (fun _ => Nat.pos_of_ne_zero hdim) w
  set be := if bias then Bias.expansion T.size triv outT.reprs else none with hbe
  have hM0 := hM
  obtain ⟨hMr, hMc, σ, ε, hε, hMg⟩ := hM
  have hS : Signed n (base g) σ ε := ⟨hMr, hMc, hε, hMg⟩
  obtain ⟨hri1, hci1⟩ := fiberRep_shape hin hT hgel
  obtain ⟨hro2, hco2⟩ := fiberRep_shape (t := outT') (fun r hr => hout r ((hmem r).1 hr)) hT hgel
  obtain ⟨hro1, hco1⟩ := fiberRep_shape hout hT hgel
  obtain ⟨gx, hgx, hmv⟩ := GMap.transform_moved hT hin base interp hgel hS x hx
  obtain ⟨hsi, hA, -⟩ := fiberRep_groups hin hmi hli hri hgel (s := inT.gspace) rfl hg
  obtain ⟨hso, hO, -⟩ := fiberRep_groups hout hmo hlo hro hgel (s := outT.gspace) (s' := outT'.size Rep.size) rfl hg
  set ci := FType.size Rep.size (⟨inT.gspace, inT.reprs.take mi⟩ : FType S (Rep G J')) with hcie
  set l : RdConvT n S (Rep G J') (SAttr J J' A) := ⟨inT, outT, k, padding, opadding, p, op, stride, dil, groups, m, be, w, bw, true,
        some ⟨inT.size Rep.size, outT'.size Rep.size, fun _ _ _ => 0⟩, some (be.map fun _ _ => 0)⟩ with hl
  have hfw : ∀ z : FMap n B, forward l ⟨z, inT⟩ = (convTransposeNd f.swap k stride p op dil groups (be.map fun E => Bias.expand E bw) z >>= fun y => GMap.mk' Rep.size y outT) := by
    intro z
    rw [forward, if_neg (by simp [hl]), current, if_neg (by simp [hl])]
    simp only [bind, Except.bind, expandParameters, hl, hf]
  obtain ⟨y, hy, hyc⟩ : ∃ y, convTransposeNd f.swap k stride p op dil groups (be.map fun E => Bias.expand E bw) x = .ok y ∧ y.chans = f.rows * groups := by
    refine ⟨_, if_pos ⟨hk, hs, hd, hg, hx.trans hfc.symm, ?_, fun i => ⟨(hsize i).1, .inl (by rw [hop]; exact hs), ?_⟩⟩, rfl⟩
    · show f.cols % groups = 0
      rw [hfc, hsi]
      exact Nat.mul_mod_right _ _
    · obtain ⟨h1, h2⟩ := hsize i
      have e1 : ((x.shape i : ℤ) - 1) * stride = (((x.shape i - 1) * stride : ℕ) : ℤ) := by push_cast [Nat.cast_sub (show 1 ≤ x.shape i by omega)]; ring
      have e2 : (dil : ℤ) * ((k : ℤ) - 1) = ((dil * (k - 1) : ℕ) : ℤ) := by push_cast [Nat.cast_sub (show 1 ≤ k by omega)]; ring
      rw [e1, e2, hop]
      push_cast
      omega
  have hfo : f.rows * groups = outT.size Rep.size := by rw [hfr, hso, Nat.mul_comm]
  obtain ⟨gy, hgy, hmv'⟩ := convT_stage (F := f) (Ao := outT.fiberRep g) (Ao' := outT'.fiberRep g) (ci := ci) hS hmv hy hp hop (hro1.trans hfo.symm) (hco1.trans hfo.symm)
    (hri1.trans hfc.symm) (hci1.trans hfc.symm) (hco2.trans hfr.symm) (hfc.trans hsi) hA (by rw [hfr]; exact hO)
    (fun i j v hi hj => hst g hgel i j (toPt v) (by rw [List.getElem?_map, hi]; rfl) (by rw [List.getElem?_map, hj, hbase g hgel hM0]; rfl))
    (fun o ho => by
      cases hB : be with
      | none => simp [Linear.biasAt]
      | some E =>
        have hE' : Bias.expansion T.size triv outT.reprs = some E := by
          rw [hbe] at hB
          split_ifs at hB
          exact hB
        rw [hfo] at ho ⊢
        exact Linear.bias_fixed hT ht hout hE' bw hgel ho)
  rw [hfo] at hyc
  obtain ⟨gy', h6, h7⟩ := GMap.transform_moved hT hout base interp hgel hS y hyc
  refine ⟨⟨y, outT⟩, ⟨gx, inT⟩, ⟨gy, outT⟩, ⟨gy', outT⟩, ?_, hgx, ?_, h6, rfl, hmv'.unique h7⟩
  · rw [hfw, hy]
    exact if_pos hyc
  · rw [hfw, hgy]
    exact if_pos (hmv'.chans.trans hyc)

end RdConvT

/-- The kernels on the plane for a group with an inclusion into O(2) are steerable for the action which transforms the feature maps. -/
theorem planeGen_serves {G' J' : Type} [DecidableEq J'] {El : G' → Prop} {op : G' → G' → G'} {one : G'} (K : KGroup G' J') (res : ℕ × ℕ → Rep G' J') (parent : G' → Except Err O2.Elem) (radii sigma : List ℝ) (L : ℕ) (axis : ℝ) (junk : ℕ → ℝ)
    (hT : K.T.Valid El op one) (hE : EndoValid K.T K.typ El)
    (hcg : ∀ m n, K.T.ok m = true → K.T.ok n = true → ((K.tensor m n).map Prod.fst).Nodup ∧ ∀ p ∈ K.tensor m n, K.T.ok p.1 = true ∧
      ∀ g, El g → Intertwines (K.T.mat n g) (K.T.mat m g) (K.T.mat p.1 g) (K.cg n m p.1))
    (hpar : ∀ h, El h → ∃ g, parent h = .ok g ∧ O2.IsElement g ∧ (g.1 = 0 ∨ axis = 0))
    (hres : ∀ j, O2.table.ok j = true → 0 < O2.table.size j → (res j).WF K.T El ∧ (res j).size = O2.table.size j ∧ ∀ h g, El h → parent h = .ok g → (res j).mat h ≈ O2.table.mat j g)
    (hlen : radii.length = sigma.length) (hr : ∀ r ∈ radii, 0 ≤ r) (hs : ∀ s ∈ sigma, 0 < s) :
    ∃ (F : FBasis (ℕ × ℕ) (ℝ × ℝ) (Option StAttr)) (mk : Rep G' J' → Rep G' J' → Except Err (SKB (ℕ × ℕ) J' (Option StAttr))),
      (∀ i o, kernelsO2Subgroup K res i o radii sigma L axis none junk = (mk i o).map fun s => (s, F)) ∧
      (planeGen fun i o => kernelsO2Subgroup K res i o radii sigma L axis none junk) = (fun pts => kernGen O2.table.size F (pts.map fun v => (v 0, v 1)) mk) ∧
      ∀ i o : Rep G' J', i.WF K.T El → o.WF K.T El → SKB.Serves El (fun h p => moveBy ((res (1, 1)).mat h) p) O2.table.size F i o (mk i o) := by
  obtain ⟨F, mk, R, hR, hkern, hgen, hser⟩ := kernelsO2Subgroup_serves K res parent radii sigma L axis junk hT hE hcg (fun h hh => by
    obtain ⟨g, h1, h2, -⟩ := hpar h hh
    exact ⟨g, h1, h2⟩) hres hlen hr hs
  have h11 := hres (1, 1) (by decide) (by decide)
  refine ⟨F, mk, hkern, funext hgen, fun i o hi ho => hser _ (fun h hh g hgp => ?_) i o hi ho⟩
  funext q
  obtain ⟨g', h1, h2, h3⟩ := hpar h hh
  rw [hgp] at h1
  obtain rfl := Except.ok.inj h1
  rw [moveBy_of_eqv (h11.2.2 h g hh hgp)]
  obtain ⟨R', k1, -, -, k2, k3⟩ := C39_action [] "StandardAction" (by simp) axis
  rw [hR] at k1
  obtain rfl := Except.ok.inj k1
  obtain ⟨φ, hq⟩ := norm2_polar q
  rw [hq]
  obtain ⟨s, θ⟩ := g
  rcases h2.1 with hs0 | hs0 <;> simp only at hs0 <;> subst hs0
  · rw [k2 _ _ _ h2]
    simp only [cos_add, sin_add, sgnR]
    ext <;> simp <;> ring
  · rw [k3 _ _ _ h2]
    rcases h3 with h3 | h3
    · simp at h3
    · subst h3
      simp only [cos_add, sin_add, cos_sub, sin_sub, sgnR]
      ext <;> simp <;> ring

/-- The kernels on the plane for the cyclic groups. -/
theorem Cyclic.planeGen_serves (N : ℕ) (hN : 0 < N) (radii sigma : List ℝ) (L : ℕ) (junk : ℕ → ℝ) (hlen : radii.length = sigma.length) (hr : ∀ r ∈ radii, 0 ≤ r) (hs : ∀ s ∈ sigma, 0 < s) :
    let base := fun h => (restrictedIrrep (Cyclic.table N) "O(2)" 0 (fun i => .ok (O2.restrictRot i.1 i.2 N)) (1, 1)).mat h
    (∀ g : ℤ, Cyclic.isElement N g = true → (N : ℤ) ∣ 4 * g → IsSignedPerm 2 (base g)) ∧
    ∃ (F : FBasis (ℕ × ℕ) (ℝ × ℝ) (Option StAttr)) (mk : Rep ℤ ℕ → Rep ℤ ℕ → Except Err (SKB (ℕ × ℕ) ℕ (Option StAttr))),
      (∀ i o, kernelsCN N i o radii sigma L none junk = (mk i o).map fun s => (s, F)) ∧
      (planeGen fun i o => kernelsCN N i o radii sigma L none junk) = (fun pts => kernGen O2.table.size F (pts.map fun v => (v 0, v 1)) mk) ∧
      ∀ i o : Rep ℤ ℕ, i.WF (Cyclic.table N) (fun g => Cyclic.isElement N g = true) → o.WF (Cyclic.table N) (fun g => Cyclic.isElement N g = true) →
        SKB.Serves (fun g => Cyclic.isElement N g = true) (fun h p => moveBy (base h) p) O2.table.size F i o (mk i o) := by
  have hrad : ∀ h, Cyclic.isElement N h = true → 0 ≤ Cyclic.radians N h ∧ Cyclic.radians N h < 2 * π := fun h hh => by
    have h0 : (0 : ℝ) ≤ h ∧ (h : ℝ) < N := by
      simp only [Cyclic.isElement, Bool.and_eq_true, decide_eq_true_eq] at hh
      exact ⟨by exact_mod_cast hh.1, by exact_mod_cast hh.2⟩
    have hpi := Real.pi_pos
    have hN' : (0 : ℝ) < N := by exact_mod_cast hN
    unfold Cyclic.radians
    refine ⟨div_nonneg (mul_nonneg h0.1 (by positivity)) hN'.le, ?_⟩
    rw [div_lt_iff₀ hN']
    nlinarith [h0.2]
  have hel : ∀ h, Cyclic.isElement N h = true → O2.so2ToO2 (Cyclic.radians N h) = .ok (0, Cyclic.radians N h) ∧ O2.IsElement (0, Cyclic.radians N h) := fun h hh => by
    have hm : mod2pi (Cyclic.radians N h) = Cyclic.radians N h := mod2pi_eq_self (hrad h hh).1 (hrad h hh).2
    exact ⟨by simp [O2.so2ToO2, O2.element, O2.reduce, hm], .inl rfl, (hrad h hh).1, (hrad h hh).2⟩
  have hres := fun j hj hp => restrictedIrrep_ok (fun r hwf hn => C13_o2_rot N hN [] "O(2)" r hwf hn) j hj hp
  intro base
  constructor
  · intro g hgel hq
    refine RdConv.signedPerm_of_eqv ((hres (1, 1) (by decide) (by decide)).2.2 g _ hgel (hel g hgel).1) ?_
    have := RdConv.quarter hN hq 0
    rw [show Cyclic.radians N g = 2 * π * g / N + ((0 : ℤ) : ℝ) * (π / 2) by unfold Cyclic.radians; push_cast; ring]
    exact this
  · exact Escnn.planeGen_serves (Cyclic.kgroup N) (restrictedIrrep (Cyclic.table N) "O(2)" 0 fun i => .ok (O2.restrictRot i.1 i.2 N)) (fun h => O2.so2ToO2 (Cyclic.radians N h)) radii sigma L
      (π / 2) junk (Cyclic.table_valid N hN) (Cyclic.C18_cyclic N hN).1
      (fun m n hm hn => ⟨Cyclic.tensor_nodup N m n (of_decide_eq_true hm) (of_decide_eq_true hn), fun p hp =>
        ⟨(Cyclic.kgroup_cg N hN m n (of_decide_eq_true hm) (of_decide_eq_true hn) p hp).1, (Cyclic.kgroup_cg N hN m n (of_decide_eq_true hm) (of_decide_eq_true hn) p hp).2.2⟩⟩)
      (fun h hh => ⟨_, (hel h hh).1, (hel h hh).2, .inl rfl⟩) hres hlen hr hs

namespace RdConvT

variable {S B : Type}

/-- **C73** for the cyclic groups `rot2dOnR2(N)`: every element which rotates by a multiple of 90 degrees (for `N = 4` all the elements). -/
theorem C73_cyclic (N : ℕ) (hN : 0 < N) (radii sigma : List ℝ) (L : ℕ) (junk : ℕ → ℝ)
    (hlen : radii.length = sigma.length) (hr : ∀ r ∈ radii, 0 ≤ r) (hs : ∀ s ∈ sigma, 0 < s)
    (interp : NdArr 2 (B × ℕ) → NpMat ℝ → Except Err (NdArr 2 (B × ℕ)))
    (inT outT : FType S (Rep ℤ ℕ)) (hsp : inT.gspace = outT.gspace) (hin : ∀ r ∈ inT.reprs, r.WF (Cyclic.table N) (fun g => Cyclic.isElement N g = true)) (hout : ∀ r ∈ outT.reprs, r.WF (Cyclic.table N) (fun g => Cyclic.isElement N g = true))
    (hne : inT.reprs ≠ []) (hne' : outT.reprs ≠ []) (filt : Option (Attr (SAttr (ℕ × ℕ) ℕ (Option StAttr)) → Bool))
    {uin uout : List (Rep ℤ ℕ)} (hui : ∀ r, r ∈ uin ↔ r ∈ inT.reprs) (hun : uin.Nodup) (huo : ∀ r, r ∈ uout ↔ r ∈ outT.reprs) (hon : uout.Nodup)
    (hni : ∀ r ∈ inT.reprs, ∀ r' ∈ inT.reprs, escName r.name = escName r'.name → r = r') (hno : ∀ r ∈ outT.reprs, ∀ r' ∈ outT.reprs, escName r.name = escName r'.name → r = r')
    (k : ℕ) (hk : 0 < k) (padding opadding : Padding) (p op : Fin 2 → ℕ) (hpa : padding.axes 2 = .ok p) (hoa : opadding.axes 2 = .ok op) (hp : ∀ i j, p i = p j) (hop : ∀ i, op i = 0)
    (stride dil : ℕ) (hst : 0 < stride) (hd : 0 < dil) (groups : ℕ) (hg : 0 < groups) (outT' : FType S (Rep ℤ ℕ)) (hgt : RdConv.groupType groups outT inT = .ok outT') (bias : Bool) (w0 : ℕ → ℝ) :
    let ini := init (Cyclic.irrepSize N) 0 (fun _ => 2) (planeGen fun i o => kernelsCN N i o radii sigma L none junk) filt uin uout inT outT k padding opadding stride dil groups bias w0
    let base := fun h => (restrictedIrrep (Cyclic.table N) "O(2)" 0 (fun i => .ok (O2.restrictRot i.1 i.2 N)) (1, 1)).mat h
    (ini = .error .value ∧ ∃ m, Blocks.init Rep.name Rep.size (Blocks.blockFor (planeGen (fun i o => kernelsCN N i o radii sigma L none junk) (gridCoords 2 k dil)) filt (k ^ 2)) uin uout inT.reprs outT'.reprs (k ^ 2) = .ok m ∧ m.dim = 0) ∨
    ∃ l, ini = .ok l ∧ ∀ w bw g, Cyclic.isElement N g = true → (N : ℤ) ∣ 4 * g → ∀ x : FMap 2 B, x.chans = inT.size Rep.size → (∀ i, 0 < x.shape i ∧ 2 * p i < (x.shape i - 1) * stride + dil * (k - 1) + 1) →
      CommutesWith base interp (forward { l with weights := w, bias := bw }) g ⟨x, inT⟩ := by
  intro ini base
  obtain ⟨hsg, F, mk, -, hgen, hser⟩ := Cyclic.planeGen_serves N hN radii sigma L junk hlen hr hs
  have main := C73_module (B := B) (Cyclic.table_valid N hN) (Cyclic.isElement_zero hN) (Cyclic.trivial N) F mk (fun v => (v 0, v 1)) base (act := fun h p => moveBy (base h) p) (fun h hh _ v => by simp [moveBy, Fin.sum_univ_two])
    interp inT outT hsp hin hout hne hne' (fun _ => 2) le_rfl filt hui hun huo hon hni hno (fun i hi o ho => hser i o (hin i hi) (hout o ho)) k hk padding opadding p op hpa hoa hp hop stride dil hst hd groups hg outT' hgt bias w0
  rw [← hgen] at main
  rcases main with ⟨h1, h2⟩ | ⟨l, h1, h2⟩
  · refine .inl ⟨h1, ?_⟩
    rw [congrFun hgen]
    exact h2
  · exact .inr ⟨l, h1, fun w bw g hgel hq => h2 w bw g hgel (hsg g hgel hq)⟩

/-- **C73** Output padding (documented as padding on both sides) breaks the symmetry: with the filter of a single one, which is steerable, any stride, any positive output padding below the stride, and an image of a
single pixel. -/
theorem C73_output_padding_violated {stride q : ℕ} (hq : 0 < q) (hqs : q < stride) (interp : NdArr 2 (Unit × ℕ) → NpMat ℝ → Except Err (NdArr 2 (Unit × ℕ))) :
    ¬ ∀ f : Unit → ℕ → (Fin 2 → ℕ) → ℝ, CommutesWith (Cyclic.irrepMat 4 1) interp
      (fun z => do GMap.mk' Rep.size (← convTransposeNd (⟨1, 1, fun _ _ _ => 1⟩ : Kern).swap 1 stride (fun _ => 0) (fun _ => q) 1 1 none z.map) Upsampling.scalars) 2 ⟨⟨1, fun _ => 1, f⟩, Upsampling.scalars⟩ := by
  intro h
  have hv : ∀ x : FMap 2 Unit, x.chans = 1 → (x.shape = fun _ => 1) → ∀ y, (do GMap.mk' Rep.size (← convTransposeNd (⟨1, 1, fun _ _ _ => 1⟩ : Kern).swap 1 stride (fun _ => 0) (fun _ => q) 1 1 none x) Upsampling.scalars) = .ok y →
      y.type = Upsampling.scalars ∧ y.map.chans = 1 ∧ (y.map.shape = fun _ => q + 1) ∧ y.map.get () 0 (fun _ => 0) = x.get () 0 (fun _ => 0) ∧ y.map.get () 0 (fun _ => q) = 0 := by
    intro x hx hs y hy
    obtain ⟨z, hz, h1, h2, h3, h4⟩ : ∃ z, convTransposeNd (⟨1, 1, fun _ _ _ => 1⟩ : Kern).swap 1 stride (fun _ => 0) (fun _ => q) 1 1 none x = .ok z ∧ z.chans = 1 ∧ (z.shape = fun _ => q + 1) ∧
        z.get () 0 (fun _ => 0) = x.get () 0 (fun _ => 0) ∧ z.get () 0 (fun _ => q) = 0 := by
      unfold convTransposeNd
      rw [if_pos ⟨Nat.one_pos, by omega, Nat.one_pos, Nat.one_pos, hx, Nat.mod_one _, fun i => by rw [hs]; exact ⟨Nat.one_pos, .inl hqs, by push_cast; omega⟩⟩]
      refine ⟨_, rfl, rfl, ?_, ?_, ?_⟩
      · funext i
        simp only [hs]
        push_cast
        omega
      · simp [Kern.swap, hs, backPos, Linear.biasAt]
      · have hm : q % stride ≠ 0 := by rw [Nat.mod_eq_of_lt hqs]; omega
        simp [Kern.swap, hs, backPos, Linear.biasAt, hm]
    rw [hz] at hy
    obtain ⟨rfl, -⟩ := GMap.mk'_ok hy
    exact ⟨rfl, h1, h2, h3, h4⟩
  obtain ⟨y, gx, gy, gy', h1, h2, h3, h4, h5, h6⟩ := h fun _ _ _ => 1
  obtain ⟨gx', e1, e2, e3, e4⟩ := Upsampling.half_turn interp (⟨1, fun _ => 1, fun _ _ _ => 1⟩ : FMap 2 Unit) rfl
  obtain rfl := Except.ok.inj (h2.symm.trans e1)
  obtain ⟨a1, a2, a3, a4, a5⟩ := hv _ rfl rfl _ h1
  obtain ⟨b1, b2, b3, b4, b5⟩ := hv _ e2 e3 _ h3
  obtain ⟨y, ty⟩ := y
  obtain rfl : Upsampling.scalars = ty := a1.symm
  obtain ⟨gy2, f1, f2, f3, f4⟩ := Upsampling.half_turn interp y a2
  obtain rfl := Except.ok.inj (h4.symm.trans f1)
  simp only at a2 a3 a4 a5 f3 f4
  have h8 := h6.2.2 () 0 (by rw [b2]; exact Nat.one_pos) (fun _ => 0) (by rw [b3]; exact fun i => Nat.succ_pos _)
  rw [f4 () _ (by rw [f3, a3]; exact fun i => Nat.succ_pos _), b4, e4 () _ (by rw [e3]; exact fun i => Nat.one_pos)] at h8
  simp only [a3, Nat.sub_zero, Nat.add_sub_cancel] at h8
  rw [a5] at h8
  exact one_ne_zero h8

/-- Stride 2 and output padding 1. -/
example (interp : NdArr 2 (Unit × ℕ) → NpMat ℝ → Except Err (NdArr 2 (Unit × ℕ))) := C73_output_padding_violated (stride := 2) (q := 1) (by norm_num) (by norm_num) interp

/-- Images of 4 × 6 pixels enlarged with kernels of size 3, stride 2 and padding 1 at the radii 0 and 1, and every element of `C_4`. -/
example (w0 : ℕ → ℝ) (interp : NdArr 2 (Unit × ℕ) → NpMat ℝ → Except Err (NdArr 2 (Unit × ℕ))) (l) (hl : RdConvT.init (Cyclic.irrepSize 4) 0 (fun _ => 2) (planeGen fun i o => kernelsCN 4 i o [0, 1] [1, 1] 2 none fun _ => 0) none
      convDemo.reprs convDemo.reprs convDemo convDemo 3 (.int 1) (.int 0) 2 1 1 true w0 = .ok l) (w bw : ℕ → ℝ) (g : ℤ) (hg : Cyclic.isElement 4 g = true) (f : Unit → ℕ → (Fin 2 → ℕ) → ℝ) :
    CommutesWith (fun h => (restrictedIrrep (Cyclic.table 4) "O(2)" 0 (fun i => .ok (O2.restrictRot i.1 i.2 4)) (1, 1)).mat h) interp (RdConvT.forward { l with weights := w, bias := bw }) g ⟨⟨3, ![4, 6], f⟩, convDemo⟩ := by
  have hn : ∀ r ∈ convDemo.reprs, ∀ r' ∈ convDemo.reprs, escName r.name = escName r'.name → r = r' := by
    intro r hr r' hr' h
    simp only [convDemo, List.mem_cons, List.not_mem_nil, or_false] at hr hr'
    rcases hr with rfl | rfl <;> rcases hr' with rfl | rfl
    · rfl
    · exact absurd h (by decide)
    · exact absurd h (by decide)
    · rfl
  have hnd : convDemo.reprs.Nodup := by
    refine List.Nodup.of_map Rep.name ?_
    decide
  rcases RdConvT.C73_cyclic (B := Unit) 4 (by norm_num) [0, 1] [1, 1] 2 (fun _ => 0) rfl (by simp) (by simp) interp convDemo convDemo rfl convDemo_wf convDemo_wf (by simp [convDemo]) (by simp [convDemo]) none
    (fun _ => Iff.rfl) hnd (fun _ => Iff.rfl) hnd hn hn 3 (by norm_num) (.int 1) (.int 0) (fun _ => 1) (fun _ => 0) rfl rfl (fun _ _ => rfl) (fun _ => rfl) 2 1 (by norm_num) (by norm_num) 1 (by norm_num) convDemo
    (by simp [RdConv.groupType]) true w0 with ⟨h, -⟩ | ⟨l', h1, h2⟩
  · rw [hl] at h
    simp at h
  · rw [hl] at h1
    obtain rfl := Except.ok.inj h1
    exact h2 w bw g hg (dvd_mul_right 4 g) ⟨3, ![4, 6], f⟩ (by simp [convDemo, FType.size_eq, irrepRep, Rep.size, eye, Cyclic.table, Cyclic.irrepSize]) (by intro i; fin_cases i <;> simp)

end RdConvT

/-- The filter of ones is steerable between scalar fields; the map need not be square. -/
example (f : Unit → ℕ → (Fin 2 → ℕ) → ℝ) (interp : NdArr 2 (Unit × ℕ) → NpMat ℝ → Except Err (NdArr 2 (Unit × ℕ))) (g : ℤ) (hg : Cyclic.isElement 4 g = true) :
    CommutesWith (Cyclic.irrepMat 4 1) interp (fun z => do GMap.mk' Rep.size (← convTransposeNd (⟨1, 1, fun _ _ _ => 1⟩ : Kern).swap 3 2 (fun _ => 1) (fun _ => 0) 2 1 none z.map) Upsampling.scalars) g ⟨⟨1, ![5, 8], f⟩, Upsampling.scalars⟩ := by
  obtain ⟨hr, hc⟩ := fiberRep_shape Upsampling.scalars_wf (Cyclic.table_valid 4 (by norm_num)) hg
  refine C73_conv (Cyclic.table_valid 4 (by norm_num)) Upsampling.scalars_wf Upsampling.scalars_wf (Cyclic.irrepMat 4 1) interp ⟨1, 1, fun _ _ _ => 1⟩ 3 2 2 (fun _ => 1) none (by norm_num) (by norm_num) (by norm_num) (fun _ _ => rfl) rfl rfl hg
    (Cyclic.signedPerm g) ?_ (by simp [Linear.biasAt]) _ rfl (by intro i; fin_cases i <;> simp)
  intro i j v _ _
  refine ⟨hr.symm, hc, fun a b ha hb => ?_⟩
  have ha : a = 0 := by simpa [mul, Kern.at] using ha
  have hb : b < (Upsampling.scalars.fiberRep g).cols := hb
  rw [hc, Upsampling.scalars_size] at hb
  obtain rfl : b = 0 := by omega
  subst ha
  have hcs : (Upsampling.scalars.fiberRep g).cols = 1 := hc
  simp [mul, Kern.at, hcs]

end Escnn
