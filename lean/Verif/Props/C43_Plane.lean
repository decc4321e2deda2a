import Verif.Props.C43_Conv
import Verif.Props.C37_Restricted

/-!
# C43: convolutions on the plane, from the circular harmonics to the forward pass
-/

namespace Escnn

open NpMat NdArr Real

/-- The circular harmonics without a filter describe themselves consistently. -/
theorem circularBasis_attrs (junk : ℕ → ℝ) {L n : ℕ} {b : Shells} (h : Shells.init ShellKind.circ O2.table.size L n none = .ok b) (radii sigma : List ℝ) (axis : ℝ) :
    (circularBasis junk b radii sigma axis).AttrsAgree := by
  intro e he
  have hjs := (Shells.init_spec ShellKind.circ_ok h).2.2.2.1
  obtain ⟨j, hj, hje⟩ := List.mem_iff_getElem.1 (show e ∈ b.js from he)
  have hjL : j ≤ L := by
    rw [hjs, List.length_map, List.length_range] at hj
    omega
  have hst := (Shells.C40_steerable ShellKind.circ_ok h j hjL).1
  rw [List.getElem?_eq_getElem hj, hje] at hst
  obtain rfl := Option.some.inj hst
  obtain ⟨h1, h2⟩ := Shells.C40_steerable_iter_partial ShellKind.circ_ok h j hjL
  refine ⟨_, rfl, by rw [List.length_map, h1], fun i hi => ?_⟩
  rw [List.length_map, h1] at hi
  obtain ⟨a, ha, ha'⟩ := h2 i hi
  obtain ⟨hlt, hg⟩ := List.getElem?_eq_some_iff.1 ha
  show b.steerableAttrsJ _ i = _
  rw [ha', List.getElem_map, hg]

variable {G' J J' P A : Type} [DecidableEq J] [DecidableEq J'] {El : G' → Prop} {op : G' → G' → G'} {one : G'}

/-- The restricted bases serve the basis expansion. -/
theorem SKB.serves_rwe {G : Type} {TG : IrrepTable G J} {ElG : G → Prop} {act : G → P → P} (K : KGroup G' J') (F : FBasis J P A) (res : J → Rep G' J')
    (parent : G' → Except Err G) (actH : G' → P → P) (rin rout : Rep G' J') (triv : J) (hT : K.T.Valid El op one) (hE : EndoValid K.T K.typ El)
    (hin : rin.WF K.T El) (hout : rout.WF K.T El)
    (hcg : ∀ m ∈ rin.irreps, ∀ n ∈ rout.irreps, ((K.tensor m n).map Prod.fst).Nodup ∧ ∀ p ∈ K.tensor m n, K.T.ok p.1 = true ∧
      ∀ g, El g → Intertwines (K.T.mat n g) (K.T.mat m g) (K.T.mat p.1 g) (K.cg n m p.1))
    (hF : (F.js.map Prod.fst).Nodup) (hst : F.Steerable TG.size TG.mat ElG act) (hA : F.AttrsAgree)
    (hpar : ∀ h, El h → ∃ g, parent h = .ok g ∧ ElG g ∧ actH h = act g)
    (hres : ∀ e ∈ F.js, (res e.1).WF K.T El ∧ (res e.1).size = TG.size e.1 ∧ ∀ h g, El h → parent h = .ok g → (res e.1).mat h ≈ TG.mat e.1 g) :
    SKB.Serves El actH TG.size F rin rout (SKB.init K.T.size triv F (RWE.init K F TG.size res) rin rout) := by
  rcases SKB.C38_restricted K F res parent actH rin rout triv hT hE hin hout (fun m hm n hn => (hcg m hm n hn).2) hF hst hpar hres with h | ⟨s, hs, h1, h2, -, h4⟩
  · exact .inl h.1
  · have hgen : ∀ m ∈ rin.irreps, ∀ n ∈ rout.irreps, SKB.GenGood El TG.size (fun j h => (res j).mat h) K.T F m n (RWE.init K F TG.size res m n) := by
      intro m hm n hn
      rcases RWE.init_spec K F TG.size res m n hT hE (hin.ok m hm) (fun p hp => ((hcg m hm n hn).2 p hp).1)
        (fun p hp => ((hcg m hm n hn).2 p hp).2) hF (fun e he => ⟨(hres e he).1, (hres e he).2.1⟩) with h | ⟨b, hb, -, hr, hc, hsub, hG⟩
      · exact .inl h.1
      · exact .inr ⟨b, hb, hr, hc, hsub, hG⟩
    obtain ⟨L, g1, g2, -⟩ := SKB.C37_steerable (triv := triv) hT hin hout hgen hF (fun m hm n hn b hb => by
      obtain ⟨⟨a1, a2, -⟩, -⟩ := RWE.attr_full K F TG.size res m n (hcg m hm n hn).1 (fun p hp => (hE p.1 ((hcg m hm n hn).2 p hp).1).1) hF hA b hb
      exact ⟨a1, a2⟩) hs
    exact .inr ⟨s, L, hs, h1, h2, g1, g2, h4⟩

/-- The kernels on the plane serve the basis expansion, with the same circular harmonics for all pairs of representations. -/
theorem kernelsO2Subgroup_serves (K : KGroup G' J') (res : ℕ × ℕ → Rep G' J') (parent : G' → Except Err O2.Elem) (radii sigma : List ℝ) (L : ℕ) (axis : ℝ) (junk : ℕ → ℝ)
    (hT : K.T.Valid El op one) (hE : EndoValid K.T K.typ El)
    (hcg : ∀ m n, K.T.ok m = true → K.T.ok n = true → ((K.tensor m n).map Prod.fst).Nodup ∧ ∀ p ∈ K.tensor m n, K.T.ok p.1 = true ∧
      ∀ g, El g → Intertwines (K.T.mat n g) (K.T.mat m g) (K.T.mat p.1 g) (K.cg n m p.1))
    (hpar : ∀ h, El h → ∃ g, parent h = .ok g ∧ O2.IsElement g)
    (hres : ∀ j, O2.table.ok j = true → 0 < O2.table.size j → (res j).WF K.T El ∧ (res j).size = O2.table.size j ∧ ∀ h g, El h → parent h = .ok g → (res j).mat h ≈ O2.table.mat j g)
    (hlen : radii.length = sigma.length) (hr : ∀ r ∈ radii, 0 ≤ r) (hs : ∀ s ∈ sigma, 0 < s) :
    ∃ (F : FBasis (ℕ × ℕ) (ℝ × ℝ) (Option StAttr)) (mk : Rep G' J' → Rep G' J' → Except Err (SKB (ℕ × ℕ) J' (Option StAttr))) (R : Rep O2.Elem (ℕ × ℕ)),
      circularAction [] "StandardAction" axis = .ok R ∧
      (∀ i o, kernelsO2Subgroup K res i o radii sigma L axis none junk = (mk i o).map fun s => (s, F)) ∧
      (∀ pts, planeGen (fun i o => kernelsO2Subgroup K res i o radii sigma L axis none junk) pts = kernGen O2.table.size F (pts.map fun v => (v 0, v 1)) mk) ∧
      ∀ (actH : G' → ℝ × ℝ → ℝ × ℝ), (∀ h, El h → ∀ g, parent h = .ok g → actH h = fun p => moveBy (R.mat g) p) →
        ∀ i o : Rep G' J', i.WF K.T El → o.WF K.T El → SKB.Serves El actH O2.table.size F i o (mk i o) := by
  obtain ⟨R0, hR0, -⟩ := C39_action [] "StandardAction" (by simp) axis
  have hplane : ∀ (F : FBasis (ℕ × ℕ) (ℝ × ℝ) (Option StAttr)) (mk : Rep G' J' → Rep G' J' → Except Err (SKB (ℕ × ℕ) J' (Option StAttr))),
      (∀ i o, kernelsO2Subgroup K res i o radii sigma L axis none junk = (mk i o).map fun s => (s, F)) → ∀ pts, planeGen (fun i o => kernelsO2Subgroup K res i o radii sigma L axis none junk) pts = kernGen O2.table.size F (pts.map fun v => (v 0, v 1)) mk := by
    intro F mk h pts
    funext i o
    unfold planeGen kernGen
    beta_reduce
    rw [h i o]
    cases mk i o <;> rfl
  by_cases h0 : radii = []
  · have key : ∀ i o, kernelsO2Subgroup K res i o radii sigma L axis none junk = ((.error .emptyBasis : Except Err (SKB (ℕ × ℕ) J' (Option StAttr))).map fun s => (s, (⟨[], fun _ _ => 0, fun _ _ => .error .assertion, fun _ => .error .assertion⟩ : FBasis (ℕ × ℕ) (ℝ × ℝ) (Option StAttr)))) := by
      intro i o
      unfold kernelsO2Subgroup
      rw [if_neg (not_not.2 ⟨hlen, hr, hs⟩), if_pos h0]
      rfl
    exact ⟨_, fun _ _ => .error .emptyBasis, R0, hR0, key, hplane _ _ key, fun _ _ i o _ _ => .inl rfl⟩
  cases hb : Shells.init ShellKind.circ O2.table.size L radii.length none with
  | error e =>
    have he : e = .emptyBasis := by
      unfold Shells.init at hb
      simp only at hb
      split_ifs at hb
      exact (Except.error.inj hb).symm
    have key : ∀ i o, kernelsO2Subgroup K res i o radii sigma L axis none junk = ((.error .emptyBasis : Except Err (SKB (ℕ × ℕ) J' (Option StAttr))).map fun s => (s, (⟨[], fun _ _ => 0, fun _ _ => .error .assertion, fun _ => .error .assertion⟩ : FBasis (ℕ × ℕ) (ℝ × ℝ) (Option StAttr)))) := by
      intro i o
      unfold kernelsO2Subgroup
      rw [if_neg (not_not.2 ⟨hlen, hr, hs⟩), if_neg h0, hb, he]
      rfl
    exact ⟨_, fun _ _ => .error .emptyBasis, R0, hR0, key, hplane _ _ key, fun _ _ i o _ _ => .inl rfl⟩
  | ok b =>
    obtain ⟨R, hR, hst⟩ := C39_steerable [] "StandardAction" (by simp) axis junk radii sigma L radii.length none b hb
    have hjs := (Shells.init_spec ShellKind.circ_ok hb).2.2.2.1
    have hF : ((circularBasis junk b radii sigma axis).js.map Prod.fst).Nodup := by
      show (b.js.map Prod.fst).Nodup
      rw [hjs, List.map_map]
      refine List.Nodup.map_on (fun x _ y _ e => ?_) List.nodup_range
      have := congrArg Prod.snd (show ShellKind.circ.id x = ShellKind.circ.id y from e)
      exact this
    have key : ∀ i o, kernelsO2Subgroup K res i o radii sigma L axis none junk =
        (SKB.init K.T.size (0, 0) (circularBasis junk b radii sigma axis) (RWE.init K (circularBasis junk b radii sigma axis) O2.table.size res) i o).map fun s => (s, circularBasis junk b radii sigma axis) := by
      intro i o
      unfold kernelsO2Subgroup
      rw [if_neg (not_not.2 ⟨hlen, hr, hs⟩), if_neg h0, hb]
      simp only [bind, Except.bind]
      cases SKB.init K.T.size (0, 0) (circularBasis junk b radii sigma axis) (RWE.init K (circularBasis junk b radii sigma axis) O2.table.size res) i o <;> rfl
    refine ⟨_, _, R, hR, key, hplane _ _ key, fun actH hact i o hi ho => ?_⟩
    · refine SKB.serves_rwe (act := fun g p => moveBy (R.mat g) p) K (circularBasis junk b radii sigma axis) res parent actH i o (0, 0) hT hE hi ho (fun m hm n hn => hcg m n (hi.ok m hm) (ho.ok n hn)) hF hst
        (circularBasis_attrs junk hb radii sigma axis) (fun h hh => ?_) (fun e he => ?_)
      · obtain ⟨g, h1, h2⟩ := hpar h hh
        exact ⟨g, h1, h2, hact h hh g h1⟩
      · have he' : e ∈ b.js := he
        rw [hjs] at he'
        obtain ⟨j, -, rfl⟩ := List.mem_map.1 he'
        exact hres _ (circ_id_ok j).1 (circ_id_ok j).2

/-- The standard action of the elements which act as the plane of the circular harmonics. -/
theorem moveBy_of_eqv {M : NpMat ℝ} {g : O2.Elem} (h : M ≈ O2.table.mat (1, 1) g) (p : ℝ × ℝ) :
    moveBy M p = (cos g.2 * p.1 + -sgnR g.1 * sin g.2 * p.2, sin g.2 * p.1 + sgnR g.1 * cos g.2 * p.2) := by
  have e : O2.table.mat (1, 1) g = psichi g.2 g.1 1 := by simp [O2.table, O2.irrepMat]
  rw [e] at h
  have hr : M.rows = 2 := h.1
  have hc : M.cols = 2 := h.2.1
  have h00 := h.2.2 0 0 (by omega) (by omega)
  have h01 := h.2.2 0 1 (by omega) (by omega)
  have h10 := h.2.2 1 0 (by omega) (by omega)
  have h11 := h.2.2 1 1 (by omega) (by omega)
  simp [psichi, of2] at h00 h01 h10 h11
  simp only [moveBy, h00, h01, h10, h11]
  ext <;> ring

/-- The convolutions on the plane for a group `H` with an inclusion into O(2).  The base space action is the restriction of the irrep `(1, 1)` of O(2), gspaces/r2.py L62. -/
theorem RdConv.C43_plane {S B : Type} (K : KGroup G' J') (triv : J') (res : ℕ × ℕ → Rep G' J') (parent : G' → Except Err O2.Elem) (radii sigma : List ℝ) (L : ℕ) (axis : ℝ) (junk : ℕ → ℝ)
    (hT : K.T.Valid El op one) (hone : El one) (ht : K.T.IsTrivial El triv) (hE : EndoValid K.T K.typ El)
    (hcg : ∀ m n, K.T.ok m = true → K.T.ok n = true → ((K.tensor m n).map Prod.fst).Nodup ∧ ∀ p ∈ K.tensor m n, K.T.ok p.1 = true ∧
      ∀ g, El g → Intertwines (K.T.mat n g) (K.T.mat m g) (K.T.mat p.1 g) (K.cg n m p.1))
    (hpar : ∀ h, El h → ∃ g, parent h = .ok g ∧ O2.IsElement g ∧ (g.1 = 0 ∨ axis = 0))
    (hres : ∀ j, O2.table.ok j = true → 0 < O2.table.size j → (res j).WF K.T El ∧ (res j).size = O2.table.size j ∧ ∀ h g, El h → parent h = .ok g → (res j).mat h ≈ O2.table.mat j g)
    (hlen : radii.length = sigma.length) (hr : ∀ r ∈ radii, 0 ≤ r) (hs : ∀ s ∈ sigma, 0 < s)
    (interp : NdArr 2 (B × ℕ) → NpMat ℝ → Except Err (NdArr 2 (B × ℕ)))
    (inT outT : FType S (Rep G' J')) (hsp : inT.gspace = outT.gspace) (hin : ∀ r ∈ inT.reprs, r.WF K.T El) (hout : ∀ r ∈ outT.reprs, r.WF K.T El) (hne : inT.reprs ≠ []) (hne' : outT.reprs ≠ [])
    (filt : Option (Attr (SAttr (ℕ × ℕ) J' (Option StAttr)) → Bool))
    {uin uout : List (Rep G' J')} (hui : ∀ r, r ∈ uin ↔ r ∈ inT.reprs) (hun : uin.Nodup) (huo : ∀ r, r ∈ uout ↔ r ∈ outT.reprs) (hon : uout.Nodup)
    (hni : ∀ r ∈ inT.reprs, ∀ r' ∈ inT.reprs, escName r.name = escName r'.name → r = r') (hno : ∀ r ∈ outT.reprs, ∀ r' ∈ outT.reprs, escName r.name = escName r'.name → r = r')
    (k : ℕ) (hk : 0 < k) (padding : Padding) (p : Fin 2 → ℕ) (hpa : padding.axes 2 = .ok p) (hp : ∀ i j, p i = p j) (stride dil : ℕ) (hst : 0 < stride) (hd : 0 < dil) (mode : PadMode) (hm : mode ≠ .other)
    (groups : ℕ) (hg : 0 < groups) (inT' : FType S (Rep G' J')) (hgt : groupType groups inT outT = .ok inT') (bias : Bool) (w0 : ℕ → ℝ) :
    let ini := init K.T.size triv (fun _ => 2) (planeGen fun i o => kernelsO2Subgroup K res i o radii sigma L axis none junk) filt uin uout inT outT k padding stride dil mode groups bias w0
    let base := fun h => (res (1, 1)).mat h
    (ini = .error .value ∧ ∃ m, Blocks.init Rep.name Rep.size (Blocks.blockFor (planeGen (fun i o => kernelsO2Subgroup K res i o radii sigma L axis none junk) (gridCoords 2 k dil)) filt (k ^ 2)) uin uout inT'.reprs outT.reprs (k ^ 2) = .ok m ∧ m.dim = 0) ∨ ∃ l, ini = .ok l ∧
      ∀ w bw g, El g → IsSignedPerm 2 (base g) → ∀ x : FMap 2 B, x.chans = inT.size Rep.size → (∀ i, dil * (k - 1) + 1 ≤ x.shape i + 2 * p i) → (∀ i, padOk mode (x.shape i) (p i)) →
        (∀ i, stride ∣ x.shape i + 2 * p i - dil * (k - 1) - 1) →
        ∃ y gx gy gy', forward { l with weights := w, bias := bw } ⟨x, inT⟩ = .ok ⟨y, outT⟩ ∧ GMap.transform base interp ⟨x, inT⟩ g = .ok ⟨gx, inT⟩ ∧
          forward { l with weights := w, bias := bw } ⟨gx, inT⟩ = .ok ⟨gy, outT⟩ ∧ GMap.transform base interp ⟨y, outT⟩ g = .ok ⟨gy', outT⟩ ∧ gy ≈ gy' := by
  obtain ⟨F, mk, R, hR, -, hgen, hser⟩ := kernelsO2Subgroup_serves K res parent radii sigma L axis junk hT hE hcg (fun h hh => by
    obtain ⟨g, h1, h2, -⟩ := hpar h hh
    exact ⟨g, h1, h2⟩) hres hlen hr hs
  have h11 := hres (1, 1) (by decide) (by decide)
  have hgen' : (planeGen fun i o => kernelsO2Subgroup K res i o radii sigma L axis none junk) = fun pts => kernGen O2.table.size F (pts.map fun v => (v 0, v 1)) mk := funext hgen
  intro ini base
  rw [hgen]
  simp only [ini, hgen']
  refine C43_module hT hone ht F mk (fun v => (v 0, v 1)) base (act := fun h p => moveBy (base h) p) (fun h hh _ v => ?_) interp inT outT hsp hin hout hne hne' (fun _ => 2) le_rfl filt hui hun huo hon hni hno
    (fun i hi o ho => hser _ (fun h hh g hgp => ?_) i o (hin i hi) (hout o ho)) k hk padding p hpa hp stride dil hst hd mode hm groups hg inT' hgt bias w0
  · simp [moveBy, Fin.sum_univ_two]
  · funext q
    obtain ⟨g', h1, h2, h3⟩ := hpar h hh
    rw [hgp] at h1
    obtain rfl := Except.ok.inj h1
    rw [moveBy_of_eqv (h11.2.2 h g hh hgp)]
    obtain ⟨R', k1, -, -, k2, k3⟩ := C39_action [] "StandardAction" (by simp) axis
    rw [hR] at k1
    obtain rfl := Except.ok.inj k1
    obtain ⟨φ, hq⟩ := norm2_polar q
    rw [hq]
    obtain ⟨s, θ⟩ := g
    rcases h2.1 with hs0 | hs0 <;> simp only at hs0 <;> subst hs0
    · rw [k2 _ _ _ h2]
      simp only [cos_add, sin_add, sgnR]
      ext <;> simp <;> ring
    · rw [k3 _ _ _ h2]
      rcases h3 with h3 | h3
      · simp at h3
      · subst h3
        simp only [cos_add, sin_add, cos_sub, sin_sub, sgnR]
        ext <;> simp <;> ring

namespace RdConv

variable {S B : Type}

theorem signedPerm_of_eqv {M : NpMat ℝ} {g : O2.Elem} (h : M ≈ O2.table.mat (1, 1) g) (hq : sin g.2 = 0 ∨ cos g.2 = 0) : IsSignedPerm 2 M := by
  have e : O2.table.mat (1, 1) g = psichi g.2 g.1 1 := by simp [O2.table, O2.irrepMat]
  rw [e] at h
  have hr : M.rows = 2 := h.1
  have hc : M.cols = 2 := h.2.1
  obtain ⟨-, -, σ, ε, h1, h2⟩ := psichi_signedPerm g.2 g.1 hq
  exact ⟨hr, hc, σ, ε, h1, fun i j => by rw [h.2.2 i j (by omega) (by omega), h2]⟩

theorem quarter {N : ℕ} (hN : 0 < N) {k : ℤ} (h : (N : ℤ) ∣ 4 * k) (m : ℤ) : sin (2 * π * k / N + m * (π / 2)) = 0 ∨ cos (2 * π * k / N + m * (π / 2)) = 0 := by
  obtain ⟨q, hq⟩ := h
  have hN' : (N : ℝ) ≠ 0 := by exact_mod_cast hN.ne'
  have hq' : (4 : ℝ) * k = N * q := by exact_mod_cast hq
  have : 2 * π * k / N + m * (π / 2) = ((q + m : ℤ) : ℝ) * (π / 2) := by
    push_cast
    field_simp
    linear_combination hq'
  rw [this]
  exact sin_or_cos_quarter _

/-- **C43** for the cyclic groups `rot2dOnR2(N)`: every element which rotates by a multiple of 90 degrees (for `N = 4` all the elements). -/
theorem C43_cyclic (N : ℕ) (hN : 0 < N) (radii sigma : List ℝ) (L : ℕ) (junk : ℕ → ℝ)
    (hlen : radii.length = sigma.length) (hr : ∀ r ∈ radii, 0 ≤ r) (hs : ∀ s ∈ sigma, 0 < s)
    (interp : NdArr 2 (B × ℕ) → NpMat ℝ → Except Err (NdArr 2 (B × ℕ)))
    (inT outT : FType S (Rep ℤ ℕ)) (hsp : inT.gspace = outT.gspace) (hin : ∀ r ∈ inT.reprs, r.WF (Cyclic.table N) (fun g => Cyclic.isElement N g = true)) (hout : ∀ r ∈ outT.reprs, r.WF (Cyclic.table N) (fun g => Cyclic.isElement N g = true))
    (hne : inT.reprs ≠ []) (hne' : outT.reprs ≠ []) (filt : Option (Attr (SAttr (ℕ × ℕ) ℕ (Option StAttr)) → Bool))
    {uin uout : List (Rep ℤ ℕ)} (hui : ∀ r, r ∈ uin ↔ r ∈ inT.reprs) (hun : uin.Nodup) (huo : ∀ r, r ∈ uout ↔ r ∈ outT.reprs) (hon : uout.Nodup)
    (hni : ∀ r ∈ inT.reprs, ∀ r' ∈ inT.reprs, escName r.name = escName r'.name → r = r') (hno : ∀ r ∈ outT.reprs, ∀ r' ∈ outT.reprs, escName r.name = escName r'.name → r = r')
    (k : ℕ) (hk : 0 < k) (padding : Padding) (p : Fin 2 → ℕ) (hpa : padding.axes 2 = .ok p) (hp : ∀ i j, p i = p j) (stride dil : ℕ) (hst : 0 < stride) (hd : 0 < dil) (mode : PadMode) (hm : mode ≠ .other)
    (groups : ℕ) (hg : 0 < groups) (inT' : FType S (Rep ℤ ℕ)) (hgt : groupType groups inT outT = .ok inT') (bias : Bool) (w0 : ℕ → ℝ) :
    let ini := init (Cyclic.irrepSize N) 0 (fun _ => 2) (planeGen fun i o => kernelsCN N i o radii sigma L none junk) filt uin uout inT outT k padding stride dil mode groups bias w0
    let base := fun h => (restrictedIrrep (Cyclic.table N) "O(2)" 0 (fun i => .ok (O2.restrictRot i.1 i.2 N)) (1, 1)).mat h
    (ini = .error .value ∧ ∃ m, Blocks.init Rep.name Rep.size (Blocks.blockFor (planeGen (fun i o => kernelsCN N i o radii sigma L none junk) (gridCoords 2 k dil)) filt (k ^ 2)) uin uout inT'.reprs outT.reprs (k ^ 2) = .ok m ∧ m.dim = 0) ∨ ∃ l, ini = .ok l ∧
      ∀ w bw g, Cyclic.isElement N g = true → (N : ℤ) ∣ 4 * g → ∀ x : FMap 2 B, x.chans = inT.size Rep.size → (∀ i, dil * (k - 1) + 1 ≤ x.shape i + 2 * p i) → (∀ i, padOk mode (x.shape i) (p i)) →
        (∀ i, stride ∣ x.shape i + 2 * p i - dil * (k - 1) - 1) →
        ∃ y gx gy gy', forward { l with weights := w, bias := bw } ⟨x, inT⟩ = .ok ⟨y, outT⟩ ∧ GMap.transform base interp ⟨x, inT⟩ g = .ok ⟨gx, inT⟩ ∧
          forward { l with weights := w, bias := bw } ⟨gx, inT⟩ = .ok ⟨gy, outT⟩ ∧ GMap.transform base interp ⟨y, outT⟩ g = .ok ⟨gy', outT⟩ ∧ gy ≈ gy' := by
  have hrad : ∀ h, Cyclic.isElement N h = true → 0 ≤ Cyclic.radians N h ∧ Cyclic.radians N h < 2 * π := fun h hh => by
    have h0 : (0 : ℝ) ≤ h ∧ (h : ℝ) < N := by
      simp only [Cyclic.isElement, Bool.and_eq_true, decide_eq_true_eq] at hh
      exact ⟨by exact_mod_cast hh.1, by exact_mod_cast hh.2⟩
    have hpi := Real.pi_pos
    have hN' : (0 : ℝ) < N := by exact_mod_cast hN
    unfold Cyclic.radians
    refine ⟨div_nonneg (mul_nonneg h0.1 (by positivity)) hN'.le, ?_⟩
    rw [div_lt_iff₀ hN']
    nlinarith [h0.2]
  have hel : ∀ h, Cyclic.isElement N h = true → O2.so2ToO2 (Cyclic.radians N h) = .ok (0, Cyclic.radians N h) ∧ O2.IsElement (0, Cyclic.radians N h) := fun h hh => by
    have hm : mod2pi (Cyclic.radians N h) = Cyclic.radians N h := mod2pi_eq_self (hrad h hh).1 (hrad h hh).2
    exact ⟨by simp [O2.so2ToO2, O2.element, O2.reduce, hm], .inl rfl, (hrad h hh).1, (hrad h hh).2⟩
  have hres := fun j hj hp => restrictedIrrep_ok (fun r hwf hn => C13_o2_rot N hN [] "O(2)" r hwf hn) j hj hp
  have main := C43_plane (B := B) (S := S) (Cyclic.kgroup N) 0 (restrictedIrrep (Cyclic.table N) "O(2)" 0 fun i => .ok (O2.restrictRot i.1 i.2 N)) (fun h => O2.so2ToO2 (Cyclic.radians N h)) radii sigma L
    (π / 2) junk (Cyclic.table_valid N hN) (Cyclic.isElement_zero hN) (Cyclic.trivial N) (Cyclic.C18_cyclic N hN).1
    (fun m n hm hn => ⟨Cyclic.tensor_nodup N m n (of_decide_eq_true hm) (of_decide_eq_true hn), fun p hp =>
      ⟨(Cyclic.kgroup_cg N hN m n (of_decide_eq_true hm) (of_decide_eq_true hn) p hp).1, (Cyclic.kgroup_cg N hN m n (of_decide_eq_true hm) (of_decide_eq_true hn) p hp).2.2⟩⟩)
    (fun h hh => ⟨_, (hel h hh).1, (hel h hh).2, .inl rfl⟩) hres hlen hr hs interp inT outT hsp hin hout hne hne' filt hui hun huo hon hni hno k hk padding p hpa hp stride dil hst hd mode hm groups hg inT' hgt bias w0
  intro ini base
  rcases main with h | ⟨l, h1, h2⟩
  · exact .inl h
  · refine .inr ⟨l, h1, fun w bw g hgel hq => h2 w bw g hgel (signedPerm_of_eqv ((hres (1, 1) (by decide) (by decide)).2.2 g _ hgel (hel g hgel).1) ?_)⟩
    have := quarter hN hq 0
    rw [show Cyclic.radians N g = 2 * π * g / N + ((0 : ℤ) : ℝ) * (π / 2) by unfold Cyclic.radians; push_cast; ring]
    exact this

/-- **C43** for the dihedral groups `flipRot2dOnR2(N, axis)`, for Clebsch-Gordan coefficients which intertwine: every element whose rotation is a multiple of 90 degrees, if `2 axis` is a multiple of 90 degrees
(for `N = 4` and the default axis all the elements). -/
theorem C43_dihedral (N : ℕ) (hN : 0 < N) (t : ℤ) (K : KGroup Dihedral.Elem (ℕ × ℕ)) (hK : K.T = Dihedral.table N) (radii sigma : List ℝ) (L : ℕ) (junk : ℕ → ℝ)
    (hE : EndoValid K.T K.typ fun e => Dihedral.isElement N e = true)
    (hcg : ∀ m n, K.T.ok m = true → K.T.ok n = true → ((K.tensor m n).map Prod.fst).Nodup ∧ ∀ p ∈ K.tensor m n, K.T.ok p.1 = true ∧
      ∀ g, Dihedral.isElement N g = true → Intertwines (K.T.mat n g) (K.T.mat m g) (K.T.mat p.1 g) (K.cg n m p.1))
    (hlen : radii.length = sigma.length) (hr : ∀ r ∈ radii, 0 ≤ r) (hs : ∀ s ∈ sigma, 0 < s)
    (interp : NdArr 2 (B × ℕ) → NpMat ℝ → Except Err (NdArr 2 (B × ℕ)))
    (inT outT : FType S (Rep Dihedral.Elem (ℕ × ℕ))) (hsp : inT.gspace = outT.gspace) (hin : ∀ r ∈ inT.reprs, r.WF (Dihedral.table N) (fun g => Dihedral.isElement N g = true)) (hout : ∀ r ∈ outT.reprs, r.WF (Dihedral.table N) (fun g => Dihedral.isElement N g = true))
    (hne : inT.reprs ≠ []) (hne' : outT.reprs ≠ []) (filt : Option (Attr (SAttr (ℕ × ℕ) (ℕ × ℕ) (Option StAttr)) → Bool))
    {uin uout : List (Rep Dihedral.Elem (ℕ × ℕ))} (hui : ∀ r, r ∈ uin ↔ r ∈ inT.reprs) (hun : uin.Nodup) (huo : ∀ r, r ∈ uout ↔ r ∈ outT.reprs) (hon : uout.Nodup)
    (hni : ∀ r ∈ inT.reprs, ∀ r' ∈ inT.reprs, escName r.name = escName r'.name → r = r') (hno : ∀ r ∈ outT.reprs, ∀ r' ∈ outT.reprs, escName r.name = escName r'.name → r = r')
    (k : ℕ) (hk : 0 < k) (padding : Padding) (p : Fin 2 → ℕ) (hpa : padding.axes 2 = .ok p) (hp : ∀ i j, p i = p j) (stride dil : ℕ) (hst : 0 < stride) (hd : 0 < dil) (mode : PadMode) (hm : mode ≠ .other)
    (groups : ℕ) (hg : 0 < groups) (inT' : FType S (Rep Dihedral.Elem (ℕ × ℕ))) (hgt : groupType groups inT outT = .ok inT') (bias : Bool) (w0 : ℕ → ℝ) :
    let ini := init K.T.size (0, 0) (fun _ => 2) (planeGen fun i o => kernelsFlipRot N (t * (π / 2)) K i o radii sigma L none junk) filt uin uout inT outT k padding stride dil mode groups bias w0
    let base := fun h => (restrictedIrrep (Dihedral.table N) "O(2)" (0, 0) (fun i => .ok (O2.restrictDih i.1 i.2 N (t * (π / 2)))) (1, 1)).mat h
    (ini = .error .value ∧ ∃ m, Blocks.init Rep.name Rep.size (Blocks.blockFor (planeGen (fun i o => kernelsFlipRot N (t * (π / 2)) K i o radii sigma L none junk) (gridCoords 2 k dil)) filt (k ^ 2)) uin uout inT'.reprs outT.reprs (k ^ 2) = .ok m ∧ m.dim = 0) ∨ ∃ l, ini = .ok l ∧
      ∀ w bw g, Dihedral.isElement N g = true → (N : ℤ) ∣ 4 * g.2 → ∀ x : FMap 2 B, x.chans = inT.size Rep.size → (∀ i, dil * (k - 1) + 1 ≤ x.shape i + 2 * p i) → (∀ i, padOk mode (x.shape i) (p i)) →
        (∀ i, stride ∣ x.shape i + 2 * p i - dil * (k - 1) - 1) →
        ∃ y gx gy gy', forward { l with weights := w, bias := bw } ⟨x, inT⟩ = .ok ⟨y, outT⟩ ∧ GMap.transform base interp ⟨x, inT⟩ g = .ok ⟨gx, inT⟩ ∧
          forward { l with weights := w, bias := bw } ⟨gx, inT⟩ = .ok ⟨gy, outT⟩ ∧ GMap.transform base interp ⟨y, outT⟩ g = .ok ⟨gy', outT⟩ ∧ gy ≈ gy' := by
  have hT : K.T.Valid (fun e => Dihedral.isElement N e = true) (Dihedral.combine N) Dihedral.identity := by rw [hK]; exact Dihedral.table_valid N hN
  have hel : ∀ h, Dihedral.isElement N h = true → (h.1 = 0 ∨ h.1 = 1) ∧ ∃ g, O2.dnToO2 N (t * (π / 2)) h = .ok g ∧ O2.IsElement g ∧ g.2 = mod2pi (2 * π * h.2 / N + (h.1 * t : ℤ) * (π / 2)) := fun h hh => by
    have hh' : (h.1 = 0 ∨ h.1 = 1) ∧ 0 ≤ h.2 ∧ h.2 < N := by
      simp only [Dihedral.isElement, Bool.and_eq_true, Bool.or_eq_true, decide_eq_true_eq] at hh
      tauto
    have he : (h.2 : ℝ) * 2 * π / N + h.1 * (t * (π / 2)) = 2 * π * h.2 / N + (h.1 * t : ℤ) * (π / 2) := by push_cast; ring
    refine ⟨hh'.1, (h.1, mod2pi (2 * π * h.2 / N + (h.1 * t : ℤ) * (π / 2))), ?_, ?_, rfl⟩
    · rw [O2.dnToO2, he, O2.element, if_pos hh'.1, O2.reduce]
    · exact O2.isElement_of_element (e := (h.1, (h.2 : ℝ) * 2 * π / N + h.1 * (t * (π / 2)))) (by rw [he, O2.element, if_pos hh'.1, O2.reduce])
  have hres := fun j hj hp => restrictedIrrep_ok (fun r hwf hn => C13_o2_dih N (t * (π / 2)) hN [] "O(2)" r hwf hn) j hj hp
  have main := C43_plane (B := B) (S := S) K (0, 0) (restrictedIrrep (Dihedral.table N) "O(2)" (0, 0) fun i => .ok (O2.restrictDih i.1 i.2 N (t * (π / 2)))) (O2.dnToO2 N (t * (π / 2))) radii sigma L
    0 junk hT (by simp [Dihedral.identity, Dihedral.isElement]; omega) (by rw [hK]; exact Dihedral.trivial N) hE hcg
    (fun h hh => by
      obtain ⟨-, g, h1, h2, -⟩ := hel h hh
      exact ⟨g, h1, h2, .inr rfl⟩) (by rw [hK]; exact hres) hlen hr hs interp inT outT hsp (by rw [hK]; exact hin) (by rw [hK]; exact hout) hne hne' filt hui hun huo hon hni hno k hk padding p hpa hp stride dil hst hd mode hm groups hg inT' hgt bias w0
  intro ini base
  rcases main with h | ⟨l, h1, h2⟩
  · exact .inl h
  · refine .inr ⟨l, h1, fun w bw g hgel hq => h2 w bw g hgel ?_⟩
    obtain ⟨-, g', k1, -, k3⟩ := hel g hgel
    refine signedPerm_of_eqv ((hres (1, 1) (by decide) (by decide)).2.2 g _ hgel k1) ?_
    rw [k3, (cos_mod2pi _).1, (cos_mod2pi _).2]
    exact quarter hN hq _

end RdConv

/-- Fields of the irreps 0 and 1 of `C_4`. -/
noncomputable def convDemo : FType Unit (Rep ℤ ℕ) := ⟨(), [irrepRep (Cyclic.table 4) "irrep_0" ∅ 0, irrepRep (Cyclic.table 4) "irrep_1" ∅ 1]⟩

theorem convDemo_wf : ∀ r ∈ convDemo.reprs, r.WF (Cyclic.table 4) fun g => Cyclic.isElement 4 g = true := by
  intro r hr
  simp only [convDemo, List.mem_cons, List.not_mem_nil, or_false] at hr
  rcases hr with rfl | rfl
  · exact irrepRep_wf (Cyclic.table_valid 4 (by norm_num)) rfl (by decide) _ _
  · exact irrepRep_wf (Cyclic.table_valid 4 (by norm_num)) rfl (by decide) _ _

/-- Images of 7 × 7 pixels, kernels of size 3 with padding 1 at the radii 0 and 1, and every element of `C_4`. -/
example (w0 : ℕ → ℝ) (interp : NdArr 2 (Unit × ℕ) → NpMat ℝ → Except Err (NdArr 2 (Unit × ℕ))) (l) (hl : RdConv.init (Cyclic.irrepSize 4) 0 (fun _ => 2) (planeGen fun i o => kernelsCN 4 i o [0, 1] [1, 1] 2 none fun _ => 0) none
      convDemo.reprs convDemo.reprs convDemo convDemo 3 (.int 1) 1 1 .reflect 1 true w0 = .ok l) (w bw : ℕ → ℝ) (g : ℤ) (hg : Cyclic.isElement 4 g = true) (f : Unit → ℕ → (Fin 2 → ℕ) → ℝ) :
    let base := fun h => (restrictedIrrep (Cyclic.table 4) "O(2)" 0 (fun i => .ok (O2.restrictRot i.1 i.2 4)) (1, 1)).mat h
    ∃ y gx gy gy', RdConv.forward { l with weights := w, bias := bw } ⟨⟨3, fun _ => 7, f⟩, convDemo⟩ = .ok ⟨y, convDemo⟩ ∧ GMap.transform base interp ⟨⟨3, fun _ => 7, f⟩, convDemo⟩ g = .ok ⟨gx, convDemo⟩ ∧
      RdConv.forward { l with weights := w, bias := bw } ⟨gx, convDemo⟩ = .ok ⟨gy, convDemo⟩ ∧ GMap.transform base interp ⟨y, convDemo⟩ g = .ok ⟨gy', convDemo⟩ ∧ gy ≈ gy' := by
  have hn : ∀ r ∈ convDemo.reprs, ∀ r' ∈ convDemo.reprs, escName r.name = escName r'.name → r = r' := by
    intro r hr r' hr' h
    simp only [convDemo, List.mem_cons, List.not_mem_nil, or_false] at hr hr'
    rcases hr with rfl | rfl <;> rcases hr' with rfl | rfl
    · rfl
    · exact absurd h (by decide)
    · exact absurd h (by decide)
    · rfl
  have hnd : convDemo.reprs.Nodup := by
    refine List.Nodup.of_map Rep.name ?_
    decide
  rcases RdConv.C43_cyclic (B := Unit) 4 (by norm_num) [0, 1] [1, 1] 2 (fun _ => 0) rfl (by simp) (by simp) interp convDemo convDemo rfl convDemo_wf convDemo_wf (by simp [convDemo]) (by simp [convDemo]) none
    (fun _ => Iff.rfl) hnd (fun _ => Iff.rfl) hnd hn hn 3 (by norm_num) (.int 1) (fun _ => 1) rfl (fun _ _ => rfl) 1 1 (by norm_num) (by norm_num) .reflect (by decide) 1 (by norm_num) convDemo
    (by simp [RdConv.groupType]) true w0 with ⟨h, -⟩ | ⟨l', h1, h2⟩
  · rw [hl] at h
    simp at h
  · rw [hl] at h1
    obtain rfl := Except.ok.inj h1
    exact h2 w bw g hg (dvd_mul_right 4 g) ⟨3, fun _ => 7, f⟩ (by simp [convDemo, FType.size_eq, irrepRep, Rep.size, eye, Cyclic.table, Cyclic.irrepSize]) (by simp) (by simp [padOk]) (by simp)

/-- The filter of ones is steerable between scalar fields; the map need not be square. -/
example (f : Unit → ℕ → (Fin 2 → ℕ) → ℝ) (interp : NdArr 2 (Unit × ℕ) → NpMat ℝ → Except Err (NdArr 2 (Unit × ℕ))) (g : ℤ) (hg : Cyclic.isElement 4 g = true) :
    let t : FType Unit (Rep ℤ ℕ) := ⟨(), [irrepRep (Cyclic.table 4) "irrep_0" ∅ 0]⟩
    let F : Kern := ⟨1, 1, fun _ _ _ => 1⟩
    ∃ x1 y gx gx1 gy gy', padMap .zeros (fun _ => 1) (⟨1, ![5, 8], f⟩ : FMap 2 Unit) = .ok x1 ∧ convValid F 3 1 1 1 none x1 = .ok y ∧
      GMap.transform (Cyclic.irrepMat 4 1) interp ⟨⟨1, ![5, 8], f⟩, t⟩ g = .ok ⟨gx, t⟩ ∧
      padMap .zeros (fun _ => 1) gx = .ok gx1 ∧ convValid F 3 1 1 1 none gx1 = .ok gy ∧ GMap.transform (Cyclic.irrepMat 4 1) interp ⟨y, t⟩ g = .ok ⟨gy', t⟩ ∧ gy ≈ gy' := by
  intro t F
  have hwf : ∀ r ∈ t.reprs, r.WF (Cyclic.table 4) fun g => Cyclic.isElement 4 g = true := by
    intro r hr
    obtain rfl : r = _ := List.mem_singleton.1 hr
    exact irrepRep_wf (Cyclic.table_valid 4 (by norm_num)) rfl (by decide) _ _
  obtain ⟨hr, hc⟩ := fiberRep_shape hwf (Cyclic.table_valid 4 (by norm_num)) hg
  refine C43_conv (Cyclic.table_valid 4 (by norm_num)) hwf hwf (Cyclic.irrepMat 4 1) interp F 3 1 1 (fun _ => 1) .zeros none (by norm_num) (by norm_num) (by norm_num) (fun _ _ => rfl) rfl rfl hg (Cyclic.signedPerm g) ?_ ?_
    _ rfl ?_ (fun _ => trivial) (by simp)
  · intro i j v _ _
    refine ⟨hr.symm, hc, fun a b ha hb => ?_⟩
    have ha : a = 0 := by simpa [F, mul, Kern.at] using ha
    have hb : b < (t.fiberRep g).cols := hb
    rw [hc] at hb
    have hb : b = 0 := by simpa [t, FType.size_eq, irrepRep, Rep.size, eye, Cyclic.table, Cyclic.irrepSize] using hb
    subst ha hb
    have hcs : (t.fiberRep g).cols = 1 := hc
    simp [mul, Kern.at, F, hcs]
  · simp [Linear.biasAt]
  · intro i; fin_cases i <;> simp

end Escnn
