import Verif.Props.C33_WeightInfo
import Verif.Lemmas.BlockRows

/-!
# C34: the filter computed by the basis expansion
-/

namespace Escnn

open NpMat

/-- The matrix of a filter at a point. -/
def Kern.at (F : Kern) (p : ℕ) : NpMat ℝ := ⟨F.rows, F.cols, fun r c => F.get r c p⟩

namespace Blocks

variable {R A : Type} {nm : R → String} {sz : R → ℕ} {bg : R → R → Except Err (KBasis A)} {filt : Option (Attr A → Bool)} {uin uout inR outR : List R}

theorem labelIdx_all (rs : List R) (n : String) (h : ∀ r ∈ rs, nm r = n) : labelIdx sz rs (rs.map nm) n = List.range' 0 (rs.map sz).sum := by
  refine List.Perm.eq_of_pairwise (le := (· < ·)) (fun a b _ _ h1 h2 => absurd h1 (Nat.lt_asymm h2)) (labelIdx_sorted (by simp) n) List.pairwise_lt_range' ?_
  refine (List.perm_ext_iff_of_nodup (labelIdx_nodup (by simp) n) List.nodup_range').2 fun c => ?_
  rw [mem_labelIdx, List.mem_range'_1]
  constructor
  · rintro ⟨k, r, o, -, h2, h3, rfl⟩
    exact ⟨Nat.zero_le _, by rw [Nat.zero_add]; exact chanOffset_lt h2 h3⟩
  · rintro ⟨-, hc⟩
    rw [Nat.zero_add] at hc
    obtain ⟨k, r, o, h1, h2, h3⟩ := exists_field hc
    exact ⟨k, r, o, by rw [List.getElem?_map, h1]; simp [h r (List.mem_of_getElem? h1)], h1, h2, h3⟩

/-- `forward` in both cases. -/
theorem forward_spec {gen : R → R → Except Err (SBlock A)} {S : ℕ} {m : Blocks R A} {T : String × String → ℕ} (f : Facts nm sz gen uin uout inR outR S m T)
    (h : Args nm sz gen uin uout inR outR) (hS : 0 < S) (hone : uin.length * uout.length = 1 → ∃ i ∈ inR, ∃ o ∈ outR, ∃ b, gen i o = .ok b) (w : ℕ → ℝ) :
    ∃ F, Blocks.forward m m.dim w = .ok F ∧ F.rows = (outR.map sz).sum ∧ F.cols = (inR.map sz).sum ∧
      (∀ p ∈ m.pairs, ∀ b, HasBlock nm gen inR outR p b → ∀ k, m.pairs[k]? = some p → ∀ (j l : ℕ) r c pt, (labelIdx sz outR (outR.map nm) p.2)[j]? = some r →
        (labelIdx sz inR (inR.map nm) p.1)[l]? = some c → pt < S → F.get r c pt =
          ∑ e ∈ Finset.range b.dim, (b.sampled[e]?.getD fun _ _ _ => 0) (j % b.outSize) (l % b.inSize) pt * w (slot nm inR m T p b k (j / b.outSize) (l / b.inSize) e)) ∧
      ∀ r c pt, r < (outR.map sz).sum → c < (inR.map sz).sum →
        (∀ p ∈ m.pairs, ¬ (r ∈ labelIdx sz outR (outR.map nm) p.2 ∧ c ∈ labelIdx sz inR (inR.map nm) p.1)) → F.get r c pt = 0 := by
  by_cases h1 : m.nPairs = 1
  · have h2 := h1
    rw [f.nPairs] at h2
    obtain ⟨i, hi, o, ho, b, hg⟩ := hone h2
    obtain ⟨hu1, hu2⟩ : uin.length = 1 ∧ uout.length = 1 := ⟨Nat.eq_one_of_mul_eq_one_right h2, Nat.eq_one_of_mul_eq_one_left h2⟩
    have hin : ∀ r ∈ inR, r = i := by
      obtain ⟨x, hx⟩ := List.length_eq_one_iff.1 hu1
      intro r hr
      have e1 := (h.uin_mem r).2 hr
      have e2 := (h.uin_mem i).2 hi
      rw [hx, List.mem_singleton] at e1 e2
      rw [e1, e2]
    have hout : ∀ r ∈ outR, r = o := by
      obtain ⟨x, hx⟩ := List.length_eq_one_iff.1 hu2
      intro r hr
      have e1 := (h.uout_mem r).2 hr
      have e2 := (h.uout_mem o).2 ho
      rw [hx, List.mem_singleton] at e1 e2
      rw [e1, e2]
    have hb : HasBlock nm gen inR outR (nm i, nm o) b := ⟨i, hi, o, ho, rfl, hg⟩
    have hall : ∀ p ∈ m.pairs, p = (nm i, nm o) := by
      intro p hp
      obtain ⟨b', i', hi', o', ho', rfl, -⟩ := (f.mem p).1 hp
      rw [hin i' hi', hout o' ho']
    have hp0 : (nm i, nm o) ∈ m.pairs := (f.mem _).2 ⟨b, hb⟩
    have hpairs : m.pairs[0]? = some (nm i, nm o) := by
      have hlt := List.length_pos_of_mem hp0
      rw [List.getElem?_eq_getElem hlt, hall _ (List.getElem_mem hlt)]
    obtain ⟨hwf, hbo, hbi⟩ : b.WF ∧ b.outSize = sz o ∧ b.inSize = sz i := by
      rcases h.gen_ok i hi o ho with h' | ⟨b', h1, h2, h3, h4⟩
      · rw [hg] at h'; cases h'
      · rw [hg] at h1; cases h1; exact ⟨h2, h3, h4⟩
    obtain ⟨c, ii, oi, hc, hii, hoi, hent⟩ := f.idx _ hp0
    have hI := labelIdx_all (sz := sz) inR (nm i) (fun r hr => by rw [hin r hr])
    have hO := labelIdx_all (sz := sz) outR (nm o) (fun r hr => by rw [hout r hr])
    simp only at hent
    have hIl := labelIdx_length (sz := sz) (rs := inR) (labels := inR.map nm) (by simp) (nm i) (sz i) (fun k r _ h2 => by rw [hin r (List.mem_of_getElem? h2)])
    have hOl := labelIdx_length (sz := sz) (rs := outR) (labels := outR.map nm) (by simp) (nm o) (sz o) (fun k r _ h2 => by rw [hout r (List.mem_of_getElem? h2)])
    have hidx : ii[2]? = some (inR.map sz).sum ∧ oi[2]? = some (outR.map sz).sum := by
      rcases hent with ⟨-, a, n, a', n', e1, e2, rfl, rfl⟩ | ⟨-, hn, -⟩
      · have l1 := congrArg List.length (e1.symm.trans hI)
        have l2 := congrArg List.length (e2.symm.trans hO)
        simp only [List.length_range'] at l1 l2
        exact ⟨by simp [l1], by simp [l2]⟩
      · exact absurd ⟨⟨_, _, hI⟩, _, _, hO⟩ hn
    rw [hI, List.length_range'] at hIl
    rw [hO, List.length_range'] at hOl
    have hexp := f.expandBlock hb hwf.1 hpairs w
    rw [hbo, hbi] at hexp
    set e : Expanded := ⟨nFields nm outR (nm i, nm o).2, sz o, nFields nm inR (nm i, nm o).1, sz i, S, fun co o1 ci i1 pt =>
      ∑ e ∈ Finset.range b.dim, (b.sampled[e]?.getD fun _ _ _ => 0) o1 i1 pt * w (slot nm inR m T (nm i, nm o) b 0 co ci e)⟩ with he
    have hnum : e.numel = (outR.map sz).sum * (inR.map sz).sum * S := by rw [hIl, hOl]; simp only [Expanded.numel, he]; ring
    refine ⟨⟨(outR.map sz).sum, (inR.map sz).sum, fun r c p => e.flat ((r * (inR.map sz).sum + c) * S + p)⟩, ?_, rfl, rfl, ?_, ?_⟩
    · have p2 : pyGet ii 2 = .ok (inR.map sz).sum := (pyGet_nat ii 2 _).2 hidx.1
      have p3 : pyGet oi 2 = .ok (outR.map sz).sum := (pyGet_nat oi 2 _).2 hidx.2
      have p1 : pyGet m.pairs 0 = .ok (nm i, nm o) := (pyGet_nat m.pairs 0 _).2 hpairs
      rw [Blocks.forward, if_neg (by simp), if_pos h1]
      simp only [bind, Except.bind]
      rw [p1]
      simp only
      rw [hii]
      simp only
      rw [hoi]
      simp only
      rw [hexp]
      simp only
      rw [p3]
      simp only
      rw [p2]
      simp only
      rw [f.pts, Expanded.reshape, if_pos hnum]
    · intro p hp b' hb' k hk j l r c pt hr hc hpt
      obtain rfl := hall p hp
      obtain rfl := h.hasBlock_unique hb hb'
      obtain rfl : 0 = k := (List.getElem?_inj (List.getElem?_eq_some_iff.1 hpairs).1 f.nodup).1 (hpairs.trans hk.symm)
      rw [hO, List.getElem?_eq_some_iff] at hr
      rw [hI, List.getElem?_eq_some_iff] at hc
      obtain ⟨hj, rfl⟩ := hr
      obtain ⟨hl, rfl⟩ := hc
      rw [List.length_range'] at hj hl
      simp only [List.getElem_range', Nat.one_mul, Nat.zero_add]
      rw [hbo, hbi]
      exact e.flat_get (C := (inR.map sz).sum) hIl hl hpt
    · intro r c pt hr hc hn
      refine absurd ⟨?_, ?_⟩ (hn _ hp0)
      · simp only; rw [hO, List.mem_range'_1]; omega
      · simp only; rw [hI, List.mem_range'_1]; omega
  · obtain ⟨F, e1, e2, e3, e4, e5⟩ := f.fwdLoop h hS w m.pairs (fun p hp => hp) f.nodup ⟨m.outSize, m.inSize, fun _ _ _ => 0⟩ f.outSize f.inSize
    refine ⟨F, ?_, e2, e3, e4, fun r c pt _ _ hn => e5 r c pt hn⟩
    rw [Blocks.forward, if_neg (by simp), if_neg h1]
    exact e1

/-- **C34** (partial: representations are told apart by their escaped names, and if there is just one representation at the input and at
the output the basis is not empty) For all weights, `forward` returns a filter with as many rows and columns as the output and input
types have channels.  Its block at output field `o` and input field `i` is the sum of the elements of the basis of the two
representations, each times the weight which `get_element_info` attributes to this element and these fields; it is zero if the basis is
empty. -/
theorem C34_filter_partial (h : Input nm sz bg uin uout inR outR) (filt : Option (Attr A → Bool)) {S : ℕ} (hS : 0 < S) (ni : R → ℕ)
    (hone : uin.length * uout.length = 1 → ∃ i ∈ inR, ∃ o ∈ outR, ∃ b, blockFor bg filt S i o = .ok b) :
    ∃ m, init nm sz (blockFor bg filt S) uin uout inR outR S = .ok m ∧ ∀ w : ℕ → ℝ, ∃ F, Blocks.forward m m.dim w = .ok F ∧
      F.rows = (outR.map sz).sum ∧ F.cols = (inR.map sz).sum ∧
      ∀ (o i : ℕ) ro ri, outR[o]? = some ro → inR[i]? = some ri →
        (∀ b, blockFor bg filt S ri ro = .ok b → ∃ slot : ℕ → ℕ,
          (∀ e < b.dim, slot e < m.dim ∧ ∃ x, Blocks.elementInfo nm ni m (slot e) = .ok x ∧ x.outField = o ∧ x.inField = i ∧ x.blockId = e) ∧
          ∀ a < sz ro, ∀ c < sz ri, ∀ pt < S, F.get (chanOffset sz outR o + a) (chanOffset sz inR i + c) pt =
            ∑ e ∈ Finset.range b.dim, (b.sampled[e]?.getD fun _ _ _ => 0) a c pt * w (slot e)) ∧
        (blockFor bg filt S ri ro = .error .emptyBasis →
          ∀ a < sz ro, ∀ c < sz ri, ∀ pt < S, F.get (chanOffset sz outR o + a) (chanOffset sz inR i + c) pt = 0) := by
  have ha := h.args filt S
  obtain ⟨m, T, hm, f⟩ := init_spec ha S
  refine ⟨m, hm, fun w => ?_⟩
  obtain ⟨F, e1, e2, e3, e4, e5⟩ := forward_spec f ha hS hone w
  refine ⟨F, e1, e2, e3, fun o i ro ri hro hri => ?_⟩
  have hro' := List.mem_of_getElem? hro
  have hri' := List.mem_of_getElem? hri
  have hlo : (outR.map nm)[o]? = some (nm ro) := by rw [List.getElem?_map, hro]; rfl
  have hli : (inR.map nm)[i]? = some (nm ri) := by rw [List.getElem?_map, hri]; rfl
  obtain ⟨n, hn⟩ := List.mem_iff_getElem?.1 (mem_labelled.2 hlo)
  obtain ⟨j, hj⟩ := List.mem_iff_getElem?.1 (mem_labelled.2 hli)
  have hso : ∀ (k : ℕ) (r : R), (outR.map nm)[k]? = some (nm ro) → outR[k]? = some r → sz r = sz ro := by
    intro k r h1 h2
    rw [List.getElem?_map, h2] at h1
    have h3 : nm r = nm ro := by simpa using h1
    rw [h.out_name r (List.mem_of_getElem? h2) ro hro' (by rw [h3])]
  have hsi : ∀ (k : ℕ) (r : R), (inR.map nm)[k]? = some (nm ri) → inR[k]? = some r → sz r = sz ri := by
    intro k r h1 h2
    rw [List.getElem?_map, h2] at h1
    have h3 : nm r = nm ri := by simpa using h1
    rw [h.in_name r (List.mem_of_getElem? h2) ri hri' (by rw [h3])]
  constructor
  · intro b hg
    have hb : HasBlock nm (blockFor bg filt S) inR outR (nm ri, nm ro) b := ⟨ri, hri', ro, hro', rfl, hg⟩
    obtain ⟨hwf, hbo, hbi⟩ : b.WF ∧ b.outSize = sz ro ∧ b.inSize = sz ri := by
      rcases ha.gen_ok ri hri' ro hro' with h' | ⟨b', h1, h2, h3, h4⟩
      · rw [hg] at h'; cases h'
      · rw [hg] at h1; cases h1; exact ⟨h2, h3, h4⟩
    have hp := (f.mem (nm ri, nm ro)).2 ⟨b, hb⟩
    obtain ⟨k, hk⟩ := List.mem_iff_getElem?.1 hp
    refine ⟨slot nm inR m T (nm ri, nm ro) b k n j, fun e he => ?_, fun a hao c hci pt hpt => ?_⟩
    · have hat : At nm (blockFor bg filt S) inR outR m T (nm ri, nm ro) b k n j e o i _ := ⟨hk, hb, hn, hj, he, rfl⟩
      have hel : e < b.basisInfo.length := by rw [hwf.2]; exact he
      refine ⟨hat.lt f, _, hat.elementInfo f (List.getElem?_eq_getElem hel), rfl, rfl, ?_⟩
      exact SBlock.basisInfo_id (List.getElem?_eq_getElem hel)
    · have g1 := labelIdx_get (sz := sz) (by simp) (nm ro) (sz ro) hso hn hao
      have g2 := labelIdx_get (sz := sz) (by simp) (nm ri) (sz ri) hsi hj hci
      rw [e4 _ hp b hb k hk _ _ _ _ pt g1 g2 hpt, hbo, hbi]
      rw [Nat.mul_comm n, Nat.mul_comm j, Nat.mul_add_mod, Nat.mod_eq_of_lt hao, Nat.mul_add_mod, Nat.mod_eq_of_lt hci]
      rw [Nat.mul_add_div (by omega), Nat.div_eq_of_lt hao, Nat.mul_add_div (by omega), Nat.div_eq_of_lt hci, Nat.add_zero, Nat.add_zero]
  · intro hg a hao c hci pt hpt
    refine e5 _ _ _ (chanOffset_lt hro hao) (chanOffset_lt hri hci) ?_
    rintro p hp ⟨h1, h2⟩
    obtain ⟨b, i', hi', o', ho', rfl, hg'⟩ := (f.mem p).1 hp
    have h3 : chanOffset sz outR o + a ∈ labelIdx sz outR (outR.map nm) (nm ro) := mem_labelIdx.2 ⟨o, ro, a, hlo, hro, hao, rfl⟩
    have h4 : chanOffset sz inR i + c ∈ labelIdx sz inR (inR.map nm) (nm ri) := mem_labelIdx.2 ⟨i, ri, c, hli, hri, hci, rfl⟩
    have h5 := labelIdx_disjoint h1 h3
    have h6 := labelIdx_disjoint h2 h4
    simp only at h5 h6
    obtain rfl := h.out_name o' ho' ro hro' (by rw [h5])
    obtain rfl := h.in_name i' hi' ri hri' (by rw [h6])
    rw [hg] at hg'
    cases hg'

/-- **C34** (partial, as above) If at every point the kernels of the bases commute with the representations, then so does the filter, for all weights: the filter
at `q` times the representation of the input type is the representation of the output type times the filter at `p`, whenever `g` moves
`p` to `q`. -/
theorem C34_equivariant_partial {G : Type} (h : Input nm sz bg uin uout inR outR) (filt : Option (Attr A → Bool)) {S : ℕ} (hS : 0 < S)
    (hone : uin.length * uout.length = 1 → ∃ i ∈ inR, ∃ o ∈ outR, ∃ b, blockFor bg filt S i o = .ok b)
    (ρ : G → R → NpMat ℝ) (hρi : ∀ g, ∀ r ∈ inR, (ρ g r).rows = sz r ∧ (ρ g r).cols = sz r) (hρo : ∀ g, ∀ r ∈ outR, (ρ g r).rows = sz r ∧ (ρ g r).cols = sz r)
    (moves : G → ℕ → ℕ → Prop)
    (hK : ∀ i ∈ inR, ∀ o ∈ outR, ∀ k, bg i o = .ok k → ∀ K ∈ k.sampled, ∀ g, ∀ p < S, ∀ q < S, moves g p q →
      NpMat.mul ((Kern.mk (sz o) (sz i) K).at q) (ρ g i) ≈ NpMat.mul (ρ g o) ((Kern.mk (sz o) (sz i) K).at p)) :
    ∃ m, init nm sz (blockFor bg filt S) uin uout inR outR S = .ok m ∧ ∀ w : ℕ → ℝ, ∃ F, Blocks.forward m m.dim w = .ok F ∧
      ∀ g, ∀ p < S, ∀ q < S, moves g p q → NpMat.mul (F.at q) (blockDiag (inR.map (ρ g))) ≈ NpMat.mul (blockDiag (outR.map (ρ g))) (F.at p) := by
  obtain ⟨m, hm, hw⟩ := C34_filter_partial h filt hS (fun _ => 0) hone
  refine ⟨m, hm, fun w => ?_⟩
  obtain ⟨F, hF, hr, hc, hent⟩ := hw w
  refine ⟨F, hF, fun g p hp q hq hmv => ⟨?_, ?_, ?_⟩⟩
  · change F.rows = (blockDiag (outR.map (ρ g))).rows
    rw [hr, (blockDiag_map_size (hρo g)).1]
  · change (blockDiag (inR.map (ρ g))).cols = F.cols
    rw [hc, (blockDiag_map_size (hρi g)).2]
  · intro r c hr' hc'
    change r < F.rows at hr'
    change c < (blockDiag (inR.map (ρ g))).cols at hc'
    rw [hr] at hr'
    rw [(blockDiag_map_size (hρi g)).2] at hc'
    obtain ⟨o, ro, a, ho, ha, rfl⟩ := exists_field hr'
    obtain ⟨i, ri, b, hi, hb, rfl⟩ := exists_field hc'
    change ∑ x ∈ Finset.range F.cols, F.get (chanOffset sz outR o + a) x q * (blockDiag (inR.map (ρ g))).get x (chanOffset sz inR i + b) =
      ∑ x ∈ Finset.range (blockDiag (outR.map (ρ g))).cols, (blockDiag (outR.map (ρ g))).get (chanOffset sz outR o + a) x * F.get x (chanOffset sz inR i + b) p
    rw [hc, (blockDiag_map_size (hρo g)).2, blockDiag_col (hρi g) hi hb (fun x => F.get (chanOffset sz outR o + a) x q),
      blockDiag_row (hρo g) ho ha (fun x => F.get x (chanOffset sz inR i + b) p)]
    have hi' := List.mem_of_getElem? hi
    have ho' := List.mem_of_getElem? ho
    obtain ⟨h1, h2⟩ := hent o i ro ri ho hi
    rcases (h.args filt S).gen_ok ri hi' ro ho' with he | ⟨bl, he, hwf, -, -⟩
    · rw [Finset.sum_eq_zero fun j hj => by rw [h2 he a ha j (Finset.mem_range.1 hj) q hq, zero_mul],
        Finset.sum_eq_zero fun j hj => by rw [h2 he j (Finset.mem_range.1 hj) b hb p hp, mul_zero]]
    · obtain ⟨slot, -, h3⟩ := h1 bl he
      have l1 : ∀ j ∈ Finset.range (sz ri), F.get (chanOffset sz outR o + a) (chanOffset sz inR i + j) q * (ρ g ri).get j b =
          ∑ e ∈ Finset.range bl.dim, (bl.sampled[e]?.getD fun _ _ _ => 0) a j q * w (slot e) * (ρ g ri).get j b :=
        fun j hj => by rw [h3 a ha j (Finset.mem_range.1 hj) q hq, Finset.sum_mul]
      have l2 : ∀ j ∈ Finset.range (sz ro), (ρ g ro).get a j * F.get (chanOffset sz outR o + j) (chanOffset sz inR i + b) p =
          ∑ e ∈ Finset.range bl.dim, (ρ g ro).get a j * ((bl.sampled[e]?.getD fun _ _ _ => 0) j b p * w (slot e)) :=
        fun j hj => by rw [h3 j (Finset.mem_range.1 hj) b hb p hp, Finset.mul_sum]
      rw [Finset.sum_congr rfl l1, Finset.sum_congr rfl l2, Finset.sum_comm, Finset.sum_comm (s := Finset.range (sz ro))]
      refine Finset.sum_congr rfl fun e he' => ?_
      have hlt : e < bl.sampled.length := Finset.mem_range.1 he'
      rw [List.getElem?_eq_getElem hlt, Option.getD_some]
      rcases h.basis ri hi' ro ho' with hb' | ⟨k, hk, -, -, hl⟩
      · rw [blockFor, hb'] at he; cases he
      · have he2 : SBlock.ofFilter S k filt = .ok bl := by rw [blockFor, hk] at he; exact he
        obtain ⟨K, hKm, s, hs, hEq⟩ := SBlock.ofFilter_sampled S k filt hl he2 (List.getElem_mem hlt)
        have hcomm := (hK ri hi' ro ho' k hk K hKm g p hp q hq hmv).2.2 a b ha (by change b < (ρ g ri).cols; rw [(hρi g ri hi').2]; exact hb)
        change ∑ j ∈ Finset.range (sz ri), K a j q * (ρ g ri).get j b = ∑ j ∈ Finset.range (ρ g ro).cols, (ρ g ro).get a j * K j b p at hcomm
        rw [(hρo g ro ho').2] at hcomm
        rw [hEq]
        have e1 : ∀ j, K a j q / s * w (slot e) * (ρ g ri).get j b = (w (slot e) / s) * (K a j q * (ρ g ri).get j b) := fun j => by ring
        have e2 : ∀ j, (ρ g ro).get a j * (K j b p / s * w (slot e)) = (w (slot e) / s) * ((ρ g ro).get a j * K j b p) := fun j => by ring
        simp only [e1, e2, ← Finset.mul_sum, hcomm]

/-- **C34** A vector with any other number of weights is refused. -/
theorem C34_wrong_length (m : Blocks R A) (n : ℕ) (hn : n ≠ m.dim) (w : ℕ → ℝ) : Blocks.forward m n w = .error .assertion := by
  rw [Blocks.forward, if_pos hn]

/-- **C34 is violated** without the condition on the basis: with one representation at the input and one at the output and no
equivariant kernel between them, the constructor succeeds (with no weights) and `forward` raises `IndexError`, instead of returning the
zero filter. -/
theorem C34_violated_empty (h : Input nm sz bg uin uout inR outR) (filt : Option (Attr A → Bool)) (S : ℕ) (hone : uin.length = 1 ∧ uout.length = 1)
    (hempty : ∀ i ∈ inR, ∀ o ∈ outR, blockFor bg filt S i o = .error .emptyBasis) :
    ∃ m, init nm sz (blockFor bg filt S) uin uout inR outR S = .ok m ∧ m.dim = 0 ∧ ∀ w, Blocks.forward m m.dim w = .error .index := by
  obtain ⟨m, T, hm, f⟩ := init_spec (h.args filt S) S
  have hp : m.pairs = [] := by
    rw [List.eq_nil_iff_forall_not_mem]
    intro p hp
    obtain ⟨b, i, hi, o, ho, -, hg⟩ := (f.mem p).1 hp
    rw [hempty i hi o ho] at hg
    cases hg
  refine ⟨m, hm, by rw [f.dim, hp]; rfl, fun w => ?_⟩
  rw [Blocks.forward, if_neg (by simp), if_pos (by rw [f.nPairs, hone.1, hone.2]), hp]
  rfl

example := C34_violated_empty (A := Unit) (nm := fun b : Bool => if b then "a" else "b") (sz := fun _ => 1) (bg := fun _ _ => .error .emptyBasis)
  (uin := [true]) (uout := [false]) (inR := [true]) (outR := [false])
  ⟨fun r => Iff.rfl, by decide, fun r => Iff.rfl, by decide, by decide, by decide, by decide, by decide, fun _ _ _ _ => .inl rfl⟩ none 1 ⟨rfl, rfl⟩ fun _ _ _ _ => rfl

theorem exCollision_block (i o : Fin 3) :
    blockFor (fun _ _ => .ok ⟨1, 1, [⟨0, 1, 0, 0, ()⟩], [fun _ _ _ => 1]⟩) none 1 i o = .ok ⟨1, 1, [⟨0, 1, 0, 0, ()⟩], [true], [fun _ _ _ => 1]⟩ := by
  have hn : SBlock.normalize 1 1 1 1 (fun _ _ _ => 1) = fun _ _ _ => 1 := by
    funext a c p
    have : ¬ ((1 : ℝ) < 1e-15) := by norm_num
    have h2 : ¬ ((1 : ℝ) < 1e-6) := by norm_num
    simp only [SBlock.normalize, SBlock.sq, Finset.sum_range_one, one_pow, Nat.cast_one, div_one, if_neg this, Real.sqrt_one, if_neg h2]
  have h3 : (1e-2 : ℝ) < SBlock.sq 1 1 1 fun _ _ _ => 1 := by
    simp only [SBlock.sq, Finset.sum_range_one]; norm_num
  simp only [blockFor, bind, Except.bind, SBlock.ofFilter, SBlock.init, List.map_cons, List.map_nil, List.length_cons, List.length_nil, List.zipWith_cons_cons,
    List.zipWith_nil_right, hn, h3]
  simp

/-- The block of the example. -/
noncomputable def exBlk : SBlock Unit := ⟨1, 1, [⟨0, 1, 0, 0, ()⟩], [true], [fun _ _ _ => 1]⟩

/-- The object constructed in the example. -/
noncomputable def exM : Blocks (Fin 3) Unit :=
  ⟨[0, 1], [2], 2, 1, 1, [(("a^b", "o"), exBlk), (("a^b", "o"), exBlk)], [("a.b", "o"), ("a^b", "o")], 2, count exNm [0, 1], count exNm [2],
    [(("a.b", "o"), true), (("a^b", "o"), true)], [(("a^b", "o"), [0, 1, 1]), (("a^b", "o"), [1, 2, 1])], [(("a^b", "o"), [0, 1, 1]), (("a^b", "o"), [0, 1, 1])],
    [(("a.b", "o"), (0, 1)), (("a^b", "o"), (1, 2))], 2⟩

/-- **C34 is violated** without the condition on the names: two input fields with the names `a.b` and `a^b`, whose bases have one kernel
each.  The filter is zero at the first field for all weights, and the second field uses the weight of the pair which comes last. -/
theorem C34_violated_names : Function.Injective exNm ∧ ∃ m,
    init exNm (fun _ => 1) (blockFor (fun _ _ => .ok ⟨1, 1, [⟨0, 1, 0, 0, ()⟩], [fun _ _ _ => 1]⟩) none 1) [0, 1] [2] [0, 1] [2] 1 = .ok m ∧ m.dim = 2 ∧
      ∀ w, ∃ F, Blocks.forward m m.dim w = .ok F ∧ F.rows = 1 ∧ F.cols = 2 ∧ F.get 0 0 0 = 0 ∧ F.get 0 1 0 = w 1 := by
  refine ⟨by decide, exM, ?_, rfl, fun w => ?_⟩
  · have hs : [("a.b", "o"), ("a^b", "o")].mergeSort pairLe = [("a.b", "o"), ("a^b", "o")] := List.mergeSort_of_pairwise (by decide)
    have hg : blockFor (fun _ _ => .ok ⟨1, 1, [⟨0, 1, 0, 0, ()⟩], [fun _ _ _ => 1]⟩) none 1 = fun (_ _ : Fin 3) => .ok exBlk := by
      funext i o; exact exCollision_block i o
    have hc : collect exNm (fun (_ _ : Fin 3) => .ok exBlk) (([0, 1] : List (Fin 3)).flatMap fun i => [2].map fun o => (i, o)) = .ok [(("a.b", "o"), exBlk), (("a^b", "o"), exBlk)] := rfl
    have hd : ([(("a.b", "o"), exBlk), (("a^b", "o"), exBlk)].map Prod.fst).dedup = [("a.b", "o"), ("a^b", "o")] := by decide
    have h1 : mapE (fun n => checkConsecutive (indices exNm (fun _ => 1) [0, 1] n)) (List.map exNm [0, 1]) = .ok [true, true] := rfl
    have h2 : mapE (fun n => checkConsecutive (indices exNm (fun _ => 1) [2] n)) (List.map exNm [2]) = .ok [true] := rfl
    have h3 : mapE (fun p => do
            let e ← pairIndices exNm (fun _ => 1) [0, 1] [2] p
            .ok (p, e))
          [("a.b", "o"), ("a^b", "o")] = .ok [(("a.b", "o"), true, [0,1,1], [0,1,1]), (("a^b", "o"), true, [1,2,1], [0,1,1])] := rfl
    have h4 : rangesLoop [(("a.b", "o"), exBlk), (("a^b", "o"), exBlk)] (count exNm [0, 1]) (count exNm [2]) 0
            [("a.b", "o"), ("a^b", "o")] = .ok ([(("a.b", "o"), (0, 1)), (("a^b", "o"), (1, 2))], 2) := rfl
    have h5 : List.map (fun e => (escPair e.1, e.2)) [(("a.b", "o"), exBlk), (("a^b", "o"), exBlk)] = [(("a^b", "o"), exBlk), (("a^b", "o"), exBlk)] := rfl
    rw [hg, init]
    simp only [bind, Except.bind] at h3 ⊢
    rw [hc]
    simp only
    rw [hd, hs, h1]
    simp only
    rw [h2]
    simp only
    rw [h3]
    simp only
    rw [h4]
    simp only
    rw [h5]
    rfl
  · let e (r : ℕ) : Expanded := ⟨1, 1, 1, 1, 1, fun co o ci i pt => exBlk.expand (fun k e => w (r + (k * 1 + e))) (co * 1 + ci) o i pt⟩
    let K (r : ℕ) : Kern := ⟨1, 1, fun a b p => (e r).flat ((a * 1 + b) * 1 + p)⟩
    let F1 : Kern := ⟨1, 2, fun r c p => if 0 ≤ r ∧ r < 1 ∧ 1 ≤ c ∧ c < 2 then (K 0).get (r - 0) (c - 1) p else 0⟩
    let F2 : Kern := ⟨1, 2, fun r c p => if 0 ≤ r ∧ r < 1 ∧ 1 ≤ c ∧ c < 2 then (K 1).get (r - 0) (c - 1) p else F1.get r c p⟩
    refine ⟨F2, ?_, rfl, rfl, ?_, ?_⟩
    · have e1 : exM.expandBlock w ("a.b", "o") = .ok (e 0) := rfl
      have e2 : exM.expandBlock w ("a^b", "o") = .ok (e 1) := rfl
      have t1 : tabGet exM.inIdx (escPair ("a.b", "o")) = .ok [1, 2, 1] := rfl
      have t2 : tabGet exM.outIdx (escPair ("a.b", "o")) = .ok [0, 1, 1] := rfl
      have t3 : tabGet exM.inIdx (escPair ("a^b", "o")) = .ok [1, 2, 1] := rfl
      have t4 : tabGet exM.outIdx (escPair ("a^b", "o")) = .ok [0, 1, 1] := rfl
      have c1 : dictGet exM.contiguous ("a.b", "o") = .ok true := rfl
      have c2 : dictGet exM.contiguous ("a^b", "o") = .ok true := rfl
      have w1 : writeBlock ⟨exM.outSize, exM.inSize, fun _ _ _ => 0⟩ exM.S true [0, 1, 1] [1, 2, 1] (e 0) = .ok F1 := rfl
      have w2 : writeBlock F1 exM.S true [0, 1, 1] [1, 2, 1] (e 1) = .ok F2 := rfl
      rw [Blocks.forward, if_neg (by simp), if_neg (by simp [exM])]
      change fwdLoop exM w _ [("a.b", "o"), ("a^b", "o")] = _
      simp only [fwdLoop, bind, Except.bind]
      rw [t1]; simp only
      rw [t2]; simp only
      rw [e1]; simp only
      rw [c1]; simp only
      rw [w1]; simp only
      rw [t3]; simp only
      rw [t4]; simp only
      rw [e2]; simp only
      rw [c2]; simp only
      rw [w2]
    · change (if 0 ≤ 0 ∧ 0 < 1 ∧ 1 ≤ 0 ∧ 0 < 2 then (K 1).get (0 - 0) (0 - 1) 0 else if 0 ≤ 0 ∧ 0 < 1 ∧ 1 ≤ 0 ∧ 0 < 2 then (K 0).get (0 - 0) (0 - 1) 0 else 0) = 0
      simp
    · change (if 0 ≤ 0 ∧ 0 < 1 ∧ 1 ≤ 1 ∧ 1 < 2 then (K 1).get (0 - 0) (1 - 1) 0 else F1.get 0 1 0) = w 1
      rw [if_pos (by decide)]
      simp only [K, e, Expanded.flat, SBlock.expand, exBlk, SBlock.dim, List.length_cons, List.length_nil, Nat.zero_add, Finset.sum_range_one]
      simp

example := C34_filter_partial exInput none (S := 3) (by norm_num) (fun _ => 1) (by simp)

/-- A kernel commuting with the sign: one input and one output field, on which the group with two elements acts by the sign, and two
points exchanged by it. -/
example : ∃ m, init (fun _ : Unit => "s") (fun _ => 1) (blockFor (fun _ _ => .ok ⟨1, 1, [⟨0, 1, 0, 0, ()⟩], [fun _ _ _ => 1]⟩) none 1) [()] [()] [(), ()] [()] 1 = .ok m ∧
    ∀ w : ℕ → ℝ, ∃ F, Blocks.forward m m.dim w = .ok F ∧
      NpMat.mul (F.at 0) (blockDiag ([(), ()].map fun _ => (⟨1, 1, fun _ _ => -1⟩ : NpMat ℝ))) ≈ NpMat.mul (blockDiag ([()].map fun _ => (⟨1, 1, fun _ _ => -1⟩ : NpMat ℝ))) (F.at 0) := by
  have hb : blockFor (fun _ _ : Unit => .ok ⟨1, 1, [⟨0, 1, 0, 0, ()⟩], [fun _ _ _ => 1]⟩) none 1 () () = .ok exBlk := exCollision_block 0 0
  obtain ⟨m, h1, h2⟩ := C34_equivariant_partial (G := Unit) (nm := fun _ : Unit => "s") (sz := fun _ => 1)
    (bg := fun _ _ => .ok ⟨1, 1, [⟨0, 1, 0, 0, ()⟩], [fun _ _ _ => 1]⟩) (uin := [()]) (uout := [()]) (inR := [(), ()]) (outR := [()])
    ⟨by simp, by simp, by simp, by simp, by simp, by simp, by simp, by simp, fun _ _ _ _ => .inr ⟨_, rfl, rfl, rfl, rfl⟩⟩ none (S := 1) (by norm_num)
    (fun _ => ⟨(), by simp, (), by simp, _, hb⟩) (fun _ _ => ⟨1, 1, fun _ _ => -1⟩) (by simp) (by simp) (fun _ _ _ => True)
    (fun i _ o _ k hk K hK g p hp q hq _ => by
      cases hk
      simp only [List.mem_singleton] at hK
      subst hK
      exact ⟨rfl, rfl, fun a c _ _ => by simp [NpMat.mul, Kern.at]⟩)
  refine ⟨m, h1, fun w => ?_⟩
  obtain ⟨F, h3, h4⟩ := h2 w
  exact ⟨F, h3, h4 () 0 (by norm_num) 0 (by norm_num) trivial⟩

end Blocks

end Escnn
