import Verif.Proofs.Mwpm

/-!
# Weight of the recovery set of the MWPM decoder
-/

namespace Flamingpy.SurfaceCode

open Flamingpy TJoin

section
variable {E : List (Sym2 SNode × ℚ)}

theorem walkSum_cons (f : ℚ → ℚ) (a b : SNode) (l : List SNode) :
    walkSum f E (a :: b :: l) = f ((PyDict.get? E s(a, b)).getD 0) + walkSum f E (b :: l) := rfl

theorem walkWeight_cons (a b : SNode) (l : List SNode) :
    walkWeight E (a :: b :: l) = (PyDict.get? E s(a, b)).getD 0 + walkWeight E (b :: l) := rfl

theorem walk_snoc {a b c : SNode} {p : List SNode} (hp : IsWalk E a b p) (hbc : s(b, c) ∈ PyDict.keys E) :
    ∃ p', IsWalk E a c p' ∧ walkWeight E p' = walkWeight E p + (PyDict.get? E s(b, c)).getD 0 := by
  refine hp.ind (motive := fun a p => ∃ p', IsWalk E a c p' ∧
    walkWeight E p' = walkWeight E p + (PyDict.get? E s(b, c)).getD 0) ?_ ?_
  · exact ⟨[b, c], isWalk_cons hbc (isWalk_refl c), by simp [walkWeight, walkSum]⟩
  · rintro a d l had _ ⟨p', hp', hw⟩
    cases p' with
    | nil => cases hp'.1
    | cons x p' =>
      obtain rfl : x = d := Option.some.inj hp'.1
      exact ⟨a :: x :: p', isWalk_cons had hp', by rw [walkWeight_cons, walkWeight_cons, hw]; linarith⟩

theorem walk_rev {a b : SNode} {p : List SNode} (hp : IsWalk E a b p) :
    ∃ p', IsWalk E b a p' ∧ walkWeight E p' = walkWeight E p := by
  refine hp.ind (motive := fun a p => ∃ p', IsWalk E b a p' ∧ walkWeight E p' = walkWeight E p) ?_ ?_
  · exact ⟨[b], isWalk_refl b, rfl⟩
  · rintro a d l had _ ⟨p', hp', hw⟩
    obtain ⟨p'', h1, h2⟩ := walk_snoc hp' (by rw [Sym2.eq_swap]; exact had)
    exact ⟨p'', h1, by rw [h2, walkWeight_cons, hw, Sym2.eq_swap]; linarith⟩

theorem get?_nonneg (hE : ∀ e ∈ E, 0 ≤ e.2) (e : Sym2 SNode) : 0 ≤ (PyDict.get? E e).getD 0 := by
  cases hg : PyDict.get? E e with
  | none => simp
  | some q => exact hE _ (PyDict.get?_mem hg)

theorem walkWeight_nonneg (hE : ∀ e ∈ E, 0 ≤ e.2) (p : List SNode) : 0 ≤ walkWeight E p := by
  induction p with
  | nil => exact le_refl 0
  | cons a p ih =>
    cases p with
    | nil => exact le_refl 0
    | cons b p =>
      rw [walkWeight_cons]
      have := get?_nonneg hE s(a, b)
      linarith

theorem isWalk_cons' {a b c : SNode} {p : List SNode} (hab : s(a, b) ∈ PyDict.keys E) (hp : IsWalk E b c p) :
    ∃ p', IsWalk E a c p' ∧ walkWeight E p' = (PyDict.get? E s(a, b)).getD 0 + walkWeight E p := by
  cases p with
  | nil => cases hp.1
  | cons x p =>
    obtain rfl : x = b := Option.some.inj hp.1
    exact ⟨_, isWalk_cons hab hp, walkWeight_cons _ _ _⟩

end

/-- Path lengths are the sums of the weights. -/
def ExactLen (bk : Backend) (sp : SetPop) (code : Code) (w : V → ℚ) : Prop :=
  ∀ p, pathLength bk (weightedEdges (stabGraph bk sp code) w) p = walkWeight (weightedEdges (stabGraph bk sp code) w) p

section
variable {code : Code} (h : IsCode code) (bk : Backend) (lib : PathLib) (sp : SetPop) {w : V → ℚ}
  (hw : ∀ x ∈ code.syndrome, 0 ≤ w x) (hex : ExactLen bk sp code w)

local notation "SG" => stabGraph bk sp code
local notation "EE" => weightedEdges (stabGraph bk sp code) w
local notation "WC" => withoutConnectors (weightedEdges (stabGraph bk sp code) w)

include h in
/-- Lookup of the weight of an edge. -/
theorem IsCode.edge_weight {e : Sym2 SNode} {cv : Option V} (he : (e, cv) ∈ codeEdges sp code) :
    e ∈ PyDict.keys EE ∧ (PyDict.get? EE e).getD 0 = cvWeight w cv := by
  have hk := (C28_backends h sp).2 bk
  have he' : (e, cv) ∈ (SG).edges := by rw [(h.stabGraph bk sp).1]; exact he
  refine ⟨?_, ?_⟩
  · rw [keys_weightedEdges]; exact List.mem_map.2 ⟨_, he', rfl⟩
  · rw [get?_weightedEdges, (PyDict.get?_iff_mem hk _ _).2 he']; rfl

include h in
theorem IsCode.edge_weight' {e : Sym2 SNode} {cv : Option V} (he : (e, cv) ∈ codeEdges sp code)
    (hn : SNode.low ∉ e ∧ SNode.high ∉ e) :
    e ∈ PyDict.keys WC ∧ (PyDict.get? WC e).getD 0 = cvWeight w cv := by
  obtain ⟨h1, h2⟩ := h.edge_weight bk sp (w := w) he
  have h3 : e ∈ PyDict.keys WC := mem_keys_withoutConnectors.2 ⟨h1, hn⟩
  exact ⟨h3, by rw [get?_withoutConnectors h3, h2]⟩

include h hw hex in
theorem IsCode.pairLen_le {a b : ℕ} (ha : a < code.stabs.length) (hb : b < code.stabs.length) {p : List SNode}
    (hp : IsWalk WC (.stab a) (.stab b) p) : pairLen bk lib EE a b ≤ walkWeight WC p := by
  have hnn := withoutConnectors_nonneg (h.edges_nonneg bk sp hw)
  unfold pairLen
  split_ifs with hab
  · exact walkWeight_nonneg hnn p
  · rw [hex]
    rcases Nat.lt_or_gt_of_ne hab with hl | hl
    · rw [Nat.min_eq_left hl.le, Nat.max_eq_right hl.le]
      obtain ⟨_, h1, h2⟩ := h.realPath_spec bk lib sp hw ha hb hab
      have := h2 p hp
      unfold walkWeight at this ⊢
      rwa [walkSum_withoutConnectors id h1.2.2] at this
    · rw [Nat.min_eq_right hl.le, Nat.max_eq_left hl.le]
      obtain ⟨_, h1, h2⟩ := h.realPath_spec bk lib sp hw hb ha (Ne.symm hab)
      obtain ⟨p', hp', hw'⟩ := walk_rev hp
      have := h2 p' hp'
      rw [hw'] at this
      unfold walkWeight at this ⊢
      rwa [walkSum_withoutConnectors id h1.2.2] at this

include h hw hex in
theorem IsCode.pairLen_walk {a b : ℕ} (ha : a < code.stabs.length) (hb : b < code.stabs.length) :
    ∃ p, IsWalk WC (.stab a) (.stab b) p ∧ walkWeight WC p = pairLen bk lib EE a b := by
  unfold pairLen
  split_ifs with hab
  · subst hab
    exact ⟨_, isWalk_refl _, rfl⟩
  · rw [hex]
    rcases Nat.lt_or_gt_of_ne hab with hl | hl
    · rw [Nat.min_eq_left hl.le, Nat.max_eq_right hl.le]
      obtain ⟨_, h1, h2⟩ := h.realPath_spec bk lib sp hw ha hb hab
      exact ⟨_, h1, walkSum_withoutConnectors id h1.2.2⟩
    · rw [Nat.min_eq_right hl.le, Nat.max_eq_left hl.le]
      obtain ⟨_, h1, h2⟩ := h.realPath_spec bk lib sp hw hb ha (Ne.symm hab)
      obtain ⟨p', hp', hw'⟩ := walk_rev h1
      exact ⟨p', hp', by rw [hw']; exact walkSum_withoutConnectors id h1.2.2⟩

include h hw hex in
theorem IsCode.boundLen_le (ho : code.boundaries = .open) {k : ℕ} (hk : k < code.stabs.length) {c : SNode}
    (hc : c = .low ∨ c = .high) {p : List SNode} (hp : IsWalk EE c (.stab k) p) :
    boundLen bk lib EE k ≤ walkWeight EE p := by
  obtain ⟨_, _, h1⟩ := h.lowPath_spec bk lib sp hw ho hk
  obtain ⟨_, _, h2⟩ := h.highPath_spec bk lib sp hw ho hk
  unfold boundLen
  rw [hex, hex]
  rcases hc with rfl | rfl
  · have := h1 p hp
    split_ifs with hle
    · exact this
    · linarith
  · have := h2 p hp
    split_ifs with hle
    · linarith
    · exact this

include h hw hex in
theorem IsCode.boundLen_walk (ho : code.boundaries = .open) {k : ℕ} (hk : k < code.stabs.length) :
    ∃ c p, (c = SNode.low ∨ c = .high) ∧ IsWalk EE c (.stab k) p ∧ walkWeight EE p = boundLen bk lib EE k := by
  obtain ⟨⟨c, hc, hwk⟩, he⟩ := h.fullPath_spec bk lib sp hw ho hk
  exact ⟨c, _, hc, hwk, by rw [he, hex]⟩

include h hw hex in
/-- A pairing of the odd stabilizers (with each other or with the boundary) no more expensive than a given pattern with the
same syndrome, if a qubit costs at least as much as every qubit shared by the same stabilizers weighs. -/
theorem IsCode.exists_pairing {c : V → ℚ} (hc1 : ∀ x ∈ code.syndrome, w x ≤ c x)
    (hc2 : ∀ i j, i ≠ j → ∀ x y, x ∈ code.stabs.getD i [] → x ∈ code.stabs.getD j [] →
      y ∈ code.stabs.getD i [] → y ∈ code.stabs.getD j [] → w x ≤ c y) (bits bits' : V → Bool)
    (hs : ∀ k < code.stabs.length, parity bits' (code.stabs.getD k []) = parity bits (code.stabs.getD k [])) :
    ∃ P, (verts P).Nodup ∧ (∀ x, x ∈ verts P ↔ x ∈ oddStabs SG bits) ∧
      (∀ e ∈ P, e.2 = none → code.boundaries = .open) ∧
      (P.map (pw (pairLen bk lib EE) (boundLen bk lib EE))).sum ≤ ∑ x ∈ onesOf code bits', c x := by
  have hnn := h.edges_nonneg bk sp hw
  have hodd : oddStabs SG bits = oddStabs SG bits' := by
    unfold oddStabs StabGraph.coords
    rw [(h.stabGraph bk sp).2.1]
    apply List.filter_congr
    intro k hk
    rw [List.mem_range] at hk
    exact (hs k hk).symm
  -- the edge of a qubit in two stabilizers
  have hedge : ∀ q ∈ code.syndrome, ∀ t u, t ≠ u → stabsOf code.stabs q = {t, u} →
      ∃ y, (s(SNode.stab t, .stab u), some y) ∈ codeEdges sp code ∧ w y ≤ c q := by
    intro q hq t u htu he
    have ht : q ∈ code.stabs.getD t [] := mem_stabsOf'.1 (by rw [he]; simp)
    have hu : q ∈ code.stabs.getD u [] := mem_stabsOf'.1 (by rw [he]; simp)
    obtain ⟨y, hy, hye⟩ := h.ok.1.joined h.ok.2 sp htu ht hu
    rw [he] at hye
    exact ⟨y, hy, hc2 t u htu y q (mem_stabsOf'.1 (by rw [hye]; simp)) (mem_stabsOf'.1 (by rw [hye]; simp)) ht hu⟩
  have hval : ∀ q t, t ∈ stabsOf code.stabs q → t < code.stabs.length := fun q t ht => (mem_stabsOf.1 ht).1
  obtain ⟨P, h1, h2, h3, h4⟩ := tjoin (ends := stabsOf code.stabs) (w := c) (D := pairLen bk lib EE)
    (B := boundLen bk lib EE) (hasB := code.boundaries = .open) (valid := fun k => k < code.stabs.length)
    (by
      intro a b
      unfold pairLen
      rw [min_comm, max_comm]
      simp only [eq_comm])
    (fun a => by simp [pairLen])
    (onesOf code bits') (fun q hq => (hw q (mem_onesOf.1 hq).1).trans (hc1 q (mem_onesOf.1 hq).1)) (fun q hq => (h.ends_cases (mem_onesOf.1 hq).1).1)
    (fun q hq t ht => hval q t ht)
    (by
      intro q hq t u htu he v hv
      obtain ⟨y, hy, hwy⟩ := hedge q (mem_onesOf.1 hq).1 t u htu he
      have ht := hval q t (by rw [he]; simp)
      have hu := hval q u (by rw [he]; simp)
      obtain ⟨p, hp, hpw⟩ := h.pairLen_walk bk lib sp hw hex hu hv
      obtain ⟨h5, h6⟩ := h.edge_weight' bk sp (w := w) hy (by simp)
      obtain ⟨p', hp', hpw'⟩ := isWalk_cons' h5 hp
      have := h.pairLen_le bk lib sp hw hex ht hv hp'
      rw [hpw', h6, hpw] at this
      have e : cvWeight w (some y) = w y := rfl
      linarith)
    (by
      intro q hq t u htu he ho
      obtain ⟨y, hy, hwy⟩ := hedge q (mem_onesOf.1 hq).1 t u htu he
      have ht := hval q t (by rw [he]; simp)
      have hu := hval q u (by rw [he]; simp)
      obtain ⟨c, p, hc, hp, hpw⟩ := h.boundLen_walk bk lib sp hw hex ho hu
      obtain ⟨h5, h6⟩ := h.edge_weight bk sp (w := w) hy
      rw [Sym2.eq_swap] at h5 h6
      obtain ⟨p', hp', hpw'⟩ := walk_snoc hp h5
      have := h.boundLen_le bk lib sp hw hex ho ht hc hp'
      rw [hpw', h6, hpw] at this
      have e : cvWeight w (some y) = w y := rfl
      linarith)
    (by
      intro q hq t he
      obtain ⟨ho, hb⟩ := (h.ends_cases (mem_onesOf.1 hq).1).2 t he
      refine ⟨ho, ?_⟩
      have htm : t ∈ stabsOf code.stabs q := by rw [he]; simp
      have ht := hval q t htm
      have htq := (mem_stabsOf.1 htm).2
      obtain ⟨h5, h6⟩ := h.edge_weight bk sp (w := w)
        (mem_codeEdges.2 (Or.inr (Or.inr (Or.inr ⟨t, q, ht, hb, htq, rfl⟩))))
      rw [Sym2.eq_swap] at h5 h6
      have hc : ∃ c, (c = SNode.low ∨ c = .high) ∧ (s(c, SNode.pt q), none) ∈ codeEdges sp code := by
        have hb' := hb
        rw [← List.take_append_drop (code.boundPoints.length / 2) code.boundPoints, List.mem_append] at hb'
        rcases hb' with hb' | hb'
        · exact ⟨_, Or.inl rfl, mem_codeEdges.2 (Or.inl ⟨q, hb', rfl⟩)⟩
        · exact ⟨_, Or.inr rfl, mem_codeEdges.2 (Or.inr (Or.inl ⟨q, hb', rfl⟩))⟩
      obtain ⟨c, hc, hce⟩ := hc
      obtain ⟨h7, h8⟩ := h.edge_weight bk sp (w := w) hce
      obtain ⟨p', hp', hpw'⟩ := isWalk_cons' h5 (isWalk_refl (SNode.stab t))
      obtain ⟨p'', hp'', hpw''⟩ := isWalk_cons' h7 hp'
      have := h.boundLen_le bk lib sp hw hex ho ht hc hp''
      rw [hpw'', hpw', h6, h8] at this
      refine le_trans ?_ (hc1 q (mem_onesOf.1 hq).1)
      simpa [cvWeight, walkWeight, walkSum] using this)
    (oddStabs SG bits').toFinset (h.odd_ones bk sp bits')
  exact ⟨P, h1, fun x => by rw [h2, hodd, List.mem_toFinset], h3, h4⟩

include h hw hex in
/-- A matched pair is no heavier than any pattern with the same syndrome. -/
theorem IsCode.matching_le (hpar : ∀ i j, i ≠ j → ∀ x y, x ∈ code.stabs.getD i [] → x ∈ code.stabs.getD j [] →
      y ∈ code.stabs.getD i [] → y ∈ code.stabs.getD j [] → w x = w y)
    (ml : MatchLib) (bits bits' : V → Bool)
    (hs : ∀ k < code.stabs.length, parity bits' (code.stabs.getD k []) = parity bits (code.stabs.getD k [])) :
    matchWeight (mWeights (graphEdges bk lib EE (decide (code.boundaries = .open)) (oddStabs SG bits)))
      (ml.find (mWeights (graphEdges bk lib EE (decide (code.boundaries = .open)) (oddStabs SG bits)))) ≤
      ∑ x ∈ onesOf code bits', w x := by
  have hlt := oddStabs_pairwise SG bits
  obtain ⟨P, h1, h2, h3, h4⟩ := h.exists_pairing bk lib sp hw hex (c := w) (fun x _ => le_refl _)
    (fun i j hij x y h1 h2 h3 h4 => (hpar i j hij x y h1 h2 h3 h4).le) bits bits' hs
  obtain ⟨M, hM1, hM2, hM3⟩ := matching_of_pairing (bk := bk) (lib := lib) (E := EE)
    (op := decide (code.boundaries = .open)) hlt P h1 h2
    (fun e he hn => by simpa using h3 e he hn)
  refine (found_perfect ml hlt hM1 hM2).2.trans ?_
  rw [hM3]
  exact h4

include h hw hex in
/-- The toggled qubits weigh as much as the matched edges. -/
theorem IsCode.cvs_le (bits : V → Bool) {M : List (MNode × MNode)}
    (hM : IsMatching (mWeights (graphEdges bk lib EE (decide (code.boundaries = .open)) (oddStabs SG bits))) M) :
    ((M.flatMap (matchCvs bk lib EE SG (decide (code.boundaries = .open))
          (oddStabs SG bits))).map (cvWeight w)).sum ≤
    matchWeight (mWeights (graphEdges bk lib EE (decide (code.boundaries = .open)) (oddStabs SG bits)))
      M := by
  have hlt := oddStabs_pairwise SG bits
  have hnn := h.edges_nonneg bk sp hw
  unfold matchWeight
  rw [List.map_flatMap, sum_flatMap]
  apply List.sum_le_sum
  intro m hm
  have hk := hM.1 m hm
  rw [keys_mWeights] at hk
  obtain ⟨q, hq⟩ := Option.isSome_iff_exists.1 ((PyDict.get?_isSome_iff _ _).2 hk)
  rw [get?_mWeights, hq]
  simp only [Option.map_some, Option.getD_some]
  have hcv : ∀ p, ((pathCvs (SG).edges p).map (cvWeight w)).sum = walkWeight EE p := fun p =>
    (walkSum_cvs id (SG) w rfl p).symm
  unfold matchCvs
  split_ifs with hv
  · have := (get?_graphEdges hlt).1 hq
    rcases this with ⟨a, b, ha, hb, hab, he, hq'⟩ | ⟨k, hop, hk, he, hq'⟩ | ⟨x, y, hop, hx, hy, hne, he, hq'⟩
    · rw [hq']; simp only [List.map_nil, List.sum_nil]; rw [hex]; exact walkWeight_nonneg hnn _
    · rw [hq']; simp only [List.map_nil, List.sum_nil]
      rw [(h.fullPath_spec bk lib sp hw (by simpa using hop) ((mem_oddStabs bk sp h).1 hk).1).2, hex]
      exact walkWeight_nonneg hnn _
    · rw [hq']; simp
  · rw [hq]
    simp only [Option.map_some, Option.getD_some]
    rw [hcv]
    have := (get?_graphEdges hlt).1 hq
    rcases this with ⟨a, b, ha, hb, hab, he, hq'⟩ | ⟨k, hop, hk, he, hq'⟩ | ⟨x, y, hop, hx, hy, hne, he, hq'⟩
    · rw [hq', hex]
    · rw [hq']
      have hk' := ((mem_oddStabs bk sp h).1 hk).1
      rw [(h.fullPath_spec bk lib sp hw (by simpa using hop) hk').2, hex]
      obtain ⟨c, d, l, p, hfp, _⟩ := h.tail_spec bk lib sp hw (by simpa using hop) hk'
      rw [hfp, List.tail_cons, walkWeight_cons]
      have := get?_nonneg hnn s(c, d)
      linarith
    · rw [hq']; exact le_refl _

include h hw hex in
theorem IsCode.mwpm_minimal (hpar : ∀ i j, i ≠ j → ∀ x y, x ∈ code.stabs.getD i [] → x ∈ code.stabs.getD j [] →
      y ∈ code.stabs.getD i [] → y ∈ code.stabs.getD j [] → w x = w y) (ml : MatchLib) (bits : V → Bool) :
    ∃ R : List V, mwpmDecoder bk lib ml SG w bits = some (R.map some) ∧ R.Nodup ∧ (∀ x ∈ R, x ∈ code.syndrome) ∧
      (∀ k < code.stabs.length, parity (fun x => decide (x ∈ R)) (code.stabs.getD k []) =
        parity bits (code.stabs.getD k [])) ∧
      ∀ bits', (∀ k < code.stabs.length, parity bits' (code.stabs.getD k []) = parity bits (code.stabs.getD k [])) →
        (R.map w).sum ≤ ∑ x ∈ onesOf code bits', w x := by
  obtain ⟨R, h1, h2, h3, h4, h5⟩ := h.decoder_spec bk lib sp hw ml bits
  refine ⟨R, h1, h2, fun x hx => (h3 x hx).1, h4, fun bits' hs => ?_⟩
  exact h5.trans ((h.cvs_le bk lib sp hw hex bits (ml.isMatching _)).trans (h.matching_le bk lib sp hw hex hpar ml bits bits' hs))

end

/-- Lengths are exact for networkx and for integer weights. -/
theorem pathLength_exact {code : Code} (h : IsCode code) (bk : Backend) (sp : SetPop) {w : V → ℚ}
    (hi : bk = .networkx ∨ ∀ x ∈ code.syndrome, ∃ n : ℤ, w x = n) (p : List SNode) :
    pathLength bk (weightedEdges (stabGraph bk sp code) w) p = walkWeight (weightedEdges (stabGraph bk sp code) w) p := by
  cases bk with
  | networkx => rfl
  | rustworkx =>
    have hi : ∀ x ∈ code.syndrome, ∃ n : ℤ, w x = n := by simpa using hi
    have key : ∀ e, ((pyInt ((PyDict.get? (weightedEdges (stabGraph .rustworkx sp code) w) e).getD 0) : ℤ) : ℚ) =
        (PyDict.get? (weightedEdges (stabGraph .rustworkx sp code) w) e).getD 0 := by
      intro e
      have hint : ∃ n : ℤ, (PyDict.get? (weightedEdges (stabGraph .rustworkx sp code) w) e).getD 0 = n := by
        rw [get?_weightedEdges]
        cases hg : PyDict.get? (stabGraph .rustworkx sp code).edges e with
        | none => exact ⟨0, by simp⟩
        | some cv =>
          have := PyDict.get?_mem hg
          rw [(h.stabGraph .rustworkx sp).1] at this
          cases cv with
          | none => exact ⟨0, by simp [cvWeight]⟩
          | some x =>
            obtain ⟨n, hn⟩ := hi x (h.ok.1.edge_effect h.ok.2 sp this).1
            exact ⟨n, by simp [cvWeight, hn]⟩
      obtain ⟨n, hn⟩ := hint
      rw [hn]
      unfold pyInt
      split <;> simp
    unfold pathLength walkWeight
    simp only
    induction p with
    | nil => rfl
    | cons a p ih =>
      cases p with
      | nil => rfl
      | cons b p => rw [walkSum_cons, walkSum_cons, ih, key]; rfl

end Flamingpy.SurfaceCode
