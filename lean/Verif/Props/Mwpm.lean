import Verif.Proofs.MwpmWeight
import Verif.Proofs.Parallel
import Verif.Proofs.Libs

/-!
# C34 - C37, C43: the MWPM decoder

`mwpmDecoder bk lib ml (stabGraph bk sp code) w bits` is the recovery set for node weights `w`, any
shortest-path routine `lib`, any matching routine `ml`, any choice `sp` of the common vertices and either backend
of the stabilizer graph. -/

namespace Flamingpy.SurfaceCode

open Flamingpy

theorem IsCode.syndrome_node {code : Code} (h : IsCode code) {x : V} (hx : x ∈ code.syndrome) :
    x ∈ PyDict.keys code.graph.nodes :=
  (h.ok.1.graphNodes x).2 (qubit_isNode ((h.ok.1.syndrome x).1 hx))

/-! ### C34 -/

/-- The decoder returns a set of syndrome qubits, the recovery succeeds, and no stabilizer is odd afterwards. -/
theorem C34_clears {code : Code} (h : IsCode code) (bk : Backend) (lib : PathLib) (ml : MatchLib) (sp : SetPop)
    (w : V → ℚ) (hw : ∀ x ∈ code.syndrome, 0 ≤ w x) (bits : V → Bool) :
    ∃ R bits', mwpmDecoder bk lib ml (stabGraph bk sp code) w bits = some R ∧ R.Nodup ∧
      (∀ q ∈ R, ∃ x ∈ code.syndrome, q = some x) ∧
      recovery (PyDict.keys code.graph.nodes) R bits = some bits' ∧ trivialSyndrome code bits' := by
  obtain ⟨R, h1, h2, h3, h4, _⟩ := h.decoder_spec bk lib sp hw ml bits
  refine ⟨R.map some, _, h1, h2.map (Option.some_injective _), ?_,
    recovery_nodup _ R (fun q hq => h.syndrome_node (h3 q hq).1) h2 bits, ?_⟩
  · intro q hq
    obtain ⟨x, hx, rfl⟩ := List.mem_map.1 hq
    exact ⟨x, (h3 x hx).1, rfl⟩
  · intro s hs
    obtain ⟨k, hk, rfl⟩ := List.getElem_of_mem hs
    have := h4 k hk
    rw [List.getD_eq_getElem _ _ hk] at this
    rw [parity_xor, this, Bool.xor_self]

/-! ### C35 -/

/-- If path lengths are exact (networkx stabilizer graph, or integer weights) and qubits shared by the same two
stabilizers have equal weights, the recovery set has the least weight of all patterns with the same syndrome. -/
theorem C35_minimal {code : Code} (h : IsCode code) (bk : Backend) (lib : PathLib) (ml : MatchLib) (sp : SetPop)
    (w : V → ℚ) (hw : ∀ x ∈ code.syndrome, 0 ≤ w x)
    (hi : bk = .networkx ∨ ∀ x ∈ code.syndrome, ∃ n : ℤ, w x = n)
    (hpar : ∀ i j, i ≠ j → ∀ x y, x ∈ code.stabs.getD i [] → x ∈ code.stabs.getD j [] →
      y ∈ code.stabs.getD i [] → y ∈ code.stabs.getD j [] → w x = w y)
    (bits : V → Bool) :
    ∃ R : List V, mwpmDecoder bk lib ml (stabGraph bk sp code) w bits = some (R.map some) ∧ R.Nodup ∧
      (∀ s ∈ code.stabs, parity (fun x => decide (x ∈ R)) s = parity bits s) ∧
      ∀ bits', (∀ s ∈ code.stabs, parity bits' s = parity bits s) →
        (R.map w).sum ≤ ((code.syndrome.filter bits').map w).sum := by
  obtain ⟨R, h1, h2, h3, h4, h5⟩ := h.mwpm_minimal bk lib sp hw (pathLength_exact h bk sp hi) hpar ml bits
  refine ⟨R, h1, h2, ?_, ?_⟩
  · intro s hs
    obtain ⟨k, hk, rfl⟩ := List.getElem_of_mem hs
    have := h4 k hk
    rwa [List.getD_eq_getElem _ _ hk] at this
  · intro bits' hs
    have := h5 bits' (fun k hk => by
      rw [List.getD_eq_getElem _ _ hk]; exact hs _ (List.getElem_mem hk))
    unfold onesOf at this
    rwa [List.sum_toFinset _ ((C25_only_syndrome h).1.filter _)] at this

/-- The condition on shared qubits holds for all weights if every periodic axis has at least three cells. -/
theorem C35_condition {code : Code} (h : IsCode code)
    (hd : ∀ i, boundsOf code.ec code.boundaries i = .periodic → 3 ≤ code.dims i) (w : V → ℚ) :
    ∀ i j, i ≠ j → ∀ x y, x ∈ code.stabs.getD i [] → x ∈ code.stabs.getD j [] →
      y ∈ code.stabs.getD i [] → y ∈ code.stabs.getD j [] → w x = w y := by
  intro i j hij x y h1 h2 h3 h4
  rw [h.ok.1.share_one hd hij h1 h2 h3 h4]

/-- Without the condition minimality can fail: of two qubits shared by the same two stabilizers only the one
chosen by `set.pop` is ever used, even if the other one is cheaper. -/
theorem C35_counterexample {code : Code} (h : IsCode code) {i j : ℕ} (hij : i < j) {x y : V} (hxy : x ≠ y)
    (h1 : x ∈ code.stabs.getD i []) (h2 : x ∈ code.stabs.getD j []) (h3 : y ∈ code.stabs.getD i [])
    (h4 : y ∈ code.stabs.getD j []) :
    ∃ (sp : SetPop) (w : V → ℚ) (bits bits' : V → Bool), (∀ x, w x = 0 ∨ w x = 1) ∧
      (∀ s ∈ code.stabs, parity bits' s = parity bits s) ∧
      ∀ (bk : Backend) (lib : PathLib) (ml : MatchLib), ∃ R : List V,
        mwpmDecoder bk lib ml (stabGraph bk sp code) w bits = some (R.map some) ∧
        ((code.syndrome.filter bits').map w).sum < (R.map w).sum := by
  obtain ⟨hok, hd⟩ := h.ok
  let sp : SetPop := ⟨fun _ _ l => if x ∈ l then x else l.headD x, by
    intro i j l hl
    split_ifs with hx
    · exact hx
    · cases l with
      | nil => exact absurd rfl hl
      | cons a l => simp⟩
  let w : V → ℚ := fun z => if z = y then 0 else 1
  have hw : ∀ z, w z = 0 ∨ w z = 1 := fun z => by
    by_cases hz : z = y
    · left; simp [w, hz]
    · right; simp [w, hz]
  refine ⟨sp, w, fun z => decide (z = y), fun z => decide (z = y), hw, fun _ _ => rfl, fun bk lib ml => ?_⟩
  obtain ⟨R, r1, r2, r3, r4, _⟩ := h.decoder_spec bk lib sp (w := w)
    (fun z _ => by rcases hw z with e | e <;> rw [e]; exact zero_le_one) ml fun z => decide (z = y)
  refine ⟨R, r1, ?_⟩
  have hj := (mem_stabsOf.1 (mem_stabsOf'.2 h2)).1
  have hi := (mem_stabsOf.1 (mem_stabsOf'.2 h1)).1
  -- no edge carries `y`
  have hyR : y ∉ R := by
    intro hy
    obtain ⟨e, he⟩ := (r3 y hy).2
    have hend := (hok.edge_effect hd sp he).2.1
    rcases mem_codeEdges.1 he with ⟨p, _, e1⟩ | ⟨p, _, e1⟩ | ⟨a, b, hab, hb, hc, e1⟩ | ⟨k, p, hk, hp, hpk, e1⟩
    · cases e1
    · cases e1
    · obtain ⟨rfl, e2⟩ := Prod.mk.inj e1
      have hi' := (hend i).1 h3
      have hj' := (hend j).1 h4
      simp only [Sym2.mem_iff, SNode.stab.injEq] at hi' hj'
      obtain ⟨rfl, rfl⟩ : i = a ∧ j = b := by omega
      have hmem : x ∈ commonVertices (code.stabs.getD i []) (code.stabs.getD j []) := by
        unfold commonVertices; rw [List.mem_filter]; exact ⟨h1, by simpa using h2⟩
      have : y = x := by
        have := Option.some.inj e2
        rw [this]
        exact if_pos hmem
      exact hxy this.symm
    · obtain ⟨rfl, e2⟩ := Prod.mk.inj e1
      have hi' := (hend i).1 h3
      have hj' := (hend j).1 h4
      simp only [Sym2.mem_iff, SNode.stab.injEq, reduceCtorEq, or_false] at hi' hj'
      omega
  have hRne : R ≠ [] := by
    rintro rfl
    have := r4 i hi
    rw [parity_mem, parity_mem] at this
    have hf : ((code.stabs.getD i []).filter fun z => decide (z = y)).length = 1 := by
      have : ((code.stabs.getD i []).filter fun z => decide (z = y)).length = (code.stabs.getD i []).count y := by
        rw [List.count, List.countP_eq_length_filter]; congr 1
      rw [this]
      exact List.count_eq_one_of_mem (h.stab_nodup hi) h3
    rw [hf] at this
    simp at this
  have hzero : ((code.syndrome.filter fun z => decide (z = y)).map w).sum = 0 := by
    apply List.sum_eq_zero
    intro q hq
    obtain ⟨z, hz, rfl⟩ := List.mem_map.1 hq
    rw [List.mem_filter, decide_eq_true_eq] at hz
    simp [w, hz.2]
  rw [hzero]
  obtain ⟨a, R', rfl⟩ := List.exists_cons_of_ne_nil hRne
  rw [List.map_cons, List.sum_cons]
  have ha : w a = 1 := by
    have : a ≠ y := by rintro rfl; exact hyR (by simp)
    simp [w, this]
  have hn : 0 ≤ (R'.map w).sum := by
    apply List.sum_nonneg
    intro q hq
    obtain ⟨z, _, rfl⟩ := List.mem_map.1 hq
    rcases hw z with e | e <;> rw [e]
    exact zero_le_one
  rw [ha]
  linarith

/-! ### C36 -/

/-- With unit weights, an error on fewer than half as many qubits as the code is long in each checked direction
is corrected. -/
theorem C36_corrects {code : Code} (h : IsCode code) (bk : Backend) (lib : PathLib) (ml : MatchLib) (sp : SetPop)
    (bits : V → Bool) (hlow : ∀ i ∈ planesToCheck code.ec code.boundaries, 2 * weight code bits < code.dims i)
    (sanity : Bool) :
    ∃ bits', correct code (mwpmDecoder bk lib ml (stabGraph bk sp code) fun _ => 1) sanity bits = some (bits', true) := by
  obtain ⟨R, h1, h2, h3, h4, h5⟩ := h.mwpm_minimal bk lib sp (w := fun _ => 1) (fun _ _ => zero_le_one)
    (pathLength_exact h bk sp (Or.inr fun _ _ => ⟨1, by simp⟩)) (fun _ _ _ _ _ _ _ _ _ => rfl) ml bits
  have hrec := recovery_nodup (PyDict.keys code.graph.nodes) R (fun q hq => h.syndrome_node (h3 q hq)) h2 bits
  set bits' : V → Bool := fun x => xor (bits x) (decide (x ∈ R)) with hb'
  have htriv : trivialSyndrome code bits' := by
    intro s hs
    obtain ⟨k, hk, rfl⟩ := List.getElem_of_mem hs
    have := h4 k hk
    rw [List.getD_eq_getElem _ _ hk] at this
    rw [hb', parity_xor, this, Bool.xor_self]
  have hnd := (C25_only_syndrome h).1
  have hR : R.length ≤ weight code bits := by
    have := h5 bits fun _ _ => rfl
    simp only [List.map_const', List.sum_replicate, Finset.sum_const, nsmul_eq_mul, mul_one] at this
    have h6 : R.length ≤ (onesOf code bits).card := by exact_mod_cast this
    refine h6.trans (le_of_eq ?_)
    unfold onesOf weight
    rw [List.toFinset_card_of_nodup (hnd.filter _), List.countP_eq_length_filter]
  have hw' : weight code bits' ≤ 2 * weight code bits := by
    have e1 : (code.syndrome.filter bits').Subperm (code.syndrome.filter bits ++ R) := by
      apply (hnd.filter _).subperm
      intro x hx
      rw [List.mem_filter] at hx
      rw [List.mem_append, List.mem_filter]
      by_cases hxR : x ∈ R
      · exact Or.inr hxR
      · left; refine ⟨hx.1, ?_⟩; simpa [hb', hxR] using hx.2
    have := e1.length_le
    rw [List.length_append] at this
    unfold weight at *
    rw [List.countP_eq_length_filter] at *
    rw [List.countP_eq_length_filter]
    omega
  refine ⟨bits', ?_⟩
  unfold correct
  rw [h1, Option.bind_eq_bind, Option.bind_some, hrec, Option.bind_eq_bind, Option.bind_some]
  have hck : ∃ ok, checkCorrection code bits' sanity = some ok := ⟨_, check_eq h.ok.2 bits' sanity⟩
  obtain ⟨ok, hck⟩ := hck
  cases ok with
  | true => rw [hck]; rfl
  | false =>
    obtain ⟨i, hi, hle⟩ := C33_lower h htriv hck
    have := hlow i hi
    omega

/-- For a code of size `d` in all directions: any error on fewer than `d / 2` qubits. -/
theorem C36_distance {code : Code} (h : IsCode code) {d : ℕ} (hd : ∀ i, code.dims i = d) (bk : Backend)
    (lib : PathLib) (ml : MatchLib) (sp : SetPop) (bits : V → Bool) (hlow : 2 * weight code bits < d) (sanity : Bool) :
    ∃ bits', correct code (mwpmDecoder bk lib ml (stabGraph bk sp code) fun _ => 1) sanity bits = some (bits', true) :=
  C36_corrects h bk lib ml sp bits (fun i _ => by rw [hd]; exact hlow) sanity

/-! ### C37 -/

/-- The matching graph is always built; the matching found covers every odd stabilizer and every virtual point exactly once.
With open boundaries there is one virtual point per odd stabilizer, joined to it; otherwise there are none and
the number of odd stabilizers is even. -/
theorem C37_perfect {code : Code} (h : IsCode code) (bk : Backend) (lib : PathLib) (ml : MatchLib) (sp : SetPop)
    (w : V → ℚ) (hw : ∀ x ∈ code.syndrome, 0 ≤ w x) (bits : V → Bool) :
    ∃ G, matchGraph bk lib (stabGraph bk sp code) w bits = some G ∧
      (∀ m ∈ perfectMatching ml G, s(m.1, m.2) ∈ PyDict.keys G.edges) ∧
      ((perfectMatching ml G).flatMap fun m => [m.1, m.2]).Perm
        ((oddStabs (stabGraph bk sp code) bits).map MNode.stab ++ G.virtuals) ∧
      (code.boundaries = .open → G.virtuals.length = (oddStabs (stabGraph bk sp code) bits).length ∧
        G.virtuals.Nodup ∧ ∀ k ∈ oddStabs (stabGraph bk sp code) bits, ∃ v ∈ G.virtuals,
          s(MNode.stab k, v) ∈ PyDict.keys G.edges ∧
          ∀ k', s(MNode.stab k', v) ∈ PyDict.keys G.edges → k' = k) ∧
      (code.boundaries ≠ .open → G.virtuals = [] ∧ Even (oddStabs (stabGraph bk sp code) bits).length) := by
  have hlt := oddStabs_pairwise (stabGraph bk sp code) bits
  have hnd := hlt.imp (fun {a b} h => Nat.ne_of_lt h)
  have hperf := h.perfect bk lib sp (w := w) ml bits
  refine ⟨_, h.matchGraph bk lib sp hw bits, ?_, hperf, ?_, ?_⟩
  · intro m hm
    have := (ml.isMatching _).1 m hm
    rw [← keys_mWeights]
    exact this
  · intro ho
    simp only [ho, decide_true]
    refine ⟨by simp [virtuals], virtuals_nodup _ _, fun k hk => ⟨virtOf bk lib (weightedEdges (stabGraph bk sp code) w) (oddStabs (stabGraph bk sp code) bits) k, ?_, ?_, ?_⟩⟩
    · rw [virtuals_eq hnd]; exact List.mem_map_of_mem hk
    · have := edge_virt (bk := bk) (lib := lib) (E := weightedEdges (stabGraph bk sp code) w) hlt hk
      rw [← keys_mWeights]
      exact mem_of_get? this
    · intro k' hk'
      obtain ⟨q, hq⟩ := Option.isSome_iff_exists.1 ((PyDict.get?_isSome_iff _ _).2 hk')
      rcases (get?_graphEdges hlt).1 hq with ⟨a, b, ha, hb, hab, he, hq'⟩ | ⟨a, hop, ha, he, hq'⟩ |
        ⟨x, y, hop, hx, hy, hne, he, hq'⟩
      · rcases Sym2.eq_iff.1 he with ⟨_, e⟩ | ⟨_, e⟩ <;> simp [virtOf, virtNode] at e
      · rcases Sym2.eq_iff.1 he with ⟨e1, e2⟩ | ⟨e1, e2⟩
        · rw [MNode.stab.inj e1]; exact (virtOf_inj hk e2).symm
        · simp [virtOf, virtNode] at e2
      · obtain ⟨p, i, rfl⟩ := mem_virtuals hx
        obtain ⟨p', i', rfl⟩ := mem_virtuals hy
        rcases Sym2.eq_iff.1 he with ⟨e, _⟩ | ⟨e, _⟩ <;> cases e
  · intro ho
    refine ⟨by simp [virtuals, ho], ?_⟩
    have hp := (h.perfect bk lib sp (w := w) ml bits).length_eq
    rw [ends2_length] at hp
    simp only [mNodes, virtuals, ho, decide_false, Bool.false_eq_true, if_false, List.append_nil, List.length_map] at hp
    exact ⟨(ml.find (mWeights (graphEdges bk lib (weightedEdges (stabGraph bk sp code) w) false
      (oddStabs (stabGraph bk sp code) bits)))).length, by omega⟩

/-! ### C43 -/

/-- Exact lengths: the weight of an edge of the matching graph is the total weight of the stored path. -/
theorem C43_exact {code : Code} (h : IsCode code) (bk : Backend) (lib : PathLib) (sp : SetPop)
    (w : V → ℚ) (hw : ∀ x ∈ code.syndrome, 0 ≤ w x)
    (hi : bk = .networkx ∨ ∀ x ∈ code.syndrome, ∃ n : ℤ, w x = n) (bits : V → Bool) {G : MatchGraph}
    (hG : matchGraph bk lib (stabGraph bk sp code) w bits = some G) :
    ∀ e ∈ G.edges, e.2.1 = walkWeight (weightedEdges (stabGraph bk sp code) w) e.2.2 := by
  have hlt := oddStabs_pairwise (stabGraph bk sp code) bits
  have hex := pathLength_exact h bk sp hi
  rw [h.matchGraph bk lib sp hw bits] at hG
  obtain rfl := Option.some.inj hG
  rintro ⟨e, q⟩ he
  rcases (mem_graphEdges hlt).1 he with ⟨a, b, ha, hb, hab, he, hq'⟩ | ⟨k, hop, hk, he, hq'⟩ |
    ⟨x, y, hop, hx, hy, hne, he, hq'⟩
  · subst hq'; exact hex _
  · subst hq'
    have hk' := ((mem_oddStabs bk sp h).1 hk).1
    simp only
    rw [(h.fullPath_spec bk lib sp hw (by simpa using hop) hk').2, hex]
    obtain ⟨c, d, l, p, hfp, _, _, hcd, _⟩ := h.tail_spec bk lib sp hw (by simpa using hop) hk'
    rw [hfp, List.tail_cons, walkWeight_cons]
    rw [(h.stabGraph bk sp).1] at hcd
    rw [(h.edge_weight bk sp (w := w) hcd).2]
    simp [cvWeight]
  · subst hq'; rfl

/-- With the rustworkx stabilizer graph and weights below one every edge of the matching graph gets weight zero, although
the path between two stabilizers costs at least one of these weights. -/
theorem C43_truncated {code : Code} (h : IsCode code) (lib : PathLib) (sp : SetPop) (bits : V → Bool)
    (w : V → ℚ) (hw : ∀ x ∈ code.syndrome, 0 < w x ∧ w x < 1) {G : MatchGraph}
    (hG : matchGraph .rustworkx lib (stabGraph .rustworkx sp code) w bits = some G) :
    ∀ e ∈ G.edges, e.2.1 = 0 ∧ ((∃ k k', e.1 = s(MNode.stab k, .stab k')) →
      0 < walkWeight (weightedEdges (stabGraph .rustworkx sp code) w) e.2.2) := by
  have hw0 : ∀ x ∈ code.syndrome, 0 ≤ w x := fun x hx => (hw x hx).1.le
  have hlt := oddStabs_pairwise (stabGraph .rustworkx sp code) bits
  have hnn := h.edges_nonneg .rustworkx sp hw0
  have hzero : ∀ p, pathLength .rustworkx (weightedEdges (stabGraph .rustworkx sp code) w) p = 0 := by
    intro p
    unfold pathLength
    simp only
    rw [walkSum_cvs _ _ w (by simp [pyInt])]
    apply List.sum_eq_zero
    intro q hq
    obtain ⟨cv, hcv, rfl⟩ := List.mem_map.1 hq
    have hE : ∀ p : List SNode, cv ∈ pathCvs (stabGraph .rustworkx sp code).edges p → cv = none ∨
        ∃ x ∈ code.syndrome, cv = some x := by
      intro p
      induction p with
      | nil => simp [pathCvs]
      | cons a p ih =>
        cases p with
        | nil => simp [pathCvs]
        | cons b p =>
          intro hm
          simp only [pathCvs, List.mem_cons] at hm
          rcases hm with hm | hm
          · cases hg : PyDict.get? (stabGraph .rustworkx sp code).edges s(a, b) with
            | none => left; rw [hm, hg]; rfl
            | some c =>
              rw [hg, Option.getD_some] at hm
              subst hm
              cases cv with
              | none => exact Or.inl rfl
              | some x =>
                right
                have := PyDict.get?_mem hg
                rw [(h.stabGraph .rustworkx sp).1] at this
                exact ⟨x, (h.ok.1.edge_effect h.ok.2 sp this).1, rfl⟩
          · exact ih hm
    rcases hE p hcv with rfl | ⟨x, hx, rfl⟩
    · simp [cvWeight, pyInt]
    · obtain ⟨h1, h2⟩ := hw x hx
      have : ⌊w x⌋ = 0 := Int.floor_eq_zero_iff.2 ⟨h1.le, h2⟩
      simp [cvWeight, pyInt, h1.le, this]
  rw [h.matchGraph .rustworkx lib sp hw0 bits] at hG
  obtain rfl := Option.some.inj hG
  rintro ⟨e, q⟩ he
  rcases (mem_graphEdges hlt).1 he with ⟨a, b, ha, hb, hab, hed, hq'⟩ | ⟨k, hop, hk, hed, hq'⟩ |
    ⟨x, y, hop, hx, hy, hne, hed, hq'⟩
  · subst hq'
    refine ⟨hzero _, fun _ => ?_⟩
    have ha' := ((mem_oddStabs .rustworkx sp h).1 ha).1
    have hb' := ((mem_oddStabs .rustworkx sp h).1 hb).1
    have hwk := (h.realPath_spec .rustworkx lib sp hw0 ha' hb' (Nat.ne_of_lt hab)).2.1
    obtain ⟨c, l, hl, hac, _⟩ := isWalk_two (by intro e; have := SNode.stab.inj e; omega) hwk
    simp only
    rw [hl, walkWeight_cons]
    have hn := walkWeight_nonneg hnn (c :: l)
    have hk := mem_keys_withoutConnectors.1 hac
    rw [keys_weightedEdges, (h.stabGraph .rustworkx sp).1] at hk
    obtain ⟨⟨e', cv⟩, hm, he'⟩ := List.mem_map.1 hk.1
    simp only at he'
    subst he'
    have hwt := (h.edge_weight .rustworkx sp (w := w) hm).2
    cases cv with
    | none =>
      have := (edge_none sp hm).1
      exact absurd this (by simp [hk.2.1, hk.2.2])
    | some x =>
      have := (hw x (h.ok.1.edge_effect h.ok.2 sp hm).1).1
      rw [hwt]
      simp only [cvWeight]
      linarith
  · subst hq'
    refine ⟨?_, ?_⟩
    · simp only [boundLen, hzero, ite_self]
    · rintro ⟨k1, k2, e1⟩
      change e = _ at e1
      rw [hed] at e1
      rcases Sym2.eq_iff.1 e1 with ⟨_, e⟩ | ⟨_, e⟩ <;> simp [virtOf, virtNode] at e
  · subst hq'
    refine ⟨rfl, ?_⟩
    rintro ⟨k1, k2, e1⟩
    change e = _ at e1
    rw [hed] at e1
    obtain ⟨p, i, rfl⟩ := mem_virtuals hx
    rcases Sym2.eq_iff.1 e1 with ⟨e, _⟩ | ⟨e, _⟩ <;> cases e

/-! ### Concrete cases -/

-- shortest-path and matching routines with the assumed properties exist
example : Nonempty PathLib ∧ Nonempty MatchLib := ⟨pathLib_exists, matchLib_exists⟩

-- C35, C36: the distance-3 codes satisfy the condition on shared qubits, and a single error is below 3/2
example (ec : Ec) (b : Boundaries) : ∃ code, IsCode code ∧ code.ec = ec ∧ code.boundaries = b ∧
    (∀ i, boundsOf code.ec code.boundaries i = .periodic → 3 ≤ code.dims i) ∧
    ∃ bits, weight code bits = 1 ∧ ∀ i, 2 * weight code bits < code.dims i := by
  obtain ⟨code, hc, h1, h2, h3, hok⟩ := surfaceCode_ok idOrder ec b (dims := fun _ => 3) (fun _ => by norm_num) none
  have hI : IsCode code := ⟨_, _, _, _, _, fun _ => by norm_num, hc⟩
  obtain ⟨x, hx⟩ : ∃ x, x ∈ code.syndrome := by
    obtain ⟨i, hi⟩ : ∃ i, i ∈ planesToCheck code.ec code.boundaries := by
      cases code.ec <;> cases code.boundaries <;> exact ⟨_, List.mem_cons_self⟩
    obtain ⟨bits, _, _, hw⟩ := C33_exists hI hi
    have : 0 < code.syndrome.countP bits := by
      have e : code.dims i = 3 := by rw [h1]
      unfold weight at hw; omega
    obtain ⟨x, hx, _⟩ := List.countP_pos_iff.1 this
    exact ⟨x, hx⟩
  have hw : weight code (fun y => decide (y = x)) = 1 := by
    unfold weight
    have : code.syndrome.countP (fun y => decide (y = x)) = code.syndrome.count x := by
      rw [List.count]; congr 1
    rw [this]
    exact List.count_eq_one_of_mem (C25_only_syndrome hI).1 hx
  exact ⟨code, hI, h2, h3, fun i _ => by rw [h1], _, hw, fun i => by rw [hw, h1]; norm_num⟩

-- C35_counterexample: in the smallest periodic code two stabilizers share two qubits
example : (surfaceCode idOrder .primal .periodic (fun _ => 2) none).map
    (fun c => ((c.stabs.getD 0 []).filter fun x => decide (x ∈ c.stabs.getD 1 [])).length) = some 2 := by
  decide +kernel

end Flamingpy.SurfaceCode
