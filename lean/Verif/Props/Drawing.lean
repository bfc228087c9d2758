import Verif.Proofs.Drawing
import Verif.Proofs.Libs
import Verif.Props.UnionFind
import Verif.Props.Trial

/-!
# C80: drawing and decoding
-/

namespace Flamingpy.Viz

open Flamingpy Flamingpy.SurfaceCode Flamingpy.UnionFind Flamingpy.Trial

theorem drop_drop (G : StabGraph) : dropConnectors (dropConnectors G) = dropConnectors G := by
  unfold dropConnectors
  simp only [List.filter_filter, Bool.and_self]

theorem drop_of_closed {code : Code} (h : IsCode code) (hb : code.boundaries ≠ .open) (bk : Backend) (sp : SetPop) :
    (dropConnectors (stabGraph bk sp code)).edges = (stabGraph bk sp code).edges := by
  have hbp : code.boundPoints = [] := by
    rcases h.ok.1.bound_cases with h1 | h1
    · exact h1.2
    · exact absurd h1.1 hb
  unfold dropConnectors
  simp only
  refine List.filter_eq_self.2 fun e he => ?_
  rw [(h.stabGraph bk sp).1] at he
  rw [decide_eq_true_eq]
  rcases mem_codeEdges.1 he with ⟨p, hp, h1⟩ | ⟨p, hp, h1⟩ | ⟨i, j, hij, hj, hc, h1⟩ | ⟨k, p, hk, hp, hpk, h1⟩
  · rw [hbp] at hp; simp at hp
  · rw [hbp] at hp; simp at hp
  · rw [h1]; simp
  · rw [h1]; simp

/-- The matching only depends on edges, stabilizers and boundary points. -/
theorem matchGraph_congr {bk : Backend} {lib : PathLib} {SG SG' : StabGraph} (he : SG'.edges = SG.edges) (hs : SG'.stabs = SG.stabs)
    (hl : SG'.lowPts = SG.lowPts) (hh : SG'.highPts = SG.highPts) (w : V → ℚ) (bits : V → Bool) :
    matchGraph bk lib SG' w bits = matchGraph bk lib SG w bits := by
  unfold matchGraph weightedEdges oddStabs StabGraph.coords
  rw [he, hs, hl, hh]

theorem togglePath_congr {SG SG' : StabGraph} : ∀ (p : List SNode) (s : List (Option V)),
    (∀ a ∈ p, ∀ b ∈ p, PyDict.get? SG'.edges s(a, b) = PyDict.get? SG.edges s(a, b)) → togglePath SG' p s = togglePath SG p s
  | [], _, _ => rfl
  | [_], _, _ => rfl
  | a :: b :: l, s, h => by
    unfold togglePath sgEdgeData
    rw [h a (by simp) b (by simp)]
    refine Option.bind_congr fun cv _ => ?_
    exact togglePath_congr (b :: l) _ fun x hx y hy => h x (by simp [hx]) y (by simp [hy])

theorem recovery_congr {SG SG' : StabGraph} {G : MatchGraph}
    (h : ∀ e ∈ G.edges, ∀ a ∈ e.2.2, ∀ b ∈ e.2.2, PyDict.get? SG'.edges s(a, b) = PyDict.get? SG.edges s(a, b)) (M : List (MNode × MNode)) :
    matchingRecovery SG' G M = matchingRecovery SG G M := by
  unfold matchingRecovery
  congr 1
  funext s m
  split_ifs
  · rfl
  · refine Option.bind_congr fun e he => ?_
    exact togglePath_congr _ _ (h _ (PyDict.get?_mem he))

/-- A point next to a connector is a boundary point. -/
theorem boundPoint_mem {code : Code} (h : IsCode code) (bk : Backend) (lib : PathLib) (sp : SetPop) {w : V → ℚ}
    (hw : ∀ x ∈ code.syndrome, 0 ≤ w x) (ho : code.boundaries = .open) {k : ℕ} (hk : k < code.stabs.length) :
    ∃ p ∈ code.boundPoints, boundPoint bk lib (weightedEdges (stabGraph bk sp code) w) k = .pt p := by
  obtain ⟨c, d, l, p, e1, e2, hc, he, -⟩ := h.tail_spec bk lib sp hw ho hk
  refine ⟨p, ?_, ?_⟩
  · rw [(h.stabGraph bk sp).1] at he
    subst e2
    rcases mem_codeEdges.1 he with ⟨p', hp, h1⟩ | ⟨p', hp, h1⟩ | ⟨i, j, hij, hj, hc, h1⟩ | ⟨k, p, hk, hp, hpk, h1⟩
    · have h2 := (Prod.mk.inj h1).1
      rw [Sym2.eq_iff] at h2
      rcases h2 with ⟨-, h2⟩ | ⟨-, h2⟩
      · cases h2; exact List.mem_of_mem_take hp
      · cases h2
    · have h2 := (Prod.mk.inj h1).1
      rw [Sym2.eq_iff] at h2
      rcases h2 with ⟨-, h2⟩ | ⟨-, h2⟩
      · cases h2; exact List.mem_of_mem_drop hp
      · cases h2
    · cases (Prod.mk.inj h1).2
    · cases (Prod.mk.inj h1).2
  · unfold boundPoint
    rw [e1, ← e2]
    rfl

theorem nodes_eq {code : Code} (h : IsCode code) (bk : Backend) (sp : SetPop) : (stabGraph bk sp code).nodes =
    [SNode.low, .high] ++ (List.range code.stabs.length).map SNode.stab ++ code.boundPoints.map SNode.pt := by
  rw [stabGraph_eq bk sp code (h.ok.1.bound_nodup h.ok.2)]

theorem get?_zipIdx {α : Type} [DecidableEq α] {a : α} : ∀ {l : List α} (n : ℕ), a ∈ l → (PyDict.get? (l.zipIdx n) a).isSome
  | [], _, h => by cases h
  | b :: l, n, h => by
    rw [List.zipIdx_cons, PyDict.get?_cons]
    split_ifs with hb
    · rfl
    · refine get?_zipIdx (n + 1) ((List.mem_cons.1 h).resolve_left fun e => hb e.symm)

theorem mapM_isSome {α β : Type} {f : α → Option β} : ∀ {l : List α}, (∀ a ∈ l, (f a).isSome) → (l.mapM f).isSome
  | [], _ => rfl
  | a :: l, h => by
    obtain ⟨b, hb⟩ := Option.isSome_iff_exists.1 (h a (by simp))
    obtain ⟨c, hc⟩ := Option.isSome_iff_exists.1 (mapM_isSome fun x hx => h x (List.mem_cons_of_mem _ hx) : (l.mapM f).isSome)
    rw [List.mapM_cons, hb, Option.bind_eq_bind, Option.bind_some, hc]
    rfl

/-- The labels of the virtual nodes are found, on the graph of the code. -/
theorem labels_ok {code : Code} (h : IsCode code) (bk : Backend) (lib : PathLib) (sp : SetPop) {w : V → ℚ}
    (hw : ∀ x ∈ code.syndrome, 0 ≤ w x) (bits : V → Bool) {G : MatchGraph} (hG : matchGraph bk lib (stabGraph bk sp code) w bits = some G)
    {SG' : StabGraph} (hSG : SG' = stabGraph bk sp code ∨ code.boundaries ≠ .open ∧ SG' = dropConnectors (stabGraph bk sp code)) :
    (virtualLabels SG' (matchNodes G (oddStabs (stabGraph bk sp code) bits))).isSome := by
  unfold virtualLabels
  refine mapM_isSome fun n hn => ?_
  obtain ⟨hn, hf⟩ := List.mem_filter.1 hn
  have hn := (List.mem_filter.1 hn).1
  rw [List.mem_append] at hn
  cases n with
  | stab k =>
    exfalso
    simp only [decide_eq_true_eq] at hf
    rw [h.matchGraph bk lib sp hw] at hG
    obtain rfl := Option.some.inj hG
    rcases hn with hn | hn
    · obtain ⟨k', hk', e⟩ := List.mem_map.1 hn
      cases e
      have := ((mem_oddStabs bk sp h).1 hk').1
      have hm : SNode.stab k ∈ (stabGraph bk sp code).nodes := by rw [nodes_eq h]; simp [this]
      rcases hSG with rfl | ⟨-, rfl⟩
      · exact hf hm
      · exact hf (List.mem_filter.2 ⟨hm, rfl⟩)
    · obtain ⟨p, i, e⟩ := mem_virtuals hn
      cases e
  | virt p i =>
    rw [h.matchGraph bk lib sp hw] at hG
    obtain rfl := Option.some.inj hG
    rcases hn with hn | hn
    · obtain ⟨k', -, e⟩ := List.mem_map.1 hn
      cases e
    · unfold virtuals at hn
      split_ifs at hn with ho
      · rw [decide_eq_true_eq] at ho
        obtain ⟨⟨k, j⟩, he, e⟩ := List.mem_map.1 hn
        unfold virtNode at e
        have hk : k ∈ oddStabs (stabGraph bk sp code) bits := by
          have := List.fst_mem_of_mem_zipIdx he
          exact this
        obtain ⟨q, hq, hb⟩ := boundPoint_mem h bk lib sp hw ho ((mem_oddStabs bk sp h).1 hk).1
        rw [hb] at e
        cases e
        rcases hSG with rfl | ⟨hc, -⟩
        · rw [Option.isSome_map]
          unfold stabLabels
          refine get?_zipIdx 0 ?_
          rw [nodes_eq h]
          simp [hq]
        · exact absurd ho hc
      · cases hn

/-- Drawing does not change the result of the call, if the connectors are not needed. -/
theorem mwpmDraw_same {code : Code} (h : IsCode code) (bk : Backend) (lib : PathLib) (ml : MatchLib) (sp : SetPop) {w : V → ℚ}
    (hw : ∀ x ∈ code.syndrome, 0 ≤ w x) (bits : V → Bool) (labels : Bool) {SG' : StabGraph}
    (hSG : SG' = stabGraph bk sp code ∨ code.boundaries ≠ .open ∧ SG' = dropConnectors (stabGraph bk sp code))
    (hrec : ∀ G, matchGraph bk lib (stabGraph bk sp code) w bits = some G → ∀ e ∈ G.edges, ∀ a ∈ e.2.2, ∀ b ∈ e.2.2,
      PyDict.get? (afterDraw bk SG').edges s(a, b) = PyDict.get? (stabGraph bk sp code).edges s(a, b)) :
    mwpmDraw bk lib ml labels SG' w bits =
      (mwpmDecoder bk lib ml (stabGraph bk sp code) w bits).map fun r => (r, afterDraw bk SG') := by
  have he : SG'.edges = (stabGraph bk sp code).edges := by
    rcases hSG with rfl | ⟨hb, rfl⟩
    · rfl
    · exact drop_of_closed h hb bk sp
  have hrest : SG'.stabs = (stabGraph bk sp code).stabs ∧ SG'.lowPts = (stabGraph bk sp code).lowPts ∧
      SG'.highPts = (stabGraph bk sp code).highPts := by
    rcases hSG with rfl | ⟨hb, rfl⟩ <;> exact ⟨rfl, rfl, rfl⟩
  have hodd : oddStabs SG' bits = oddStabs (stabGraph bk sp code) bits := by
    unfold oddStabs StabGraph.coords
    rw [hrest.1]
  unfold mwpmDraw mwpmDecoder
  rw [matchGraph_congr he hrest.1 hrest.2.1 hrest.2.2]
  cases hG : matchGraph bk lib (stabGraph bk sp code) w bits with
  | none => rfl
  | some G =>
    simp only [Option.bind_eq_bind, Option.bind_some]
    rw [hodd, recovery_congr (hrec G hG)]
    obtain ⟨ls, hls⟩ := Option.isSome_iff_exists.1 (labels_ok h bk lib sp hw bits hG hSG)
    rw [hls]
    cases labels <;> simp <;> cases matchingRecovery (stabGraph bk sp code) G (perfectMatching ml G) <;> rfl

theorem decoder_drop {code : Code} (h : IsCode code) (hb : code.boundaries ≠ .open) (bk : Backend) (lib : PathLib) (ml : MatchLib) (sp : SetPop)
    (w : V → ℚ) (bits : V → Bool) :
    mwpmDecoder bk lib ml (dropConnectors (stabGraph bk sp code)) w bits = mwpmDecoder bk lib ml (stabGraph bk sp code) w bits := by
  unfold mwpmDecoder
  rw [matchGraph_congr (drop_of_closed h hb bk sp) rfl rfl rfl]
  refine Option.bind_congr fun G _ => ?_
  exact recovery_congr (fun _ _ _ _ _ _ => by rw [drop_of_closed h hb bk sp]) _

/-- C80 (partial).  With the rustworkx backend, or without open boundaries, or with Union-Find only, drawing does not interfere with decoding: any
calls with the same code, some of them drawn, return what each of them returns alone without drawing.

Missing: MWPM with the networkx backend and open boundaries, where this is false (`C80_networkx_open`). -/
theorem C80_sequence_partial {code : Code} (h : IsCode code) (X : Libs) (calls : List Call)
    (hw : ∀ c ∈ calls, c.name = "MWPM" → ∀ x ∈ code.syndrome, 0 ≤ c.w x)
    (hc : X.bk = .rustworkx ∨ code.boundaries ≠ .open ∨ ∀ c ∈ calls, c.name = "UF") :
    runCalls X code (stabGraph X.bk X.sp code) calls = calls.mapM fun c => decoderFunc X code c.name c.w c.bits := by
  have key : ∀ (calls : List Call) (SG' : StabGraph), (∀ c ∈ calls, c.name = "MWPM" → ∀ x ∈ code.syndrome, 0 ≤ c.w x) →
      (X.bk = .rustworkx ∨ code.boundaries ≠ .open ∨ ∀ c ∈ calls, c.name = "UF") →
      (SG' = stabGraph X.bk X.sp code ∨ X.bk = .networkx ∧ SG' = dropConnectors (stabGraph X.bk X.sp code)) →
      runCalls X code SG' calls = calls.mapM fun c => decoderFunc X code c.name c.w c.bits := by
    intro calls
    induction calls with
    | nil => intros; rfl
    | cons c calls ih =>
      intro SG' hw hc hSG
      have hafter : afterDraw X.bk SG' = stabGraph X.bk X.sp code ∨
          X.bk = .networkx ∧ afterDraw X.bk SG' = dropConnectors (stabGraph X.bk X.sp code) := by
        unfold afterDraw
        cases hbk : X.bk with
        | networkx =>
          right
          refine ⟨rfl, ?_⟩
          rw [hbk] at hSG
          rcases hSG with rfl | ⟨-, rfl⟩
          · rfl
          · exact drop_drop _
        | rustworkx =>
          left
          rw [hbk] at hSG
          rcases hSG with rfl | ⟨h1, -⟩
          · rfl
          · cases h1
      have step : ∃ SG'', (SG'' = stabGraph X.bk X.sp code ∨ X.bk = .networkx ∧ SG'' = dropConnectors (stabGraph X.bk X.sp code)) ∧
          decodeCall X code SG' c = (decoderFunc X code c.name c.w c.bits).map fun r => (r, SG'') := by
        unfold decodeCall decoderFunc
        simp only
        by_cases hm : c.name = "MWPM"
        · rw [if_pos hm, if_pos hm]
          have hnu : ¬ ∀ c' ∈ c :: calls, c'.name = "UF" := fun hu => by
            have := hu c (by simp)
            rw [hm] at this
            exact absurd this (by decide)
          have hcl : X.bk = .rustworkx ∨ code.boundaries ≠ .open := by
            rcases hc with h1 | h1 | h1
            · exact Or.inl h1
            · exact Or.inr h1
            · exact absurd h1 hnu
          have hSG2 : SG' = stabGraph X.bk X.sp code ∨ code.boundaries ≠ .open ∧ SG' = dropConnectors (stabGraph X.bk X.sp code) := by
            rcases hSG with h1 | ⟨h1, h2⟩
            · exact Or.inl h1
            · rcases hcl with h3 | h3
              · rw [h1] at h3; cases h3
              · exact Or.inr ⟨h3, h2⟩
          cases c.draw with
          | true =>
            refine ⟨afterDraw X.bk SG', hafter, ?_⟩
            rw [if_pos rfl]
            refine mwpmDraw_same h X.bk X.paths X.matching X.sp (hw c (by simp) hm) c.bits c.labels hSG2 fun G hG e he a ha b hb => ?_
            rcases hafter with h1 | ⟨h1, h2⟩
            · rw [h1]
            · rcases hcl with h3 | h3
              · rw [h1] at h3; cases h3
              · rw [h2, drop_of_closed h h3]
          | false =>
            refine ⟨SG', hSG, ?_⟩
            rw [if_neg (by decide)]
            rcases hSG2 with rfl | ⟨h1, rfl⟩
            · rfl
            · rw [decoder_drop h h1]
        · rw [if_neg hm, if_neg hm]
          by_cases hu : c.name = "UF"
          · rw [if_pos hu, if_pos hu]
            have huf : ufDecoder X.comps X.span X.iter (2 * (stabGraph X.bk X.sp code).edges.length + 1) SG' c.w c.bits =
                ufDecoder X.comps X.span X.iter (2 * (stabGraph X.bk X.sp code).edges.length + 1) (stabGraph X.bk X.sp code) c.w c.bits := by
              rcases hSG with rfl | ⟨-, rfl⟩
              · rfl
              · exact ufDecoder_drop X.comps X.span X.iter _ h X.bk X.sp c.w c.bits
            cases c.draw with
            | true =>
              refine ⟨afterDraw X.bk SG', hafter, ?_⟩
              rw [if_pos rfl]
              unfold ufDraw
              rw [huf]
              cases ufDecoder X.comps X.span X.iter (2 * (stabGraph X.bk X.sp code).edges.length + 1) (stabGraph X.bk X.sp code) c.w c.bits <;> rfl
            | false =>
              refine ⟨SG', hSG, ?_⟩
              rw [if_neg (by decide), huf]
          · rw [if_neg hu, if_neg hu]
            exact ⟨SG', hSG, rfl⟩
      obtain ⟨SG'', hSG'', hstep⟩ := step
      unfold runCalls
      rw [hstep, List.mapM_cons]
      cases hd : decoderFunc X code c.name c.w c.bits with
      | none => rfl
      | some r =>
        simp only [Option.map_some, Option.bind_eq_bind, Option.bind_some]
        rw [ih SG'' (fun c' hc' => hw c' (by simp [hc'])) (by
          rcases hc with h1 | h1 | h1
          · exact Or.inl h1
          · exact Or.inr (Or.inl h1)
          · exact Or.inr (Or.inr fun c' hc' => h1 c' (by simp [hc']))) hSG'']
  exact key calls _ hw hc (Or.inl rfl)

/-- Without connectors there is no path from them. -/
theorem matchGraph_drop {code : Code} (h : IsCode code) (ho : code.boundaries = .open) (bk : Backend) (lib : PathLib) (sp : SetPop)
    {w : V → ℚ} (hw : ∀ x ∈ code.syndrome, 0 ≤ w x) {bits : V → Bool} (hodd : ∃ s ∈ code.stabs, parity bits s = true) :
    matchGraph bk lib (dropConnectors (stabGraph bk sp code)) w bits = none := by
  have hne : oddStabs (stabGraph bk sp code) bits ≠ [] := by
    obtain ⟨s, hs, hp⟩ := hodd
    obtain ⟨k, hk, rfl⟩ := List.getElem_of_mem hs
    refine List.ne_nil_of_mem (a := k) ((mem_oddStabs bk sp h).2 ⟨hk, ?_⟩)
    rw [List.getD_eq_getElem?_getD, List.getElem?_eq_getElem hk]
    exact hp
  have hodd' : oddStabs (dropConnectors (stabGraph bk sp code)) bits = oddStabs (stabGraph bk sp code) bits := rfl
  unfold matchGraph
  simp only [hodd']
  rw [if_neg hne, Option.bind_eq_bind, Option.bind_eq_none_iff]
  intro G _
  have hpts : (dropConnectors (stabGraph bk sp code)).lowPts ≠ [] ∨ (dropConnectors (stabGraph bk sp code)).highPts ≠ [] :=
    (h.op_iff bk sp).2 (by simpa using ho)
  rw [if_pos hpts]
  unfold virtualEdges
  rw [Option.bind_eq_bind, Option.bind_eq_none_iff]
  intro G' hG'
  exfalso
  cases hl : oddStabs (stabGraph bk sp code) bits with
  | nil => exact hne hl
  | cons k odd =>
    rw [hl, List.zipIdx_cons, List.foldlM_cons, Option.bind_eq_bind, Option.bind_eq_some_iff] at hG'
    obtain ⟨G1, h1, -⟩ := hG'
    unfold virtualStep at h1
    rw [Option.bind_eq_bind, Option.bind_eq_some_iff] at h1
    obtain ⟨p, hp, -⟩ := h1
    have hE : ∀ e ∈ weightedEdges (dropConnectors (stabGraph bk sp code)) w, 0 ≤ e.2 := fun e he => by
      rw [drop_weighted] at he
      exact h.edges_nonneg bk sp hw e (List.mem_of_mem_filter he)
    obtain ⟨hwalk, -⟩ := lib.sound _ _ _ _ hE (by simp) hp
    obtain ⟨c, l, -, hk, -⟩ := isWalk_two (by simp) hwalk
    rw [keys_drop] at hk
    have := real_not_conn hk (n := .low) (by simp)
    cases this

/-- C80, the refutation.  With the networkx backend and open boundaries, once a call has been drawn, every later call of MWPM with a non-trivial
syndrome raises, although it would succeed without the drawing. -/
theorem C80_networkx_open {code : Code} (h : IsCode code) (ho : code.boundaries = .open) (X : Libs) (hX : X.bk = .networkx)
    (pre mid : List Call) (c₀ c : Call) (hd : c₀.draw = true) (hn : c.name = "MWPM") (hw : ∀ x ∈ code.syndrome, 0 ≤ c.w x)
    (hodd : ∃ s ∈ code.stabs, parity c.bits s = true) :
    runCalls X code (stabGraph X.bk X.sp code) (pre ++ c₀ :: mid ++ [c]) = none ∧ (decoderFunc X code c.name c.w c.bits).isSome := by
  constructor
  · -- the graph stays without connectors
    have hstep : ∀ (SG' : StabGraph) (c' : Call) r SG'', SG' = dropConnectors (stabGraph X.bk X.sp code) →
        decodeCall X code SG' c' = some (r, SG'') → SG'' = dropConnectors (stabGraph X.bk X.sp code) := by
      intro SG' c' r SG'' hSG hc
      unfold decodeCall at hc
      simp only at hc
      have haf : afterDraw X.bk SG' = dropConnectors (stabGraph X.bk X.sp code) := by
        rw [hSG]
        unfold afterDraw
        rw [hX]
        exact drop_drop _
      split_ifs at hc
      · unfold mwpmDraw at hc
        obtain ⟨G, -, hc⟩ := Option.bind_eq_some_iff.1 hc
        cases hl : c'.labels <;> rw [hl] at hc
        · obtain ⟨r', -, hc⟩ := Option.bind_eq_some_iff.1 hc
          cases hc
          exact haf
        · obtain ⟨ls, -, hc⟩ := Option.bind_eq_some_iff.1 hc
          obtain ⟨r', -, hc⟩ := Option.bind_eq_some_iff.1 hc
          cases hc
          exact haf
      · obtain ⟨r', -, hc⟩ := Option.map_eq_some_iff.1 hc
        cases hc
        exact hSG
      · unfold ufDraw at hc
        obtain ⟨r', -, hc⟩ := Option.bind_eq_some_iff.1 hc
        cases hc
        exact haf
      · obtain ⟨r', -, hc⟩ := Option.map_eq_some_iff.1 hc
        cases hc
        exact hSG
    have hdrawn : ∀ (SG' : StabGraph) r SG'', (SG' = stabGraph X.bk X.sp code ∨ SG' = dropConnectors (stabGraph X.bk X.sp code)) →
        decodeCall X code SG' c₀ = some (r, SG'') → SG'' = dropConnectors (stabGraph X.bk X.sp code) := by
      intro SG' r SG'' hSG hc
      unfold decodeCall at hc
      simp only [hd, if_true] at hc
      have haf : afterDraw X.bk SG' = dropConnectors (stabGraph X.bk X.sp code) := by
        unfold afterDraw
        rw [hX] at hSG ⊢
        rcases hSG with rfl | rfl
        · rfl
        · exact drop_drop _
      split_ifs at hc
      · unfold mwpmDraw at hc
        obtain ⟨G, -, hc⟩ := Option.bind_eq_some_iff.1 hc
        cases hl : c₀.labels <;> rw [hl] at hc
        · obtain ⟨r', -, hc⟩ := Option.bind_eq_some_iff.1 hc
          cases hc
          exact haf
        · obtain ⟨ls, -, hc⟩ := Option.bind_eq_some_iff.1 hc
          obtain ⟨r', -, hc⟩ := Option.bind_eq_some_iff.1 hc
          cases hc
          exact haf
      · unfold ufDraw at hc
        obtain ⟨r', -, hc⟩ := Option.bind_eq_some_iff.1 hc
        cases hc
        exact haf
    have hany : ∀ (SG' : StabGraph) (c' : Call) r SG'', (SG' = stabGraph X.bk X.sp code ∨ SG' = dropConnectors (stabGraph X.bk X.sp code)) →
        decodeCall X code SG' c' = some (r, SG'') → SG'' = stabGraph X.bk X.sp code ∨ SG'' = dropConnectors (stabGraph X.bk X.sp code) := by
      intro SG' c' r SG'' hSG hc
      have haf : afterDraw X.bk SG' = dropConnectors (stabGraph X.bk X.sp code) := by
        unfold afterDraw
        rw [hX] at hSG ⊢
        rcases hSG with rfl | rfl
        · rfl
        · exact drop_drop _
      unfold decodeCall at hc
      simp only at hc
      split_ifs at hc
      · unfold mwpmDraw at hc
        obtain ⟨G, -, hc⟩ := Option.bind_eq_some_iff.1 hc
        cases hl : c'.labels <;> rw [hl] at hc
        · obtain ⟨r', -, hc⟩ := Option.bind_eq_some_iff.1 hc
          cases hc
          exact Or.inr haf
        · obtain ⟨ls, -, hc⟩ := Option.bind_eq_some_iff.1 hc
          obtain ⟨r', -, hc⟩ := Option.bind_eq_some_iff.1 hc
          cases hc
          exact Or.inr haf
      · obtain ⟨r', -, hc⟩ := Option.map_eq_some_iff.1 hc
        cases hc
        exact hSG
      · unfold ufDraw at hc
        obtain ⟨r', -, hc⟩ := Option.bind_eq_some_iff.1 hc
        cases hc
        exact Or.inr haf
      · obtain ⟨r', -, hc⟩ := Option.map_eq_some_iff.1 hc
        cases hc
        exact hSG
    have hlast : decodeCall X code (dropConnectors (stabGraph X.bk X.sp code)) c = none := by
      unfold decodeCall
      simp only [hn, if_true]
      have hG := matchGraph_drop h ho X.bk X.paths X.sp hw hodd
      split_ifs
      · unfold mwpmDraw; rw [hG]; rfl
      · unfold mwpmDecoder; rw [hG]; rfl
    have hmid : ∀ mid : List Call, runCalls X code (dropConnectors (stabGraph X.bk X.sp code)) (mid ++ [c]) = none := by
      intro mid
      induction mid with
      | nil =>
        rw [List.nil_append]
        unfold runCalls
        rw [hlast]
        rfl
      | cons c' mid ih =>
        rw [List.cons_append]
        unfold runCalls
        cases hc' : decodeCall X code (dropConnectors (stabGraph X.bk X.sp code)) c' with
        | none => rfl
        | some r =>
          obtain ⟨r, SG''⟩ := r
          rw [hstep _ _ _ _ rfl hc']
          simp only [Option.bind_eq_bind, Option.bind_some]
          rw [ih]
          rfl
    have hpre : ∀ (pre : List Call) (SG' : StabGraph), (SG' = stabGraph X.bk X.sp code ∨ SG' = dropConnectors (stabGraph X.bk X.sp code)) →
        runCalls X code SG' (pre ++ c₀ :: mid ++ [c]) = none := by
      intro pre
      induction pre with
      | nil =>
        intro SG' hSG
        rw [List.nil_append, List.cons_append]
        unfold runCalls
        cases hc' : decodeCall X code SG' c₀ with
        | none => rfl
        | some r =>
          obtain ⟨r, SG''⟩ := r
          rw [hdrawn _ _ _ hSG hc']
          simp only [Option.bind_eq_bind, Option.bind_some]
          rw [hmid]
          rfl
      | cons c' pre ih =>
        intro SG' hSG
        rw [List.cons_append, List.cons_append]
        unfold runCalls
        cases hc' : decodeCall X code SG' c' with
        | none => rfl
        | some r =>
          obtain ⟨r, SG''⟩ := r
          simp only [Option.bind_eq_bind, Option.bind_some]
          rw [ih _ (hany _ _ _ _ hSG hc')]
          rfl
    exact hpre pre _ (Or.inl rfl)
  · unfold decoderFunc
    simp only [hn, if_true]
    obtain ⟨R, -, hR, -⟩ := C34_clears h X.bk X.paths X.matching X.sp c.w hw c.bits
    rw [hR]
    rfl

/-! ### The drawn call itself -/

theorem walkWeight_cons {α : Type} [DecidableEq α] {E : List (Sym2 α × ℚ)} (hE : ∀ e ∈ E, 0 ≤ e.2) (a : α) (l : List α) :
    walkWeight E l ≤ walkWeight E (a :: l) := by
  cases l with
  | nil => exact le_refl _
  | cons b l =>
    have : 0 ≤ (PyDict.get? E s(a, b)).getD 0 := by
      cases hg : PyDict.get? E s(a, b) with
      | none => exact le_refl _
      | some q => exact hE _ (PyDict.get?_mem hg)
    show walkSum id E (b :: l) ≤ id _ + walkSum id E (b :: l)
    simp only [id]
    linarith

theorem walkWeight_suffix {α : Type} [DecidableEq α] {E : List (Sym2 α × ℚ)} (hE : ∀ e ∈ E, 0 ≤ e.2) (l : List α) :
    ∀ l' : List α, walkWeight E l ≤ walkWeight E (l' ++ l)
  | [] => le_refl _
  | a :: l' => (walkWeight_suffix hE l l').trans (walkWeight_cons hE a _)

theorem isWalk_suffix {α : Type} {E : List (Sym2 α × ℚ)} {s t c : α} {l l' : List α} (h : IsWalk E s t (l' ++ c :: l)) : IsWalk E c t (c :: l) := by
  obtain ⟨-, h2, h3⟩ := h
  refine ⟨rfl, ?_, (List.isChain_append.1 h3).2.1⟩
  rw [← h2, List.getLast?_append_cons]

/-- A walk that visits a node twice can be shortened. -/
theorem walk_cut {α : Type} [DecidableEq α] {E : List (Sym2 α × ℚ)} (hE : ∀ e ∈ E, 0 ≤ e.2) {t : α} : ∀ {p : List α} {s : α}, IsWalk E s t p →
    ¬ p.Nodup → ∃ p', IsWalk E s t p' ∧ p'.length < p.length ∧ walkWeight E p' ≤ walkWeight E p
  | [], s, h, hn => absurd List.nodup_nil hn
  | a :: l, s, h, hn => by
    obtain rfl : a = s := by simpa [IsWalk] using h.1
    by_cases ha : a ∈ l
    · obtain ⟨l1, l2, rfl⟩ := List.append_of_mem ha
      have hw : IsWalk E a t (a :: l2) := isWalk_suffix (l' := a :: l1) h
      refine ⟨a :: l2, hw, by simp, ?_⟩
      exact walkWeight_suffix hE _ (a :: l1)
    · have hn' : ¬ l.Nodup := fun hl => hn (List.nodup_cons.2 ⟨ha, hl⟩)
      cases l with
      | nil => exact absurd List.nodup_nil hn'
      | cons b l =>
        have hab : s(a, b) ∈ PyDict.keys E := (List.isChain_cons_cons.1 h.2.2).1
        obtain ⟨p', hp', hlen, hwt⟩ := walk_cut hE (isWalk_suffix (l' := [a]) h) hn'
        obtain ⟨c, p'', rfl⟩ : ∃ c p'', p' = c :: p'' := by
          cases p' with
          | nil => simp [IsWalk] at hp'
          | cons c p'' => exact ⟨c, p'', rfl⟩
        obtain rfl : c = b := by simpa [IsWalk] using hp'.1
        refine ⟨a :: c :: p'', ⟨rfl, ?_, List.isChain_cons_cons.2 ⟨hab, hp'.2.2⟩⟩, by simpa using hlen, ?_⟩
        · rw [List.getLast?_cons_cons]; exact hp'.2.1
        · show id _ + walkSum id E (c :: p'') ≤ id _ + walkSum id E (c :: l)
          have : walkSum id E (c :: p'') ≤ walkSum id E (c :: l) := hwt
          linarith

/-- There are shortest-path routines that return simple paths (Dijkstra's algorithm does). -/
def SimplePaths (lib : PathLib) : Prop := ∀ E s t p, (∀ e ∈ E, 0 ≤ e.2) → s ≠ t → lib.find E s t = some p → p.Nodup

theorem simplePaths_exist : ∃ lib : PathLib, SimplePaths lib := by
  classical
  have hex : ∀ (E : List (Sym2 SNode × ℚ)) s t, (∀ e ∈ E, 0 ≤ e.2) → (∃ p, IsWalk E s t p) → ∃ p, IsWalk E s t p ∧
      (∀ p', IsWalk E s t p' → walkWeight E p ≤ walkWeight E p') ∧ p.Nodup := by
    intro E s t hE hp
    have h1 : ∃ n, ∃ p, p.length = n ∧ IsWalk E s t p ∧ ∀ p', IsWalk E s t p' → walkWeight E p ≤ walkWeight E p' := by
      obtain ⟨p, hp⟩ := shortest_exists E hE s t hp
      exact ⟨_, p, rfl, hp⟩
    obtain ⟨p, hl, hw, hmin⟩ := Nat.find_spec h1
    refine ⟨p, hw, hmin, ?_⟩
    by_contra hn
    obtain ⟨p', hp', hlt, hle⟩ := walk_cut hE hw hn
    have := Nat.find_min' h1 ⟨p', rfl, hp', fun q hq => hle.trans (hmin q hq)⟩
    omega
  refine ⟨⟨fun E s t => if h : (∀ e ∈ E, 0 ≤ e.2) ∧ ∃ p, IsWalk E s t p then some (Classical.choose (hex E s t h.1 h.2)) else none, ?_, ?_⟩, ?_⟩
  · intro E s t p hE _ hf
    split_ifs at hf with hc
    obtain rfl := Option.some.inj hf
    exact ⟨(Classical.choose_spec (hex E s t hc.1 hc.2)).1, (Classical.choose_spec (hex E s t hc.1 hc.2)).2.1⟩
  · intro E s t hE _ hf p hp
    split_ifs at hf with hc
    exact hc ⟨hE, p, hp⟩
  · intro E s t p hE _ hf
    simp only at hf
    split_ifs at hf with hc
    obtain rfl := Option.some.inj hf
    exact (Classical.choose_spec (hex E s t hc.1 hc.2)).2.2

theorem isConn_cases {n : SNode} (h : isConn n = true) : n = .low ∨ n = .high := by
  cases n <;> simp [isConn] at h ⊢

/-- With positive weights the path of a virtual edge does not use the other connector. -/
theorem tail_real {code : Code} (h : IsCode code) (lib : PathLib) (hs : SimplePaths lib) (sp : SetPop) {w : V → ℚ}
    (hw : ∀ x ∈ code.syndrome, 0 < w x) (ho : code.boundaries = .open) {k : ℕ} (hk : k < code.stabs.length) :
    ∀ a ∈ (fullPath .networkx lib (weightedEdges (stabGraph .networkx sp code) w) k).tail, isConn a = false := by
  have hw0 : ∀ x ∈ code.syndrome, 0 ≤ w x := fun x hx => (hw x hx).le
  have hE := h.edges_nonneg .networkx sp hw0
  obtain ⟨hl1, hl2, hl3⟩ := h.lowPath_spec .networkx lib sp hw0 ho hk
  obtain ⟨hh1, hh2, hh3⟩ := h.highPath_spec .networkx lib sp hw0 ho hk
  have hkeys : ∀ e, e ∈ PyDict.keys (weightedEdges (stabGraph .networkx sp code) w) ↔ e ∈ PyDict.keys (codeEdges sp code) := fun e => by
    rw [keys_weightedEdges, (h.stabGraph .networkx sp).1]
  set E := weightedEdges (stabGraph .networkx sp code) w with hEdef
  -- a simple shortest path from a connector through the other connector is longer than the path from the other one
  have key : ∀ c c' : SNode, isConn c = true → isConn c' = true → ∀ p q : List SNode, IsWalk E c (.stab k) p → p.Nodup →
      (∀ q', IsWalk E c' (.stab k) q' → walkWeight E q ≤ walkWeight E q') → c' ∈ p.tail → walkWeight E q < walkWeight E p := by
    intro c c' hc hc' p q hp hnd hq hmem
    have hcs : c ≠ .stab k := fun e => by rw [e] at hc; cases hc
    obtain ⟨d, l, rfl, hcd, hdl⟩ := isWalk_two hcs hp
    rw [List.tail_cons] at hmem
    have hcc : c ≠ c' := fun e => (List.nodup_cons.1 hnd).1 (e ▸ hmem)
    obtain ⟨x, rfl, hx⟩ := conn_neighbor (sp := sp) (code := code) (isConn_cases hc) ((hkeys _).1 hcd)
    have hmem' : c' ∈ l := (List.mem_cons.1 hmem).resolve_left fun e => by rw [e] at hc'; cases hc'
    cases l with
    | nil => cases hmem'
    | cons e l =>
      have hde : s(.pt x, e) ∈ PyDict.keys E := (List.isChain_cons_cons.1 hdl.2.2).1
      have hpos : 0 < (PyDict.get? E s(.pt x, e)).getD 0 := by
        rw [hEdef, get?_weightedEdges, (h.stabGraph .networkx sp).1]
        obtain ⟨cv, hcv⟩ := Option.isSome_iff_exists.1 ((PyDict.get?_isSome_iff _ _).2 ((hkeys _).1 hde))
        rw [hcv]
        have hm := PyDict.get?_mem hcv
        cases cv with
        | some y =>
          exact hw y (h.ok.1.edge_effect h.ok.2 sp hm).1
        | none =>
          exfalso
          -- then `e` is the other connector, and `x` is on both sides
          have hec : e ≠ c := fun e1 => (List.nodup_cons.1 hnd).1 (by simp [e1])
          have hnd := h.ok.1.bound_nodup h.ok.2
          have hdis : ∀ y, y ∈ code.boundPoints.take (code.boundPoints.length / 2) →
              y ∈ code.boundPoints.drop (code.boundPoints.length / 2) → False := fun y h1 h2 => by
            rw [← List.take_append_drop (code.boundPoints.length / 2) code.boundPoints, List.nodup_append] at hnd
            exact hnd.2.2 y h1 y h2 rfl
          have hside : ∀ c'', (s(c'', SNode.pt x), (none : Option V)) ∈ codeEdges sp code →
              (c'' = .low ∧ x ∈ code.boundPoints.take (code.boundPoints.length / 2)) ∨
              (c'' = .high ∧ x ∈ code.boundPoints.drop (code.boundPoints.length / 2)) := by
            intro c'' hm
            rcases mem_codeEdges.1 hm with ⟨p', hp, h1⟩ | ⟨p', hp, h1⟩ | ⟨i, j, hij, hj, hc, h1⟩ | ⟨k, p, hk, hp, hpk, h1⟩
            · have h2 := (Prod.mk.inj h1).1
              rw [Sym2.eq_iff] at h2
              rcases h2 with ⟨h3, h2⟩ | ⟨-, h2⟩
              · cases h2; exact Or.inl ⟨h3, hp⟩
              · cases h2
            · have h2 := (Prod.mk.inj h1).1
              rw [Sym2.eq_iff] at h2
              rcases h2 with ⟨h3, h2⟩ | ⟨-, h2⟩
              · cases h2; exact Or.inr ⟨h3, hp⟩
              · cases h2
            · cases (Prod.mk.inj h1).2
            · cases (Prod.mk.inj h1).2
          rw [Sym2.eq_swap] at hm
          rcases hside c hx with ⟨h1, h2⟩ | ⟨h1, h2⟩ <;> rcases hside e hm with ⟨h3, h4⟩ | ⟨h3, h4⟩
          · exact hec (h3.trans h1.symm)
          · exact hdis x h2 h4
          · exact hdis x h4 h2
          · exact hec (h3.trans h1.symm)
      obtain ⟨l1, l2, hl⟩ := List.append_of_mem hmem'
      have hsuf : IsWalk E c' (.stab k) (c' :: l2) := isWalk_suffix (l' := c :: .pt x :: l1) (by rw [List.cons_append, List.cons_append, ← hl]; exact hp)
      have h1 := hq _ hsuf
      have h2 : walkWeight E (c' :: l2) ≤ walkWeight E (e :: l) := by
        rw [hl]; exact walkWeight_suffix hE _ l1
      have h3 : walkWeight E (.pt x :: e :: l) = (PyDict.get? E s(.pt x, e)).getD 0 + walkWeight E (e :: l) := rfl
      have h4 := walkWeight_cons hE c (.pt x :: e :: l)
      linarith
  intro a ha
  by_contra hconn
  rw [Bool.not_eq_false] at hconn
  have hlowS := hs _ _ _ _ hE (by simp) hl1
  have hhighS := hs _ _ _ _ hE (by simp) hh1
  unfold fullPath at ha
  by_cases hcmp : pathLength .networkx E (lowPath lib E k) ≤ pathLength .networkx E (highPath lib E k)
  · rw [if_pos hcmp] at ha
    have hcmp' : walkWeight E (lowPath lib E k) ≤ walkWeight E (highPath lib E k) := hcmp
    rcases isConn_cases hconn with rfl | rfl
    · -- the start again
      obtain ⟨d, l, e1, -, -⟩ := isWalk_two (by simp) hl2
      rw [e1] at ha hlowS
      exact (List.nodup_cons.1 hlowS).1 ha
    · have := key .low .high rfl rfl _ _ hl2 hlowS hh3 ha
      linarith
  · rw [if_neg hcmp] at ha
    have hcmp' : ¬ walkWeight E (lowPath lib E k) ≤ walkWeight E (highPath lib E k) := hcmp
    rcases isConn_cases hconn with rfl | rfl
    · have := key .high .low rfl rfl _ _ hh2 hhighS hl3 ha
      linarith
    · obtain ⟨d, l, e1, -, -⟩ := isWalk_two (by simp) hh2
      rw [e1] at ha hhighS
      exact (List.nodup_cons.1 hhighS).1 ha

theorem chain_mem {α : Type} {E : List (Sym2 α × ℚ)} : ∀ {p : List α}, p.IsChain (fun a b => s(a, b) ∈ PyDict.keys E) → 2 ≤ p.length →
    ∀ a ∈ p, ∃ e ∈ PyDict.keys E, a ∈ e
  | [], _, _, a, ha => by cases ha
  | [b], _, h2, a, ha => by simp at h2
  | [b, c], h, _, a, ha => by
    refine ⟨s(b, c), (List.isChain_cons_cons.1 h).1, ?_⟩
    simpa using ha
  | b :: c :: d :: l, h, _, a, ha => by
    rcases List.mem_cons.1 ha with rfl | ha
    · exact ⟨s(a, c), (List.isChain_cons_cons.1 h).1, by simp⟩
    · exact chain_mem (List.isChain_cons_cons.1 h).2 (by simp) a ha

/-- C80.  The first drawn call of MWPM itself is not affected, for positive weights and shortest paths without repetitions; it leaves the graph without
the connectors. -/
theorem C80_first_call {code : Code} (h : IsCode code) (X : Libs) (hs : SimplePaths X.paths) (c : Call) (hn : c.name = "MWPM") (hd : c.draw = true)
    (hw : ∀ x ∈ code.syndrome, 0 < c.w x) :
    decodeCall X code (stabGraph X.bk X.sp code) c =
      (decoderFunc X code c.name c.w c.bits).map fun r => (r, afterDraw X.bk (stabGraph X.bk X.sp code)) := by
  have hw0 : ∀ x ∈ code.syndrome, 0 ≤ c.w x := fun x hx => (hw x hx).le
  unfold decodeCall decoderFunc
  simp only [hn, hd, if_true]
  refine mwpmDraw_same h X.bk X.paths X.matching X.sp hw0 c.bits c.labels (Or.inl rfl) fun G hG => ?_
  unfold afterDraw
  cases hbk : X.bk with
  | rustworkx => intros; rfl
  | networkx =>
    rw [hbk] at hG
    rw [h.matchGraph .networkx X.paths X.sp hw0] at hG
    obtain rfl := Option.some.inj hG
    have hreal : ∀ e ∈ graphEdges .networkx X.paths (weightedEdges (stabGraph .networkx X.sp code) c.w) (decide (code.boundaries = .open))
        (oddStabs (stabGraph .networkx X.sp code) c.bits), ∀ a ∈ e.2.2, isConn a = false := by
      intro e he a ha
      unfold graphEdges at he
      rw [List.mem_append] at he
      rcases he with he | he
      · obtain ⟨⟨i, j⟩, hij, rfl⟩ := List.mem_map.1 he
        have hp := (combinations2_of_lt (oddStabs_pairwise (stabGraph .networkx X.sp code) c.bits) i j).1 hij
        have hi := ((mem_oddStabs .networkx X.sp h).1 hp.1).1
        have hj := ((mem_oddStabs .networkx X.sp h).1 hp.2.1).1
        obtain ⟨-, hwalk, -⟩ := h.realPath_spec .networkx X.paths X.sp hw0 hi hj (ne_of_lt hp.2.2)
        simp only [realEntry] at ha
        obtain ⟨d, l, e1, -, -⟩ := isWalk_two (fun e => ne_of_lt hp.2.2 (by simpa using e)) hwalk
        obtain ⟨e, he, hae⟩ := chain_mem hwalk.2.2 (by rw [e1]; simp) a ha
        have := (mem_keys_withoutConnectors.1 he).2
        cases a with
        | low => exact absurd hae this.1
        | high => exact absurd hae this.2
        | stab k => rfl
        | pt p => rfl
      · split_ifs at he with ho
        · rw [decide_eq_true_eq] at ho
          rw [List.mem_append] at he
          rcases he with he | he
          · obtain ⟨⟨i, j⟩, hij, rfl⟩ := List.mem_map.1 he
            have hk := ((mem_oddStabs .networkx X.sp h).1 (List.fst_mem_of_mem_zipIdx hij)).1
            exact tail_real h X.paths hs X.sp hw ho hk a ha
          · obtain ⟨p, -, rfl⟩ := List.mem_map.1 he
            simp [zeroEntry] at ha
        · cases he
    intro e he a ha b hb
    have h1 := hreal e he a ha
    have h2 := hreal e he b hb
    unfold dropConnectors
    simp only
    refine get?_filter_key (fun e => decide (SNode.low ∉ e ∧ SNode.high ∉ e)) _ ?_
    rw [decide_eq_true_eq, Sym2.mem_iff, Sym2.mem_iff]
    constructor <;> rintro (rfl | rfl) <;> first | cases h1 | cases h2

/-! ### Concrete cases -/

-- the refutation applies: a code with open boundaries, one drawn call, and a second one with an odd stabilizer
example : ∃ (code : Code) (X : Libs) (c : Call), IsCode code ∧ code.boundaries = .open ∧ X.bk = .networkx ∧ c.name = "MWPM" ∧ c.draw = true ∧
    (∀ x ∈ code.syndrome, 0 < c.w x) ∧ SimplePaths X.paths ∧ (∃ s ∈ code.stabs, parity c.bits s = true) ∧
    (runCalls X code (stabGraph X.bk X.sp code) [c]).isSome ∧ runCalls X code (stabGraph X.bk X.sp code) [c, c] = none := by
  obtain ⟨X, hX⟩ := libs_exist .networkx
  obtain ⟨lib, hlib⟩ := simplePaths_exist
  obtain ⟨code, h, -, -, hb⟩ := C54_constructor_total idOrder .primal .open (dims := fun _ => 2) (by simp) none
  have hodd : ((surfaceCode idOrder .primal .open (fun _ => 2) none).map fun code =>
      code.stabs.countP fun s => parity (fun v => decide (some v = code.syndrome.head?)) s) = some 1 := by
    decide +kernel
  rw [h, Option.map_some, Option.some.injEq] at hodd
  have hc : IsCode code := ⟨_, _, _, _, _, by simp, h⟩
  have hex : ∃ s ∈ code.stabs, parity (fun v => decide (some v = code.syndrome.head?)) s = true := by
    have : 0 < code.stabs.countP fun s => parity (fun v => decide (some v = code.syndrome.head?)) s := by omega
    exact List.countP_pos_iff.1 this
  let X' : Libs := { X with paths := lib }
  let c : Call := ⟨"MWPM", fun _ => 1, fun v => decide (some v = code.syndrome.head?), true, true⟩
  have hfail := C80_networkx_open hc hb X' hX [] [] c c rfl rfl (fun _ _ => zero_le_one) hex
  refine ⟨code, X', c, hc, hb, hX, rfl, rfl, fun _ _ => one_pos, hlib, hex, ?_, hfail.1⟩
  have h1 := C80_first_call hc X' hlib c rfl rfl fun _ _ => one_pos
  obtain ⟨r, hr⟩ := Option.isSome_iff_exists.1 hfail.2
  rw [hr] at h1
  unfold runCalls
  rw [h1]
  rfl

-- several drawn calls of both decoders, with closed boundaries or Union-Find only
example (bk : Backend) : ∃ (code : Code) (X : Libs) (calls : List Call), IsCode code ∧ X.bk = bk ∧ code.boundaries ≠ .open ∧ calls.length = 3 ∧
    (∀ c ∈ calls, c.draw = true) ∧ ∀ c ∈ calls, c.name = "MWPM" → ∀ x ∈ code.syndrome, 0 ≤ c.w x := by
  obtain ⟨X, hX⟩ := libs_exist bk
  obtain ⟨code, h, -, -, hb⟩ := C54_constructor_total idOrder .dual .toric (dims := fun _ => 3) (by simp) none
  refine ⟨code, X, [⟨"MWPM", fun _ => 1, fun _ => true, true, true⟩, ⟨"UF", fun _ => -1, fun _ => false, true, false⟩,
    ⟨"MWPM", fun _ => 2, fun x => decide (x 0 = 1), true, true⟩], ⟨_, _, _, _, _, by simp, h⟩, hX, by rw [hb]; decide, rfl, by simp, ?_⟩
  intro c hc hn x _
  simp only [List.mem_cons, List.not_mem_nil, or_false] at hc
  rcases hc with rfl | rfl | rfl
  · exact zero_le_one
  · exact absurd hn (by decide)
  · exact zero_le_two

end Flamingpy.Viz
