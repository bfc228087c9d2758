import Verif.Proofs.DrawRecovery
import Verif.Props.UnionFind
import Verif.Props.Drawing
import Verif.Props.Viz

/-!
# C90, C91: the recovery drawing and the positions in graph drawings
-/

namespace Flamingpy.Viz

open Flamingpy Flamingpy.SurfaceCode Flamingpy.UnionFind

/-! ### C90 -/

section
variable {code : Code} (h : IsCode code) (bk : Backend) (lib : PathLib) (sp : SetPop) {w : V → ℚ}
  (hw : ∀ x ∈ code.syndrome, 0 ≤ w x)

local notation "SG" => stabGraph bk sp code
local notation "EE" => weightedEdges (stabGraph bk sp code) w

/-- The paths in the matching graph pass no connector. -/
def Free (bits : V → Bool) : Prop := code.boundaries = .open → ∀ k ∈ oddStabs SG bits, ∀ n ∈ (fullPath bk lib EE k).tail, n ≠ .low ∧ n ≠ .high

include h hw in
/-- The path of a pair that is drawn. -/
theorem pair_path (bits : V → Bool) (hf : Free (code := code) bk lib sp (w := w) bits) {m : MNode × MNode} {q : ℚ × List SNode}
    (hk : EdgeKind bk lib EE (decide (code.boundaries = .open)) (oddStabs SG bits) s(m.1, m.2) q)
    (hd : ¬ (m.1 ∈ virtuals bk lib EE (decide (code.boundaries = .open)) (oddStabs SG bits) ∧
      m.2 ∈ virtuals bk lib EE (decide (code.boundaries = .open)) (oddStabs SG bits))) :
    (q.2.IsChain fun a b => s(a, b) ∈ PyDict.keys (codeEdges sp code)) ∧ (∀ n ∈ q.2, n ≠ .low ∧ n ≠ .high) ∧ 2 ≤ q.2.length ∧
      Joins code m (q.2.map (posOf code)) := by
  have hp : ∀ {a : ℕ}, a < code.stabs.length → endPos code (.stab a) = some (posOf code (.stab a)) := by
    intro a ha
    obtain ⟨c, hc, hc', _⟩ := posOf_stab h ha
    change midpoint ((physical code).getD a []) = _
    unfold posOf
    rw [hc, hc']
    rfl
  have swap : ∀ {x y : MNode} {l : List (Fin 3 → ℚ)}, s(m.1, m.2) = s(x, y) → Joins code (x, y) l → Joins code m l := by
    intro x y l he hj
    rcases Sym2.eq_iff.1 he with ⟨h1, h2⟩ | ⟨h1, h2⟩
    · rw [show m = (x, y) from Prod.ext h1 h2]; exact hj
    · rw [show m = (y, x) from Prod.ext h1 h2]; exact ⟨hj.1, hj.2.symm⟩
  have two : ∀ {E : List (Sym2 SNode × ℚ)} {a b : SNode} {p : List SNode}, a ≠ b → IsWalk E a b p → 2 ≤ p.length := by
    intro E a b p hab hwk
    obtain ⟨c, l, rfl, _⟩ := isWalk_two hab hwk
    simp
  rcases hk with ⟨a, b, ha, hb, hab, he, hq⟩ | ⟨k, hop, hk, he, hq⟩ | ⟨x, y, hop, hx, hy, hne, he, hq⟩
  · subst hq
    rw [mem_oddStabs bk sp h] at ha hb
    have hwk := (h.realPath_spec bk lib sp hw ha.1 hb.1 (Nat.ne_of_lt hab)).2.1
    have h2 := two (by simp [Nat.ne_of_lt hab]) hwk
    refine ⟨?_, ?_, h2, swap he ⟨?_, Or.inl ⟨?_, ?_⟩⟩⟩
    · exact hwk.2.2.imp fun _ _ hx => by
        rw [mem_keys_withoutConnectors, keys_weightedEdges, (h.stabGraph bk sp).1] at hx
        exact hx.1
    · have key : ∀ (p : List SNode) (s t : SNode), s ≠ .low ∧ s ≠ .high → IsWalk (withoutConnectors EE) s t p →
          ∀ n ∈ p, n ≠ .low ∧ n ≠ .high := by
        intro p
        induction p with
        | nil => intro s t _ hp; cases hp.1
        | cons x p ih =>
          intro s t hs hp n hn
          obtain rfl : x = s := Option.some.inj hp.1
          rcases List.mem_cons.1 hn with rfl | hn
          · exact hs
          · cases p with
            | nil => cases hn
            | cons y p =>
              obtain ⟨h1, h2⟩ := isWalk_uncons hp
              rw [mem_keys_withoutConnectors] at h1
              exact ih y t ⟨fun e => h1.2.1 (by simp [e]), fun e => h1.2.2 (by simp [e])⟩ h2 n hn
      exact key _ _ _ (by simp) hwk
    · intro e
      rw [List.map_eq_nil_iff] at e
      simp only at e
      rw [e] at h2
      simp at h2
    · rw [List.head?_map, hwk.1, hp ha.1]; rfl
    · rw [List.getLast?_map, hwk.2.1, hp hb.1]; rfl
  · subst hq
    have hkk := hk
    rw [mem_oddStabs bk sp h] at hk
    have ho : code.boundaries = .open := by simpa using hop
    obtain ⟨c, d, l, p, hfull, hd', _, _, hwk⟩ := h.tail_spec bk lib sp hw ho hk.1
    have h2 := two (by rw [hd']; simp) hwk
    have hv : virtOf bk lib EE (oddStabs SG bits) k = .virt (.pt p) ((oddStabs SG bits).idxOf k) := by
      unfold virtOf virtNode boundPoint
      rw [hfull, hd']
      rfl
    refine ⟨?_, hf ho k hkk, h2, swap he ⟨?_, Or.inr ⟨?_, ?_⟩⟩⟩
    · exact hwk.2.2.imp fun _ _ hx => by
        rw [keys_weightedEdges, (h.stabGraph bk sp).1] at hx
        exact hx
    · intro e
      rw [List.map_eq_nil_iff] at e
      simp only at e
      rw [e] at h2
      simp at h2
    · rw [List.head?_map, hwk.1, hv, hd']; rfl
    · rw [List.getLast?_map, hwk.2.1, hp hk.1]; rfl
  · exfalso
    apply hd
    rcases Sym2.eq_iff.1 he with ⟨h1, h2⟩ | ⟨h1, h2⟩
    · rw [h1, h2]; exact ⟨hx, hy⟩
    · rw [h1, h2]; exact ⟨hy, hx⟩

theorem toggles_odd (l : List (Option V)) (x : Option V) : x ∈ l.foldl toggle [] ↔ Odd (l.count x) := by
  have h1 := toggles_sum2 (fun y => if y = x then 1 else 0) l []
  rw [sum_indicator (toggles_nodup (l := l) List.nodup_nil)] at h1
  rw [List.map_nil, List.sum_nil, zero_add] at h1
  have h2 : (l.map fun y => if y = x then (1 : ZMod 2) else 0).sum = (l.count x : ℕ) := by
    clear h1
    induction l with
    | nil => simp
    | cons a l ih =>
      rw [List.map_cons, List.sum_cons, ih, List.count_cons]
      by_cases ha : a = x
      · simp [ha, add_comm]
      · simp [ha]
  rw [h2] at h1
  rw [← ZMod.natCast_eq_one_iff_odd, ← h1]
  split_ifs with hx
  · exact ⟨fun _ => rfl, fun _ => hx⟩
  · exact ⟨fun e => absurd e hx, fun e => absurd e (by decide)⟩

/-- What the drawing of a matching shows. -/
def ShowsMatching (code : Code) (G : MatchGraph) (M : List (MNode × MNode)) (R : List (Option V)) (d : Drawing) : Prop :=
  -- one line for each pair that is not virtual, from the place of one node to the place of the other
  List.Forall₂ (fun m l => Joins code m (points l)) (M.filter fun m => decide (¬ (m.1 ∈ G.virtuals ∧ m.2 ∈ G.virtuals))) d.lines ∧
  -- a marker for each boundary point on a line
  d.markers = (d.lines.flatMap points).filter (fun a => decide (∃ p ∈ code.boundPoints, a = fun i => (p i : ℚ))) ∧
  -- each piece of a line stands for a qubit on it, and the recovery flips the qubits passed an odd number of times
  ∃ q : (Fin 3 → ℚ) → (Fin 3 → ℚ) → V, (∀ a b, q a b = q b a) ∧
    (∀ l ∈ d.lines, ∀ s ∈ segs (points l), OnPiece code (q s.1 s.2) s.1 s.2) ∧
    (∀ c ∈ R, c ≠ none) ∧
    ∀ x, some x ∈ R ↔ Odd ((d.lines.flatMap fun l => segs (points l)).countP fun s => decide (q s.1 s.2 = x))

include h hw in
theorem draws (ml : MatchLib) (bits : V → Bool) (hf : Free (code := code) bk lib sp (w := w) bits) :
    ∃ G R d, matchGraph bk lib SG w bits = some G ∧ mwpmDecoder bk lib ml SG w bits = some R ∧
      mwpmRecoveryDrawing bk lib ml code SG w bits = some d ∧ ShowsMatching code G (perfectMatching ml G) R d := by
  obtain ⟨R0, hR0, _⟩ := h.decoder_spec bk lib sp hw ml bits
  set op := decide (code.boundaries = .open) with hop
  set odd := oddStabs SG bits with hodd
  have hG := h.matchGraph bk lib sp hw bits
  rw [← hop, ← hodd] at hG
  set G : MatchGraph := ⟨graphEdges bk lib EE op odd, virtuals bk lib EE op odd⟩ with hGdef
  have hlt : odd.Pairwise (· < ·) := oddStabs_pairwise SG bits
  have hM : IsMatching (mWeights G.edges) (perfectMatching ml G) := ml.isMatching _
  set M := perfectMatching ml G with hMdef
  have hdec : mwpmDecoder bk lib ml SG w bits = some ((M.flatMap (matchCvs bk lib EE SG op odd)).foldl toggle []) := by
    have := h.recovery_eq bk lib sp hw bits (M := M) hM
    rw [← this]
    unfold mwpmDecoder
    rw [hG]
    rfl
  have hRR : (M.flatMap (matchCvs bk lib EE SG op odd)).foldl toggle [] = R0.map some := by
    rw [hdec] at hR0
    exact Option.some.inj hR0
  have hpath : ∀ m ∈ M, isDrawn G m = true → s(m.1, m.2) ∈ PyDict.keys G.edges ∧
      ((pairPath G m).IsChain fun a b => s(a, b) ∈ PyDict.keys (codeEdges sp code)) ∧ (∀ n ∈ pairPath G m, n ≠ .low ∧ n ≠ .high) ∧
      2 ≤ (pairPath G m).length ∧ Joins code m ((pairPath G m).map (posOf code)) ∧
      matchCvs bk lib EE SG op odd m = pathCvs (codeEdges sp code) (pairPath G m) := by
    intro m hm hd
    have hk := hM.1 m hm
    rw [keys_mWeights] at hk
    obtain ⟨q, hq⟩ := Option.isSome_iff_exists.1 ((PyDict.get?_isSome_iff _ _).2 hk)
    have hpp : pairPath G m = q.2 := by unfold pairPath; rw [hq]; rfl
    unfold isDrawn at hd
    rw [decide_eq_true_eq] at hd
    obtain ⟨h1, h2, h3, h4⟩ := pair_path h bk lib sp hw bits hf ((get?_graphEdges hlt).1 hq) hd
    rw [hpp]
    refine ⟨hk, h1, h2, h3, h4, ?_⟩
    unfold matchCvs
    rw [if_neg hd, hq, (h.stabGraph bk sp).1]
    rfl
  have hdr : mwpmRecoveryDrawing bk lib ml code SG w bits = some
      ⟨(((M.filter (isDrawn G)).flatMap (pairPath G)).filter isMarked).map (posOf code),
        (M.filter (isDrawn G)).map fun m => lineOf code (pairPath G m)⟩ := by
    unfold mwpmRecoveryDrawing
    rw [hG]
    have := drawPair_fold code G M ⟨[], []⟩ fun m hm hd => by
      obtain ⟨h1, h2, h3, h4, _⟩ := hpath m hm hd
      exact ⟨h1, fun n hn => placed_isSome h (path_placed h sp h2 h3 h4 n hn)⟩
    simp only [List.nil_append] at this
    rw [← this]
    rfl
  refine ⟨G, _, _, hG, hdec, hdr, ?_, ?_, qubitOf code (codeEdges sp code), qubitOf_comm _, ?_, ?_, ?_⟩
  · change List.Forall₂ _ (M.filter (isDrawn G)) _
    rw [List.forall₂_map_right_iff, List.forall₂_same]
    intro m hm
    rw [List.mem_filter] at hm
    rw [points_lineOf]
    exact (hpath m hm.1 hm.2).2.2.2.2.1
  · simp only
    rw [List.flatMap_map]
    simp only [points_lineOf]
    rw [← List.map_flatMap, List.filter_map]
    congr 1
    refine List.filter_congr fun n hn => ?_
    obtain ⟨m, hm, hn⟩ := List.mem_flatMap.1 hn
    rw [List.mem_filter] at hm
    obtain ⟨_, h2, h3, h4, _⟩ := hpath m hm.1 hm.2
    have hpl := path_placed h sp h2 h3 h4 n hn
    simp only [Function.comp]
    rcases hpl with ⟨k, hk, rfl⟩ | ⟨p, hp, rfl⟩
    · symm
      change decide _ = false
      rw [decide_eq_false_iff_not]
      rintro ⟨p, hp, he⟩
      exact bound_ne_mid h hp hk he.symm
    · symm
      change decide _ = true
      rw [decide_eq_true_eq]
      exact ⟨p, hp, rfl⟩
  · intro l hl s hs
    obtain ⟨m, hm, rfl⟩ := List.mem_map.1 hl
    rw [List.mem_filter] at hm
    rw [points_lineOf] at hs
    obtain ⟨_, h2, h3, _⟩ := hpath m hm.1 hm.2
    exact (path_segs h sp _ h2 h3).1 s hs
  · rw [hRR]
    intro c hc
    obtain ⟨x, _, rfl⟩ := List.mem_map.1 hc
    simp
  · intro x
    rw [toggles_odd]
    have e : M.flatMap (matchCvs bk lib EE SG op odd) = (((M.filter (isDrawn G)).map fun m => lineOf code (pairPath G m)).flatMap
        fun l => segs (points l)).map fun s => some (qubitOf code (codeEdges sp code) s.1 s.2) := by
      clear hRR hR0 hdec hdr hMdef
      clear_value M
      induction M with
      | nil => rfl
      | cons m M ih =>
        have ih := ih ⟨fun m' hm' => hM.1 m' (by simp [hm']), by
          have := hM.2
          rw [List.flatMap_cons, List.nodup_append] at this
          exact this.2.1⟩ fun m' hm' => hpath m' (by simp [hm'])
        rw [List.flatMap_cons, ih]
        by_cases hd : isDrawn G m = true
        · obtain ⟨_, h2, h3, _, _, h5⟩ := hpath m (by simp) hd
          rw [h5, (path_segs h sp _ h2 h3).2]
          simp [hd, points_lineOf]
        · have h6 : matchCvs bk lib EE SG op odd m = [] := by
            unfold matchCvs
            unfold isDrawn at hd
            rw [decide_eq_true_eq, not_not] at hd
            rw [if_pos hd]
          rw [h6]
          simp [hd]
    rw [e, List.count_eq_countP, List.countP_map]
    refine iff_of_eq (congrArg Odd (List.countP_congr fun s _ => ?_))
    simp

end

/-- The drawing of a matching shows one line for each pair that is not virtual, from one of the two places to the other, and a marker for each
boundary point on the lines; each piece of a line stands for a qubit on it, and the recovery flips exactly the qubits
passed an odd number of times.  For open codes: with positive weights, lengths computed without rounding, and paths without repeated nodes
(which is what Dijkstra's algorithm returns). -/
theorem C90_matching {code : Code} (h : IsCode code) (bk : Backend) (lib : PathLib) (ml : MatchLib) (sp : SetPop) (w : V → ℚ)
    (hw : ∀ x ∈ code.syndrome, 0 ≤ w x)
    (ho : code.boundaries = .open → (∀ x ∈ code.syndrome, 0 < w x) ∧ (bk = .networkx ∨ ∀ x ∈ code.syndrome, ∃ n : ℤ, w x = n) ∧
      SimplePaths lib) (bits : V → Bool) :
    ∃ G R d, matchGraph bk lib (stabGraph bk sp code) w bits = some G ∧ mwpmDecoder bk lib ml (stabGraph bk sp code) w bits = some R ∧
      mwpmRecoveryDrawing bk lib ml code (stabGraph bk sp code) w bits = some d ∧ ShowsMatching code G (perfectMatching ml G) R d := by
  refine draws h bk lib sp hw ml bits fun hb k hk => ?_
  obtain ⟨h1, h2, h3⟩ := ho hb
  rw [mem_oddStabs bk sp h] at hk
  exact full_free h bk sp h1 lib h3 h2 hb hk.1

/-- The drawing of a recovery set shows exactly its qubits: with the union-find decoder, for all codes, weights and outcomes. -/
theorem C90_recovery_set {code : Code} (h : IsCode code) (bk : Backend) (sp : SetPop) (cl : CompLib SNode)
    (sl : SpanLib SNode (Option V)) (io : IterOrder SNode) (w : V → ℚ) (bits : V → Bool) (fuel : ℕ)
    (hf : 2 * (stabGraph bk sp code).edges.length + 1 ≤ fuel) :
    ∃ R d, ufDecoder cl sl io fuel (stabGraph bk sp code) w bits = some R ∧ ufRecoveryDrawing code R = some d ∧ d.lines = [] ∧
      d.markers.Nodup ∧ ∀ a, a ∈ d.markers ↔ ∃ x, some x ∈ R ∧ a = fun i => (x i : ℚ) := by
  obtain ⟨R, bits', h1, h2, h3, h4⟩ := C39_clears h bk sp cl sl io w bits fuel hf
  clear h4
  obtain ⟨R', rfl⟩ : ∃ R' : List V, R = R'.map some := by
    clear h1 h2
    induction R with
    | nil => exact ⟨[], rfl⟩
    | cons q R ih =>
      obtain ⟨R', rfl⟩ := ih fun q hq => h3 q (by simp [hq])
      obtain ⟨x, _, rfl⟩ := h3 q (by simp)
      exact ⟨x :: R', rfl⟩
  have hm : (R'.map some).mapM (id : Option V → Option V) = some R' := by
    rw [List.mapM_map]
    clear h1 h2 h3
    induction R' with
    | nil => rfl
    | cons x R' ih =>
      rw [List.mapM_cons]
      simp only [Function.comp] at ih ⊢
      rw [ih]
      rfl
  refine ⟨_, ⟨R'.map fun p i => (p i : ℚ), []⟩, h1, ?_, rfl, ?_, fun a => ?_⟩
  · unfold ufRecoveryDrawing addRecovery
    rw [hm]
    rfl
  · refine (List.Nodup.of_map _ h2).map fun a b hab => ?_
    funext i
    have := congrFun hab i
    exact_mod_cast this
  · simp only [List.mem_map, Option.some.injEq, exists_eq_right]
    exact ⟨fun ⟨x, hx, e⟩ => ⟨x, hx, e.symm⟩, fun ⟨x, hx, e⟩ => ⟨x, hx, e.symm⟩⟩

/-- A drawn path through a connector cannot be drawn: the call raises. -/
theorem C90_raises (code : Code) (bk : Backend) (lib : PathLib) (ml : MatchLib) (SG : StabGraph) (w : V → ℚ) (bits : V → Bool) {G : MatchGraph}
    (hG : matchGraph bk lib SG w bits = some G) {m : MNode × MNode} (hm : m ∈ perfectMatching ml G) (hd : ¬ (m.1 ∈ G.virtuals ∧ m.2 ∈ G.virtuals))
    {q : ℚ × List SNode} (hq : PyDict.get? G.edges s(m.1, m.2) = some q) (hc : SNode.low ∈ q.2 ∨ SNode.high ∈ q.2) :
    mwpmRecoveryDrawing bk lib ml code SG w bits = none := by
  have := drawPair_none code G (perfectMatching ml G) ⟨[], []⟩ ⟨m, hm, by unfold isDrawn; rw [decide_eq_true_eq]; exact hd, by
    unfold pairPath
    rw [hq]
    rcases hc with hc | hc
    · exact ⟨_, hc, rfl⟩
    · exact ⟨_, hc, rfl⟩⟩
  unfold mwpmRecoveryDrawing
  rw [hG]
  exact this

theorem zero_weight {code : Code} (bk : Backend) (sp : SetPop) (p : List SNode) :
    walkWeight (weightedEdges (stabGraph bk sp code) (fun _ => 0)) p = 0 := by
  have hg : ∀ e, (PyDict.get? (weightedEdges (stabGraph bk sp code) (fun _ => 0)) e).getD 0 = 0 := by
    intro e
    rw [get?_weightedEdges]
    cases PyDict.get? (stabGraph bk sp code).edges e with
    | none => rfl
    | some cv => cases cv <;> rfl
  induction p with
  | nil => rfl
  | cons a p ih =>
    cases p with
    | nil => rfl
    | cons b p =>
      change (PyDict.get? _ s(a, b)).getD 0 + walkWeight _ (b :: p) = 0
      rw [hg, ih, add_zero]

theorem raises_low {code : Code} (h : IsCode code) (hb : code.boundaries = .open) (bk : Backend) (lib : PathLib) (ml : MatchLib) (sp : SetPop)
    (bits : V → Bool) {k0 : ℕ} (hodd : ∀ k, k ∈ oddStabs (stabGraph bk sp code) bits ↔ k = k0)
    (hlow : SNode.high ∈ (lowPath lib (weightedEdges (stabGraph bk sp code) (fun _ => 0)) k0).tail) :
    mwpmRecoveryDrawing bk lib ml code (stabGraph bk sp code) (fun _ => 0) bits = none := by
  have hw : ∀ x ∈ code.syndrome, (0 : ℚ) ≤ (fun _ => 0 : V → ℚ) x := by simp
  have hG := h.matchGraph bk lib sp hw bits
  have hop : decide (code.boundaries = .open) = true := by rw [hb]; rfl
  have hP := h.perfect bk lib sp ml bits (w := fun _ => 0)
  rw [hop] at hG hP
  have hlen0 : ∀ p, pathLength bk (weightedEdges (stabGraph bk sp code) (fun _ => 0)) p = 0 := by
    intro p
    rw [pathLength_exact h bk sp (.inr fun x _ => ⟨0, by simp⟩) p, zero_weight]
  generalize weightedEdges (stabGraph bk sp code) (fun _ => 0) = E0 at *
  have hlt : (oddStabs (stabGraph bk sp code) bits).Pairwise (· < ·) := oddStabs_pairwise _ bits
  generalize oddStabs (stabGraph bk sp code) bits = odd at *
  have h1 : MNode.stab k0 ∈ ends2 (perfectMatching ml ⟨graphEdges bk lib E0 true odd, virtuals bk lib E0 true odd⟩) := by
    refine hP.mem_iff.2 ?_
    unfold mNodes
    simp [hodd]
  unfold ends2 at h1
  obtain ⟨m, hm, hm1⟩ := List.mem_flatMap.1 h1
  have hk := (ml.isMatching (mWeights (graphEdges bk lib E0 true odd))).1 m hm
  rw [keys_mWeights] at hk
  obtain ⟨q, hq⟩ := Option.isSome_iff_exists.1 ((PyDict.get?_isSome_iff _ _).2 hk)
  have hnv : MNode.stab k0 ∉ virtuals bk lib E0 true odd := by
    intro hv
    obtain ⟨p, i, hpi⟩ := mem_virtuals hv
    cases hpi
  have hdr : ¬ (m.1 ∈ virtuals bk lib E0 true odd ∧ m.2 ∈ virtuals bk lib E0 true odd) := by
    rintro ⟨h2, h3⟩
    simp only [List.mem_cons, List.not_mem_nil, or_false] at hm1
    rcases hm1 with e | e
    · rw [← e] at h2; exact hnv h2
    · rw [← e] at h3; exact hnv h3
  refine C90_raises code bk lib ml _ _ bits hG hm hdr hq ?_
  rcases (get?_graphEdges hlt).1 hq with ⟨a, b, ha, hb', hab, he, hq'⟩ | ⟨k, _, hk, he, hq'⟩ | ⟨x, y, _, hx, hy, hne, he, hq'⟩
  · rw [hodd] at ha hb'
    omega
  · rw [hodd] at hk
    subst hk hq'
    right
    change SNode.high ∈ (fullPath bk lib E0 k).tail
    unfold fullPath
    rw [hlen0, hlen0, if_pos le_rfl]
    exact hlow
  · exfalso
    apply hdr
    rcases Sym2.eq_iff.1 he with ⟨h2, h3⟩ | ⟨h2, h3⟩
    · rw [h2, h3]; exact ⟨hx, hy⟩
    · rw [h2, h3]; exact ⟨hy, hx⟩

/-- Such paths exist: with weights zero, there are an open code, outcomes, and a shortest-path routine with simple paths, for which the decoder returns
a recovery and the drawing raises. -/
theorem C90_zero (bk : Backend) (ml : MatchLib) (sp : SetPop) : ∃ (code : Code) (lib : PathLib) (bits : V → Bool), IsCode code ∧
    code.boundaries = .open ∧ SimplePaths lib ∧
    (∃ R, mwpmDecoder bk lib ml (stabGraph bk sp code) (fun _ => 0) bits = some R) ∧
    mwpmRecoveryDrawing bk lib ml code (stabGraph bk sp code) (fun _ => 0) bits = none := by
  classical
  obtain ⟨lib0, hs0⟩ := simplePaths_exist
  obtain ⟨code, h0, hec, hdims, hb⟩ := C54_constructor_total idOrder .primal .open (dims := fun _ => 2) (by simp) none
  have h : IsCode code := ⟨_, _, _, _, _, by simp, h0⟩
  have hfacts : ((surfaceCode idOrder .primal .open (fun _ => 2) none).map fun code =>
      (code.stabs.length, code.stabs.map fun s => parity (fun v => decide (v = ![2, 1, 3])) s) ) = some (4, [false, true, false, false]) := by
    decide +kernel
  have hfacts2 : ((surfaceCode idOrder .primal .open (fun _ => 2) none).map fun code =>
      (decide (![0, 1, 1] ∈ code.stabs.getD 0 []), decide (![2, 1, 1] ∈ code.stabs.getD 0 []), decide (![2, 1, 3] ∈ code.stabs.getD 1 []))) =
      some (true, true, true) := by
    decide +kernel
  rw [h0, Option.map_some, Option.some.injEq] at hfacts hfacts2
  simp only [Prod.mk.injEq, decide_eq_true_eq] at hfacts hfacts2
  obtain ⟨hlen, hpar⟩ := hfacts
  obtain ⟨m0, m1, m2⟩ := hfacts2
  have hsyn : ∀ {k x}, x ∈ code.stabs.getD k [] → x ∈ code.syndrome := fun hx => h.ok.1.mem_syndrome_of_stab hx
  obtain ⟨_, hlow, hhigh⟩ := C27_low_high h hb
  simp only [hec, hdims] at hlow hhigh
  have b0 := (hlow ![0, 1, 1]).2 ⟨hsyn m0, rfl⟩
  have b1 := (hhigh ![2, 1, 1]).2 ⟨hsyn m1, rfl⟩
  have b2 := (hhigh ![2, 1, 3]).2 ⟨hsyn m2, rfl⟩
  set E0 := weightedEdges (stabGraph bk sp code) (fun _ => 0) with hE0
  have hzero : ∀ p, walkWeight E0 p = 0 := zero_weight bk sp
  let bad : List SNode := [.low, .pt ![0, 1, 1], .stab 0, .pt ![2, 1, 1], .high, .pt ![2, 1, 3], .stab 1]
  have hkeys : ∀ {a b : SNode} {cv : Option V}, (s(a, b), cv) ∈ codeEdges sp code → s(a, b) ∈ PyDict.keys E0 := by
    intro a b cv he
    rw [hE0, keys_weightedEdges, (h.stabGraph bk sp).1]
    exact List.mem_map.2 ⟨_, he, rfl⟩
  have hbad : IsWalk E0 .low (.stab 1) bad := by
    refine ⟨rfl, rfl, ?_⟩
    have e1 := hkeys (mem_codeEdges.2 (.inl ⟨_, b0, rfl⟩))
    have e2 := hkeys (mem_codeEdges.2 (.inr (.inr (.inr ⟨0, _, by omega, List.mem_of_mem_take b0, m0, rfl⟩))))
    have e3 := hkeys (mem_codeEdges.2 (.inr (.inr (.inr ⟨0, _, by omega, List.mem_of_mem_drop b1, m1, rfl⟩))))
    have e4 := hkeys (mem_codeEdges.2 (.inr (.inl ⟨_, b1, rfl⟩)))
    have e5 := hkeys (mem_codeEdges.2 (.inr (.inl ⟨_, b2, rfl⟩)))
    have e6 := hkeys (mem_codeEdges.2 (.inr (.inr (.inr ⟨1, _, by omega, List.mem_of_mem_drop b2, m2, rfl⟩))))
    simp only [bad, List.isChain_cons_cons, List.isChain_singleton, and_true]
    refine ⟨e1, ?_, e3, ?_, e5, ?_⟩
    · rw [Sym2.eq_swap]; exact e2
    · rw [Sym2.eq_swap]; exact e4
    · rw [Sym2.eq_swap]; exact e6
  have hnn : ∀ e ∈ E0, 0 ≤ e.2 := h.edges_nonneg bk sp (by simp)
  let lib : PathLib :=
    { find := fun E s t => if E = E0 ∧ s = .low ∧ t = .stab 1 then some bad else lib0.find E s t
      sound := by
        intro E s t p hE hst hp
        split at hp
        · rename_i hc
          obtain ⟨rfl, rfl, rfl⟩ := hc
          obtain rfl := Option.some.inj hp
          exact ⟨hbad, fun p' _ => by rw [hzero, hzero]⟩
        · exact lib0.sound E s t p hE hst hp
      complete := by
        intro E s t hE hst hp
        split at hp
        · cases hp
        · exact lib0.complete E s t hE hst hp }
  let bits : V → Bool := fun v => decide (v = ![2, 1, 3])
  have hw : ∀ x ∈ code.syndrome, (0 : ℚ) ≤ (fun _ => 0 : V → ℚ) x := by simp
  refine ⟨code, lib, bits, h, hb, ?_, ?_, ?_⟩
  · intro E s t p hE hst hp
    change (if E = E0 ∧ s = .low ∧ t = .stab 1 then some bad else lib0.find E s t) = some p at hp
    split at hp
    · obtain rfl := Option.some.inj hp
      decide
    · exact hs0 E s t p hE hst hp
  · obtain ⟨R, _, h1, _⟩ := C34_clears h bk lib ml sp _ hw bits
    exact ⟨R, h1⟩
  · have hodd : ∀ k, k ∈ oddStabs (stabGraph bk sp code) bits ↔ k = 1 := by
      intro k
      rw [mem_oddStabs bk sp h]
      have hk : ∀ k < code.stabs.length, parity bits (code.stabs.getD k []) = [false, true, false, false].getD k false := by
        intro k hk
        rw [← hpar, List.getD_eq_getElem _ _ hk, List.getD_eq_getElem _ _ (by simpa using hk), List.getElem_map]
      constructor
      · rintro ⟨h1, h2⟩
        rw [hk k h1] at h2
        rw [hlen] at h1
        interval_cases k <;> simp at h2 ⊢
      · rintro rfl
        exact ⟨by omega, by rw [hk 1 (by omega)]; rfl⟩
    refine raises_low h hb bk lib ml sp bits hodd ?_
    have hlp : lowPath lib E0 1 = bad := by
      unfold lowPath
      change ((if E0 = E0 ∧ SNode.low = .low ∧ SNode.stab 1 = .stab 1 then some bad else lib0.find E0 .low (.stab 1)).getD []) = bad
      rw [if_pos ⟨rfl, rfl, rfl⟩]
      rfl
    rw [← hE0, hlp]
    simp [bad]

/-- The hypotheses are met: an open code with weights one, for both backends. -/
example (bk : Backend) (ml : MatchLib) (sp : SetPop) (bits : V → Bool) : ∃ (code : Code) (lib : PathLib), IsCode code ∧ code.boundaries = .open ∧
    ∃ G R d, matchGraph bk lib (stabGraph bk sp code) (fun _ => 1) bits = some G ∧
      mwpmDecoder bk lib ml (stabGraph bk sp code) (fun _ => 1) bits = some R ∧
      mwpmRecoveryDrawing bk lib ml code (stabGraph bk sp code) (fun _ => 1) bits = some d ∧ ShowsMatching code G (perfectMatching ml G) R d := by
  obtain ⟨lib, hs⟩ := simplePaths_exist
  obtain ⟨code, h0, _, _, hb⟩ := C54_constructor_total idOrder .primal .open (dims := fun _ => 2) (by simp) none
  have h : IsCode code := ⟨_, _, _, _, _, by simp, h0⟩
  exact ⟨code, lib, h, hb, C90_matching h bk lib ml sp _ (by simp) (fun _ => ⟨by simp, .inr fun _ _ => ⟨1, by simp⟩, hs⟩) bits⟩

/-! ### C91 -/

/-- The node trace of a plotly drawing gives each node, in order, at its coordinates; a graph without nodes raises. -/
theorem C91_plotly_nodes (nodes : List P3) :
    (nodes = [] → plotlyNodes nodes = none) ∧
    (nodes ≠ [] → ∃ xs ys zs, plotlyNodes nodes = some (xs, ys, zs) ∧ xs.length = nodes.length ∧ ys.length = nodes.length ∧
      zs.length = nodes.length ∧ points (xs, ys, zs) = nodes) := by
  refine ⟨fun h => by simp [plotlyNodes, h], fun h => ⟨nodes.map (· 0), nodes.map (· 1), nodes.map (· 2), by simp [plotlyNodes, h], by simp, by simp,
    by simp, ?_⟩⟩
  clear h
  induction nodes with
  | nil => rfl
  | cons n l ih =>
    simp only [points, List.map_cons, List.zip_cons_cons] at ih ⊢
    rw [ih]
    congr 1
    funext i
    fin_cases i <;> rfl

/-- The edge trace of a plotly drawing has exactly the edges as its straight pieces, in order. -/
theorem C91_plotly_edges (edges : List (P3 × P3)) :
    gapSegs ((plotlyEdges edges).1.zip ((plotlyEdges edges).2.1.zip (plotlyEdges edges).2.2)) = edges ∧
    (plotlyEdges edges).1.length = 3 * edges.length ∧ (plotlyEdges edges).2.1.length = 3 * edges.length ∧
    (plotlyEdges edges).2.2.length = 3 * edges.length := by
  have key : ∀ (l : List (P3 × P3)) (a b c : List (Option ℚ)),
      l.foldl (fun st e => (st.1 ++ [some (e.1 0), some (e.2 0), none], st.2.1 ++ [some (e.1 1), some (e.2 1), none],
        st.2.2 ++ [some (e.1 2), some (e.2 2), none])) (a, b, c) =
      (a ++ l.flatMap (fun e => [some (e.1 0), some (e.2 0), none]), b ++ l.flatMap (fun e => [some (e.1 1), some (e.2 1), none]),
        c ++ l.flatMap (fun e => [some (e.1 2), some (e.2 2), none])) := by
    intro l
    induction l with
    | nil => simp
    | cons e l ih =>
      intro a b c
      rw [List.foldl_cons, ih]
      simp
  unfold plotlyEdges
  rw [key]
  simp only [List.nil_append]
  refine ⟨?_, ?_, ?_, ?_⟩
  · induction edges with
    | nil => rfl
    | cons e l ih =>
      have h1 : ∀ n : P3, ![n 0, n 1, n 2] = n := fun n => by funext i; fin_cases i <;> rfl
      simp only [List.flatMap_cons, List.cons_append, List.nil_append, List.zip_cons_cons, gapSegs, h1, ih]
  all_goals simp [List.length_flatMap, mul_comm]

/-- A matplotlib drawing shows every node and both ends of every edge at the coordinates that the labels of the axes say. -/
theorem C91_matplotlib (n : P3) (e : P3 × P3) :
    (∀ a, some (mplNode n a) = coordNamed n (mplLabels a)) ∧
    points (mplEdge e) = [mplNode e.1, mplNode e.2] ∧
    (∀ n' : P3, mplNode n = mplNode n' ↔ n = n') := by
  refine ⟨fun a => ?_, rfl, fun n' => ⟨fun h => ?_, fun h => h ▸ rfl⟩⟩
  · fin_cases a <;> simp [mplNode, mplLabels, coordNamed]
  · have h0 := congrFun h 0
    have h1 := congrFun h 1
    have h2 := congrFun h 2
    simp only [mplNode, Matrix.cons_val_zero, Matrix.cons_val_one, Matrix.cons_val] at h0 h1 h2
    funext i
    fin_cases i
    · exact h0
    · exact h2
    · exact h1

theorem mem_tickRange (l : ℤ × ℤ) (t : ℤ) : t ∈ tickRange l ↔ l.1 ≤ t ∧ t ≤ l.2 := by
  unfold tickRange
  rw [List.mem_map]
  constructor
  · rintro ⟨n, hn, rfl⟩
    rw [List.mem_range] at hn
    omega
  · rintro ⟨h1, h2⟩
    exact ⟨(t - l.1).toNat, by rw [List.mem_range]; omega, by omega⟩

theorem tickRange_lt (l : ℤ × ℤ) : (tickRange l).Pairwise (· < ·) := by
  unfold tickRange
  rw [List.pairwise_map]
  exact List.pairwise_lt_range.imp fun h => by omega

theorem min?_le {l : List ℚ} {m : ℚ} (h : l.min? = some m) {a : ℚ} (ha : a ∈ l) : m ≤ a := (List.le_min?_iff h).1 le_rfl a ha

theorem le_max? {l : List ℚ} {m : ℚ} (h : l.max? = some m) {a : ℚ} (ha : a ∈ l) : a ≤ m := (List.max?_le_iff h).1 le_rfl a ha

/-- The default frame of a matplotlib drawing: it exists exactly for graphs with nodes; the ticks of each axis are exactly the integers from the
largest one below all nodes to the smallest one above all nodes, and the limits are those, or one more on each side when they coincide. -/
theorem C91_frame (nodes : List P3) :
    (nodes = [] → frame none nodes = none) ∧
    (nodes ≠ [] → ∃ f, frame none nodes = some f ∧ ∀ a, ∃ lo hi : ℤ,
      IsGreatest {k : ℤ | ∀ n ∈ nodes, (k : ℚ) ≤ mplNode n a} lo ∧ IsLeast {k : ℤ | ∀ n ∈ nodes, mplNode n a ≤ (k : ℚ)} hi ∧
      (f a).1.Pairwise (· < ·) ∧ (∀ t, t ∈ (f a).1 ↔ lo ≤ t ∧ t ≤ hi) ∧
      (f a).2.1 < (f a).2.2 ∧ (f a).2 = if lo = hi then (lo - 1, hi + 1) else (lo, hi)) := by
  constructor
  · rintro rfl
    rfl
  intro hne
  have key : ∀ i : Fin 3, ∃ lo hi : ℤ, defaultLim nodes i = some (lo, hi) ∧ IsGreatest {k : ℤ | ∀ n ∈ nodes, (k : ℚ) ≤ n i} lo ∧
      IsLeast {k : ℤ | ∀ n ∈ nodes, n i ≤ (k : ℚ)} hi ∧ lo ≤ hi := by
    intro i
    have hne' : nodes.map (· i) ≠ [] := by simpa using hne
    obtain ⟨m, hm⟩ := Option.isSome_iff_exists.1 (List.isSome_min?_iff.2 hne')
    obtain ⟨M, hM⟩ := Option.isSome_iff_exists.1 (List.isSome_max?_iff.2 hne')
    have hm1 := List.min?_mem hm
    have hM1 := List.max?_mem hM
    have hlim : defaultLim nodes i = some (⌊m⌋, ⌈M⌉) := by
      unfold defaultLim
      rw [hm, hM]
      rfl
    have g : ∀ n ∈ nodes, m ≤ n i := fun n hn => min?_le hm (List.mem_map.2 ⟨n, hn, rfl⟩)
    have g' : ∀ n ∈ nodes, n i ≤ M := fun n hn => le_max? hM (List.mem_map.2 ⟨n, hn, rfl⟩)
    refine ⟨⌊m⌋, ⌈M⌉, hlim, ⟨fun n hn => (Int.floor_le m).trans (g n hn), fun k hk => ?_⟩,
      ⟨fun n hn => (g' n hn).trans (Int.le_ceil M), fun k hk => ?_⟩, ?_⟩
    · obtain ⟨n, hn, e⟩ := List.mem_map.1 hm1
      rw [Int.le_floor, ← e]
      exact hk n hn
    · obtain ⟨n, hn, e⟩ := List.mem_map.1 hM1
      rw [Int.ceil_le, ← e]
      exact hk n hn
    · obtain ⟨n, hn, _⟩ := List.mem_map.1 hm1
      have h1 := (Int.floor_le m).trans ((g n hn).trans ((g' n hn).trans (Int.le_ceil M)))
      exact_mod_cast h1
  obtain ⟨x0, x1, hx, hx1, hx2, hx3⟩ := key 0
  obtain ⟨y0, y1, hy, hy1, hy2, hy3⟩ := key 1
  obtain ⟨z0, z1, hz, hz1, hz2, hz3⟩ := key 2
  have fin : ∀ {lo hi : ℤ}, lo ≤ hi → (widen (lo, hi)).1 < (widen (lo, hi)).2 ∧ widen (lo, hi) = if lo = hi then (lo - 1, hi + 1) else (lo, hi) := by
    intro lo hi h
    refine ⟨?_, rfl⟩
    unfold widen
    simp only
    split_ifs with e
    · simp only; omega
    · simp only; omega
  refine ⟨![(tickRange (x0, x1), widen (x0, x1)), (tickRange (z0, z1), widen (z0, z1)), (tickRange (y0, y1), widen (y0, y1))], ?_, fun a => ?_⟩
  · unfold frame
    rw [hx, hy, hz]
    rfl
  · fin_cases a
    · exact ⟨x0, x1, hx1, hx2, tickRange_lt _, mem_tickRange _, fin hx3⟩
    · exact ⟨z0, z1, hz1, hz2, tickRange_lt _, mem_tickRange _, fin hz3⟩
    · exact ⟨y0, y1, hy1, hy2, tickRange_lt _, mem_tickRange _, fin hy3⟩

/-- Given dimensions (for x, y, z) are used as they are, each on the axis labelled with its coordinate, and for any graph. -/
theorem C91_frame_given (d : Fin 3 → ℤ × ℤ) (nodes : List P3) :
    ∃ f, frame (some d) nodes = some f ∧ ∀ a i, mplLabels a = ["x", "y", "z"].getD i.val "" →
      (∀ t, t ∈ (f a).1 ↔ (d i).1 ≤ t ∧ t ≤ (d i).2) ∧ (f a).1.Pairwise (· < ·) ∧
      (f a).2 = if (d i).1 = (d i).2 then ((d i).1 - 1, (d i).2 + 1) else d i := by
  refine ⟨_, rfl, fun a i hi => ?_⟩
  fin_cases a <;> fin_cases i <;> first
    | exact ⟨mem_tickRange _, tickRange_lt _, rfl⟩
    | (exfalso; revert hi; decide)

/-- A concrete graph: two nodes and an edge. -/
example : frame none [![0, 1/2, 2], ![1, 1/2, 2]] = some ![([0, 1], (0, 1)), ([2], (1, 3)), ([0, 1], (0, 1))] := by
  have h : ∀ i, defaultLim [![0, 1/2, 2], ![1, 1/2, 2]] i = some (![(0, 1), (0, 1), (2, 2)] i) := by
    intro i
    fin_cases i <;> norm_num [defaultLim, List.min?, List.max?]
  unfold frame
  simp only [h]
  rfl

/-- The syndrome plot mixes two conventions: the voxel around the middle of a stabilizer is drawn at (x, y, z), the qubits (with `show_nodes`) at
(x, z, y).  A qubit sits at the drawn place that its coordinates have in the voxels' convention exactly when y = z. -/
theorem C91_syndrome_axes (n : P3) : mplNode n = n ↔ n 1 = n 2 := by
  constructor
  · intro h
    have := congrFun h 2
    simpa [mplNode] using this
  · intro h
    funext i
    fin_cases i
    · rfl
    · exact h.symm
    · exact h

/-- So qubits are not drawn on the voxels of their stabilizers: in an open code, a qubit of a stabilizer is drawn at distance more than two
from the middle of its voxel. -/
theorem C91_qubit_off_voxel : ∃ (code : Code) (bits : V → Bool) (vs : List ((Fin 3 → ℝ) × (Fin 3 → ℝ) × String)) (k : ℕ) (x : V) (c : V),
    IsCode code ∧ code.boundaries = .open ∧ voxels code bits = some vs ∧ ∃ hk : k < vs.length, x ∈ code.stabs.getD k [] ∧
      box vs[k].1 vs[k].2.1 = {p : Fin 3 → ℝ | ∀ i, |p i - (c i : ℝ)| ≤ 0.85} ∧
      2 ≤ |mplNode (fun i => (x i : ℚ)) 1 - (c 1 : ℚ)| := by
  obtain ⟨code, h0, _, _, hb⟩ := C54_constructor_total idOrder .primal .open (dims := fun _ => 2) (by simp) none
  have h : IsCode code := ⟨_, _, _, _, _, by simp, h0⟩
  have hf : ((surfaceCode idOrder .primal .open (fun _ => 2) none).map fun code =>
      (code.stabs.length, decide (![2, 1, 3] ∈ code.stabs.getD 1 []), midpoint ((physical code).getD 1 []))) =
      some (4, true, some ![1, 1, 3]) := by
    decide +kernel
  rw [h0, Option.map_some, Option.some.injEq] at hf
  simp only [Prod.mk.injEq, decide_eq_true_eq] at hf
  obtain ⟨f1, f2, f3⟩ := hf
  obtain ⟨vs, hv, hl, hvox, _⟩ := C82_voxels h fun _ => false
  have hk : 1 < vs.length := by omega
  obtain ⟨c, hc, hbox, _⟩ := hvox 1 hk
  rw [f3] at hc
  obtain rfl := Option.some.inj hc
  refine ⟨code, fun _ => false, vs, 1, ![2, 1, 3], ![1, 1, 3], h, hb, hv, hk, f2, ?_, ?_⟩
  · rw [hbox]
    have e : ∀ i : Fin 3, (((![1, 1, 3] : Fin 3 → ℚ) i : ℚ) : ℝ) = (((![1, 1, 3] : V) i : ℤ) : ℝ) := fun i => by fin_cases i <;> simp
    simp only [e]
  · simp [mplNode]
    norm_num

/-- The middle of a stabilizer. -/
theorem center_of {code : Code} (h : IsCode code) {k : ℕ} (hk : k < code.stabs.length) : ∃ c : V,
    midpoint ((physical code).getD k []) = some (fun i => (c i : ℚ)) ∧
    (∀ i, c i % 2 = match code.ec with
      | .primal => 1
      | .dual => 0) ∧
    ∀ i, inAxis (boundsOf code.ec code.boundaries i) (code.dims i) (c i) := by
  obtain ⟨hok, hd⟩ := h.ok
  have hph : physical code = (centers code.ec code.dims (boundsOf code.ec code.boundaries)).map around := sixBodies_eq _ _ _
  have hk' : k < (centers code.ec code.dims (boundsOf code.ec code.boundaries)).length := by rw [hok.stabs_length]; exact hk
  have hcm := (mem_centers _ _ _ _).1 (List.getElem_mem hk')
  refine ⟨_, ?_, fun i => ?_, fun i => (hcm i).2⟩
  · rw [hph, List.getD_eq_getElem _ _ (by rw [List.length_map]; exact hk'), List.getElem_map, midpoint_around]
  · rw [(hcm i).1]
    cases code.ec <;> rfl

/-- A dual code has a stabilizer on the first plane. -/
theorem dual_zero {code : Code} (h : IsCode code) (he : code.ec = .dual) : ∃ k < code.stabs.length, ∃ c : V,
    midpoint ((physical code).getD k []) = some (fun i => (c i : ℚ)) ∧ c 0 = 0 := by
  obtain ⟨hok, hd⟩ := h.ok
  have hph : physical code = (centers code.ec code.dims (boundsOf code.ec code.boundaries)).map around := sixBodies_eq _ _ _
  have hm : (![0, if code.boundaries = .open then 2 else 0, 0] : V) ∈ centers code.ec code.dims (boundsOf code.ec code.boundaries) := by
    rw [mem_centers]
    intro i
    have hdi := hd i
    rw [he]
    cases hbb : code.boundaries <;> fin_cases i <;>
      simp [inAxis, boundsOf, boundStr, strToBound, PyDict.get?, cellPar] at hdi ⊢ <;> omega
  obtain ⟨k, hk, e⟩ := List.getElem_of_mem hm
  refine ⟨k, by rw [← hok.stabs_length]; exact hk, ![0, if code.boundaries = .open then 2 else 0, 0], ?_, ?_⟩
  · rw [hph, List.getD_eq_getElem _ _ (by rw [List.length_map]; exact hk), List.getElem_map, e, midpoint_around]
  · rfl

/-- The limits of the syndrome plot leave room for all voxels of a primal code. -/
theorem C91_limits {code : Code} (h : IsCode code) (he : code.ec = .primal) (bits : V → Bool) : ∃ vs, voxels code bits = some vs ∧
    ∀ v ∈ vs, ∀ p ∈ box v.1 v.2.1, ∀ i, ((plotLims code i).1 : ℝ) ≤ p i ∧ p i ≤ ((plotLims code i).2 : ℝ) := by
  obtain ⟨vs, hv, hl, hvox, _⟩ := C82_voxels h bits
  refine ⟨vs, hv, fun v hv' p hp i => ?_⟩
  obtain ⟨k, hk, rfl⟩ := List.getElem_of_mem hv'
  obtain ⟨c, hc, hbox, _⟩ := hvox k hk
  obtain ⟨c', hc', hpar, hin⟩ := center_of h (by omega : k < code.stabs.length)
  rw [hc] at hc'
  obtain rfl := Option.some.inj hc'
  rw [hbox] at hp
  have h1 := abs_le.1 (hp i)
  have h2 := hin i
  have h3 := hpar i
  rw [he] at h3
  simp only at h3
  have h4 : 1 ≤ c' i ∧ c' i ≤ 2 * (code.dims i : ℤ) - 1 := by
    cases hbd : boundsOf code.ec code.boundaries i <;> rw [hbd] at h2 <;> simp only [inAxis] at h2 <;> omega
  have h5 : plotLims code i = (0, 2 * (code.dims i : ℤ)) := by
    unfold plotLims
    rw [he]
    fin_cases i <;> rfl
  rw [h5]
  have h6 : (1 : ℝ) ≤ (c' i : ℝ) := by exact_mod_cast h4.1
  have h7 : (c' i : ℝ) ≤ 2 * (code.dims i : ℝ) - 1 := by exact_mod_cast h4.2
  simp only [Rat.cast_intCast] at h1
  push_cast
  constructor <;> linarith [h1.1, h1.2]

/-- For a dual code they do not: the voxel of a stabilizer is inside the limits exactly when its first and last coordinates are not zero
(the room is made along the second axis, where no voxel of an open code needs it), and every dual code has voxels outside. -/
theorem C91_limits_dual {code : Code} (h : IsCode code) (he : code.ec = .dual) (bits : V → Bool) : ∃ vs, voxels code bits = some vs ∧
    (∀ k (hk : k < vs.length), ∃ c : V, midpoint ((physical code).getD k []) = some (fun i => (c i : ℚ)) ∧
      ((∀ p ∈ box vs[k].1 vs[k].2.1, ∀ i, ((plotLims code i).1 : ℝ) ≤ p i ∧ p i ≤ ((plotLims code i).2 : ℝ)) ↔ c 0 ≠ 0 ∧ c 2 ≠ 0)) ∧
    ∃ v ∈ vs, ∃ p ∈ box v.1 v.2.1, p 0 < ((plotLims code 0).1 : ℝ) := by
  obtain ⟨vs, hv, hl, hvox, _⟩ := C82_voxels h bits
  refine ⟨vs, hv, fun k hk => ?_, ?_⟩
  · obtain ⟨c, hc, hbox, _⟩ := hvox k hk
    obtain ⟨c', hc', hpar, hin⟩ := center_of h (by omega : k < code.stabs.length)
    rw [hc] at hc'
    obtain rfl := Option.some.inj hc'
    refine ⟨c', hc, ?_⟩
    rw [hbox]
    simp only [Rat.cast_intCast]
    have h4 : ∀ i, c' i % 2 = 0 ∧ 0 ≤ c' i ∧ c' i ≤ 2 * (code.dims i : ℤ) - 2 := by
      intro i
      have h2 := hin i
      have h3 := hpar i
      rw [he] at h3
      simp only at h3
      cases hbd : boundsOf code.ec code.boundaries i <;> rw [hbd] at h2 <;> simp only [inAxis] at h2 <;> omega
    have h5 : plotLims code 0 = (0, 2 * (code.dims 0 : ℤ)) ∧ plotLims code 1 = (-2, 2 * (code.dims 1 : ℤ)) ∧
        plotLims code 2 = (0, 2 * (code.dims 2 : ℤ)) := by
      unfold plotLims
      rw [he]
      exact ⟨rfl, rfl, rfl⟩
    constructor
    · intro hp
      have key : ∀ i, (plotLims code i).1 = 0 → c' i ≠ 0 := by
        intro i hi e
        have := (hp (fun j => (c' j : ℝ) - 0.85) (fun j => by rw [sub_sub_cancel_left, abs_neg]; norm_num) i).1
        rw [hi, e] at this
        norm_num at this
      exact ⟨key 0 (by rw [h5.1]), key 2 (by rw [h5.2.2])⟩
    · rintro ⟨n0, n2⟩ p hp i
      have h6 := abs_le.1 (hp i)
      have h7 : (c' i : ℝ) ≤ 2 * (code.dims i : ℝ) - 2 := by exact_mod_cast (h4 i).2.2
      have h8 : (0 : ℝ) ≤ (c' i : ℝ) := by exact_mod_cast (h4 i).2.1
      have h9 : ∀ j, c' j ≠ 0 → (2 : ℝ) ≤ (c' j : ℝ) := by
        intro j hj
        have := h4 j
        have : 2 ≤ c' j := by omega
        exact_mod_cast this
      fin_cases i
      · simp only [Fin.zero_eta, h5.1] at h6 h7 h8 ⊢
        have := h9 0 n0
        push_cast
        constructor <;> linarith [h6.1, h6.2]
      · simp only [Fin.mk_one, h5.2.1] at h6 h7 h8 ⊢
        push_cast
        constructor <;> linarith [h6.1, h6.2]
      · simp only [Fin.reduceFinMk, h5.2.2] at h6 h7 h8 ⊢
        have := h9 2 n2
        push_cast
        constructor <;> linarith [h6.1, h6.2]
  · obtain ⟨k, hk, c, hc, h0⟩ := dual_zero h he
    have hk' : k < vs.length := by omega
    obtain ⟨c', hc', hbox, _⟩ := hvox k hk'
    rw [hc] at hc'
    obtain rfl := Option.some.inj hc'
    refine ⟨vs[k], List.getElem_mem hk', fun j => (c j : ℝ) - 0.85, ?_, ?_⟩
    · rw [hbox]
      intro j
      simp only [Rat.cast_intCast]
      rw [sub_sub_cancel_left, abs_neg]
      norm_num
    · have : plotLims code 0 = (0, 2 * (code.dims 0 : ℤ)) := rfl
      rw [this]
      simp only [h0]
      norm_num

end Flamingpy.Viz
