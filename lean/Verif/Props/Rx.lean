import Verif.Proofs.RxMatch
import Verif.Props.Mwpm
import Verif.Props.StabGraph
import Mathlib.Tactic.IntervalCases

/-!
# C70: node indices of the rustworkx classes

`RxStabilizerGraph` and `RxMatchingGraph` translate between nodes and the integers of `rustworkx.PyGraph`.  `rxStabGraph`, `rxsAssign`,
`rxMwpm`, … (Model/Rx) are the methods with the translations, `stabGraph`, `weightedEdges`, `mwpmDecoder`, … the ones without.
-/

namespace Flamingpy.SurfaceCode

open Flamingpy

/-! ### The stabilizer graph -/

/-- The constructor succeeds, and the nodes, edges, common vertices, neighbours and outgoing edges are those of the graph without indices.
Edges are listed once, in the order they were added. -/
theorem C70_graph {code : Code} (h : IsCode code) (sp : SetPop) :
    ∃ G, rxStabGraph sp code = some G ∧ rxsNodes G = (stabGraph .rustworkx sp code).nodes ∧
      (∃ es, rxsEdges G = some es ∧ (es.map fun e => s(e.1, e.2)) = PyDict.keys (stabGraph .rustworkx sp code).edges ∧
        (es.map fun e => s(e.1, e.2)).Nodup) ∧
      (∀ u v, (rxsEdgeData G u v).map (·.commonVertex) = sgEdgeData (stabGraph .rustworkx sp code) u v) ∧
      ∀ u ∈ (stabGraph .rustworkx sp code).nodes,
        (∃ l, rxsNeighbors G u = some l ∧ l.Nodup ∧ ∀ v, v ∈ l ↔ (sgEdgeData (stabGraph .rustworkx sp code) u v).isSome) ∧
        ∃ l, rxsOutEdges G u = some l ∧ l.Nodup ∧
          ∀ e, e ∈ l ↔ e.1 = u ∧ (sgEdgeData (stabGraph .rustworkx sp code) u e.2).isSome := by
  obtain ⟨G, D, h1, h2⟩ := rep_stabGraph sp code (h.ok.1.bound_nodup h.ok.2)
  have hn : (PyDict.keys (Flamingpy.SurfaceCode.stabGraph .rustworkx sp code).edges).Nodup := by
    rw [(h.stabGraph .rustworkx sp).1]
    exact h.ok.1.codeEdges_nodup h.ok.2 sp
  have hes : ((D.map (·.1)).map fun e => s(e.1, e.2)) = PyDict.keys (Flamingpy.SurfaceCode.stabGraph .rustworkx sp code).edges := by
    rw [h2.keys_eq]
    simp [symOf, PyDict.keys, Function.comp_def]
  have hiff : ∀ u v, s(u, v) ∈ PyDict.keys (Flamingpy.SurfaceCode.stabGraph .rustworkx sp code).edges ↔
      (sgEdgeData (Flamingpy.SurfaceCode.stabGraph .rustworkx sp code) u v).isSome := fun u v => (PyDict.get?_isSome_iff _ _).symm
  refine ⟨G, h1, h2.nodes_eq, ⟨D.map (·.1), h2.edges_eq, hes, by rw [hes]; exact hn⟩, h2.edgeData_cv, fun u hu => ⟨?_, ?_⟩⟩
  · obtain ⟨l, l1, l2, l3⟩ := h2.neighbors_eq hu
    exact ⟨l, l1, l2, fun v => (l3 v).trans (hiff u v)⟩
  · obtain ⟨l, l1, l2, l3⟩ := h2.outEdges_eq hu
    refine ⟨_, l1, (l3 hn).map fun a b hab => (Prod.mk.inj hab).2, fun e => ?_⟩
    rw [List.mem_map]
    constructor
    · rintro ⟨v, hv, rfl⟩
      exact ⟨rfl, (hiff u v).1 ((l2 v).1 hv)⟩
    · rintro ⟨e1, e2⟩
      exact ⟨e.2, (l2 _).2 ((hiff u e.2).2 e2), by rw [← e1]⟩

/-- The graph after weights have been assigned any number of times, the last time from `w`. -/
theorem IsCode.rx {code : Code} (h : IsCode code) (sp : SetPop) (ws : List (V → ℚ)) (w : V → ℚ) :
    ∃ G G' D, rxStabGraph sp code = some G ∧ ((ws ++ [w]).foldlM (fun G w => rxsAssign w G) G) = some G' ∧
      WRep G' (Flamingpy.SurfaceCode.stabGraph .rustworkx sp code) w D := by
  obtain ⟨G, D, h1, h2⟩ := rep_stabGraph sp code (h.ok.1.bound_nodup h.ok.2)
  have hn : (PyDict.keys (Flamingpy.SurfaceCode.stabGraph .rustworkx sp code).edges).Nodup := by
    rw [(h.stabGraph .rustworkx sp).1]
    exact h.ok.1.codeEdges_nodup h.ok.2 sp
  have hc : ∀ e ∈ (Flamingpy.SurfaceCode.stabGraph .rustworkx sp code).edges, e.2 = none → SNode.low ∈ e.1 ∨ SNode.high ∈ e.1 := by
    rintro ⟨e, cv⟩ he rfl
    rw [(h.stabGraph .rustworkx sp).1] at he
    rcases (edge_none sp he).1 with h | h
    · exact Or.inl h.1
    · exact Or.inr h.1
  have hist : ∀ (ws : List (V → ℚ)) (G : RxStab) (D : List ((SNode × SNode) × EdgeDict)),
      Rep G (Flamingpy.SurfaceCode.stabGraph .rustworkx sp code) D → ∃ G' D', ws.foldlM (fun G w => rxsAssign w G) G = some G' ∧
        Rep G' (Flamingpy.SurfaceCode.stabGraph .rustworkx sp code) D' := by
    intro ws
    induction ws with
    | nil => exact fun G D h => ⟨G, D, rfl, h⟩
    | cons w ws ih =>
      intro G D hG
      obtain ⟨G1, D1, e1, r1⟩ := hG.assign w hn hc
      obtain ⟨G2, D2, e2, r2⟩ := ih G1 D1 r1.toRep
      exact ⟨G2, D2, by rw [List.foldlM_cons, e1]; exact e2, r2⟩
  obtain ⟨G1, D1, e1, r1⟩ := hist ws G D h2
  obtain ⟨G2, D2, e2, r2⟩ := r1.assign w hn hc
  refine ⟨G, G2, D2, h1, ?_, r2⟩
  rw [List.foldlM_append, e1]
  simp [e2]

theorem IsCode.rx_nodes {code : Code} (h : IsCode code) (sp : SetPop) :
    (Flamingpy.SurfaceCode.stabGraph .rustworkx sp code).nodes =
      .low :: .high :: ((List.range code.stabs.length).map SNode.stab ++ code.boundPoints.map SNode.pt) := by
  rw [stabGraph_eq .rustworkx sp code (h.ok.1.bound_nodup h.ok.2)]
  rfl

theorem IsCode.rx_paths {code : Code} (h : IsCode code) (sp : SetPop) {w : V → ℚ} (hw : ∀ x ∈ code.syndrome, 0 ≤ w x) (rl : RxPathLib)
    {G : RxStab} {D : List ((SNode × SNode) × EdgeDict)} (hG : WRep G (Flamingpy.SurfaceCode.stabGraph .rustworkx sp code) w D) :
    ∃ lib : PathLib, Paths rl lib G (Flamingpy.SurfaceCode.stabGraph .rustworkx sp code)
      (weightedEdges (Flamingpy.SurfaceCode.stabGraph .rustworkx sp code) w) := by
  have hn : (PyDict.keys (Flamingpy.SurfaceCode.stabGraph .rustworkx sp code).edges).Nodup := by
    rw [(h.stabGraph .rustworkx sp).1]
    exact h.ok.1.codeEdges_nodup h.ok.2 sp
  exact hG.paths (h.rx_nodes sp) (h.edges_nonneg .rustworkx sp hw) hn rl

/-- After weights have been assigned, however often: the dictionaries of paths hold, for every node that can be reached, a shortest path and
the sum of its weights (each truncated), and nothing for the others; `shortest_paths_without_high_low` keeps away from the connectors. -/
theorem C70_paths {code : Code} (h : IsCode code) (sp : SetPop) (ws : List (V → ℚ)) (w : V → ℚ) (hw : ∀ x ∈ code.syndrome, 0 ≤ w x)
    (rl : RxPathLib) :
    ∃ G G', rxStabGraph sp code = some G ∧ ((ws ++ [w]).foldlM (fun G w => rxsAssign w G) G) = some G' ∧
      ∀ s ∈ (stabGraph .rustworkx sp code).nodes, ∀ E r,
        (E = withoutConnectors (weightedEdges (stabGraph .rustworkx sp code) w) ∧ rxsWithout rl G' s = r ∨
          E = weightedEdges (stabGraph .rustworkx sp code) w ∧ rxsFrom rl G' s = r) →
        ∃ lengths paths, r = some (lengths, paths) ∧ ∀ t ∈ (stabGraph .rustworkx sp code).nodes, t ≠ s →
          (PyDict.get? paths t = none ↔ ∀ p, ¬ IsWalk E s t p) ∧ (PyDict.get? lengths t = none ↔ ∀ p, ¬ IsWalk E s t p) ∧
          ∀ p, PyDict.get? paths t = some p → IsWalk E s t p ∧ (∀ p', IsWalk E s t p' → walkWeight E p ≤ walkWeight E p') ∧
            PyDict.get? lengths t = some (walkSum (fun x => (pyInt x : ℚ)) E p) := by
  obtain ⟨G, G', D, e1, e2, hG⟩ := h.rx sp ws w
  obtain ⟨lib, hlib⟩ := h.rx_paths sp hw rl hG
  refine ⟨G, G', e1, e2, fun s hs E r hr => ?_⟩
  have hEE := h.edges_nonneg .rustworkx sp hw
  set A := Flamingpy.SurfaceCode.stabGraph .rustworkx sp code with hA
  have hE : ∀ e ∈ E, 0 ≤ e.2 := by
    rcases hr with ⟨rfl, -⟩ | ⟨rfl, -⟩
    · exact withoutConnectors_nonneg hEE
    · exact hEE
  obtain ⟨⟨lengths, paths⟩, er, hp⟩ : ∃ r', r = some r' ∧ ∀ t ∈ A.nodes, PyDict.get? r'.2 t = lib.find E s t ∧
      PyDict.get? r'.1 t = (lib.find E s t).map (pathLength .rustworkx (weightedEdges A w)) := by
    rcases hr with ⟨rfl, rfl⟩ | ⟨rfl, rfl⟩
    · exact (hlib s hs).1
    · exact (hlib s hs).2
  refine ⟨lengths, paths, er, fun t ht hts => ?_⟩
  obtain ⟨h2, h1⟩ := hp t ht
  simp only at h1 h2
  have hnone : lib.find E s t = none ↔ ∀ p, ¬ IsWalk E s t p := by
    constructor
    · exact lib.complete E s t hE (Ne.symm hts)
    · intro hno
      cases hf : lib.find E s t with
      | none => rfl
      | some p => exact absurd (lib.sound E s t p hE (Ne.symm hts) hf).1 (hno p)
  rw [h1, h2]
  refine ⟨hnone, by rw [Option.map_eq_none_iff]; exact hnone, fun p hp => ?_⟩
  obtain ⟨w1, w2⟩ := lib.sound E s t p hE (Ne.symm hts) hp
  refine ⟨w1, w2, ?_⟩
  rw [hp, Option.map_some]
  unfold pathLength
  simp only
  rcases hr with ⟨rfl, -⟩ | ⟨rfl, -⟩
  · congr 1
    exact (walkSum_withoutConnectors _ w1.2.2).symm
  · rfl

/-! ### The decoder -/

/-- The decoder with the default backends, after weights have been assigned any number of times: it computes what the decoder without indices
computes, for a shortest-path routine that depends only on the code and for some matching routine. -/
theorem C70_decoder {code : Code} (h : IsCode code) (sp : SetPop) (ws : List (V → ℚ)) (w : V → ℚ) (hw : ∀ x ∈ code.syndrome, 0 ≤ w x)
    (rl : RxPathLib) (rm : RxMatchLib) :
    ∃ G G', rxStabGraph sp code = some G ∧ ((ws ++ [w]).foldlM (fun G w => rxsAssign w G) G) = some G' ∧
      ∃ lib : PathLib, ∀ bits, ∃ ml : MatchLib,
        rxMwpm rl rm G' bits = mwpmDecoder .rustworkx lib ml (stabGraph .rustworkx sp code) w bits := by
  obtain ⟨G, G', D, e1, e2, hG⟩ := h.rx sp ws w
  obtain ⟨lib, hlib⟩ := h.rx_paths sp hw rl hG
  refine ⟨G, G', e1, e2, lib, fun bits => ?_⟩
  refine decoder_sim hG.toRep hlib ?_ ?_ (fun k hk => ?_) bits rm
  · rw [h.rx_nodes sp]; simp
  · rw [h.rx_nodes sp]; simp
  · rw [(h.stabGraph .rustworkx sp).2.1] at hk
    rw [h.rx_nodes sp]; simp [hk]

/-- So no stabilizer is odd after its recovery. -/
theorem C70_clears {code : Code} (h : IsCode code) (sp : SetPop) (ws : List (V → ℚ)) (w : V → ℚ) (hw : ∀ x ∈ code.syndrome, 0 ≤ w x)
    (rl : RxPathLib) (rm : RxMatchLib) :
    ∃ G G', rxStabGraph sp code = some G ∧ ((ws ++ [w]).foldlM (fun G w => rxsAssign w G) G) = some G' ∧
      ∀ bits, ∃ R bits', rxMwpm rl rm G' bits = some R ∧ R.Nodup ∧ (∀ q ∈ R, ∃ x ∈ code.syndrome, q = some x) ∧
        recovery (PyDict.keys code.graph.nodes) R bits = some bits' ∧ trivialSyndrome code bits' := by
  obtain ⟨G, G', e1, e2, lib, hd⟩ := C70_decoder h sp ws w hw rl rm
  refine ⟨G, G', e1, e2, fun bits => ?_⟩
  obtain ⟨ml, hml⟩ := hd bits
  rw [hml]
  exact C34_clears h .rustworkx lib ml sp w hw bits

/-! ### Histories -/

/-- A call of `add_node` or `add_edge`. -/
inductive GraphOp where
  | node (n : SNode)
  | edge (u v : SNode) (cv : Option V)

/-- The call, on an `RxStabilizerGraph`. -/
def GraphOp.run (G : RxStab) : GraphOp → Option RxStab
  | .node n => some (rxsAddNode G n)
  | .edge u v cv => rxsAddEdge G u v cv

/-- The nodes added by some calls. -/
def opNodes (ops : List GraphOp) : List SNode := ops.filterMap fun
  | .node n => some n
  | .edge _ _ _ => none

/-- The edges added by some calls. -/
def opEdges (ops : List GraphOp) : List ((SNode × SNode) × Option V) := ops.filterMap fun
  | .node _ => none
  | .edge u v cv => some ((u, v), cv)

/-- Every edge joins nodes added before. -/
def endsKnown (ops : List GraphOp) : Prop :=
  ∀ pre u v cv, pre ++ [GraphOp.edge u v cv] <+: ops → u ∈ opNodes pre ∧ v ∈ opNodes pre

theorem ops_rep (ops : List GraphOp) (hn : (opNodes ops).Nodup) (hk : endsKnown ops) :
    ∃ G D, ops.foldlM GraphOp.run ⟨.empty true, [], [], []⟩ = some G ∧
      Rep G ⟨opNodes ops, [], [], [], (opEdges ops).map fun e => (s(e.1.1, e.1.2), e.2)⟩ D ∧ D.map (·.1) = (opEdges ops).map (·.1) := by
  induction ops using List.reverseRecOn with
  | nil => exact ⟨_, [], rfl, rep_empty, rfl⟩
  | append_singleton ops op ih =>
    have hn' : (opNodes ops).Nodup := by
      unfold opNodes at hn
      rw [List.filterMap_append] at hn
      exact hn.of_append_left
    obtain ⟨G, D, e1, r1, d1⟩ := ih hn' fun pre u v cv hp => hk pre u v cv (hp.trans (List.prefix_append _ _))
    rw [List.foldlM_append, e1]
    cases op with
    | node n =>
      have hni : n ∉ opNodes ops := by
        unfold opNodes at hn
        rw [List.filterMap_append] at hn
        intro hc
        exact (List.nodup_append.1 hn).2.2 n hc n (by simp) rfl
      have r2 := r1.addNode hni
      refine ⟨rxsAddNode G n, D, by simp [GraphOp.run], ?_, ?_⟩
      · have h1 : opNodes (ops ++ [.node n]) = opNodes ops ++ [n] := by simp [opNodes]
        have h2 : opEdges (ops ++ [.node n]) = opEdges ops := by simp [opEdges]
        rw [h1, h2]
        exact r2
      · simpa [opEdges] using d1
    | edge u v cv =>
      obtain ⟨hu, hv⟩ := hk ops u v cv (List.prefix_refl _)
      obtain ⟨G2, e2, r2⟩ := r1.addEdge hu hv cv
      refine ⟨G2, D ++ [((u, v), ⟨cv, none⟩)], by simp [GraphOp.run, e2], ?_, ?_⟩
      · have h1 : opNodes (ops ++ [.edge u v cv]) = opNodes ops := by simp [opNodes]
        have h2 : opEdges (ops ++ [.edge u v cv]) = opEdges ops ++ [((u, v), cv)] := by simp [opEdges]
        rw [h1, h2, List.map_append]
        exact r2
      · rw [List.map_append, d1]
        simp [opEdges]

/-- Whatever nodes and edges are added, in whatever order: as long as no node is added twice and edges join nodes already there, the calls
succeed, nodes and edges come back in the order they were added, and the data of an edge are those it was first added with. -/
theorem C70_history (ops : List GraphOp) (hn : (opNodes ops).Nodup) (hk : endsKnown ops) :
    ∃ G, ops.foldlM GraphOp.run ⟨.empty true, [], [], []⟩ = some G ∧ rxsNodes G = opNodes ops ∧
      rxsEdges G = some ((opEdges ops).map (·.1)) ∧
      (∀ u v, (rxsEdgeData G u v).map (·.commonVertex) = ((opEdges ops).find? fun e => decide (s(e.1.1, e.1.2) = s(u, v))).map (·.2)) ∧
      ∀ u ∈ opNodes ops, ∃ l, rxsNeighbors G u = some l ∧ l.Nodup ∧
        ∀ v, v ∈ l ↔ ∃ e ∈ opEdges ops, s(e.1.1, e.1.2) = s(u, v) := by
  obtain ⟨G, D, e1, r, d⟩ := ops_rep ops hn hk
  refine ⟨G, e1, r.nodes_eq, by rw [r.edges_eq, d], fun u v => ?_, fun u hu => ?_⟩
  · rw [r.edgeData_cv]
    unfold sgEdgeData PyDict.get?
    rw [List.find?_map, Option.map_map]
    rfl
  · obtain ⟨l, l1, l2, l3⟩ := r.neighbors_eq hu
    refine ⟨l, l1, l2, fun v => ?_⟩
    rw [l3]
    unfold PyDict.keys
    rw [List.map_map, List.mem_map]
    rfl

/-- An edge to a node that was never added is a `KeyError`. -/
theorem C70_unknown (ops : List GraphOp) (hn : (opNodes ops).Nodup) (hk : endsKnown ops) {G : RxStab}
    (hG : ops.foldlM GraphOp.run ⟨.empty true, [], [], []⟩ = some G) (u v : SNode) (cv : Option V)
    (h : u ∉ opNodes ops ∨ v ∉ opNodes ops) : rxsAddEdge G u v cv = none := by
  obtain ⟨G', D, e1, r, d⟩ := ops_rep ops hn hk
  rw [hG] at e1
  obtain rfl := Option.some.inj e1
  unfold rxsAddEdge
  by_cases hu : u ∈ opNodes ops
  · have hv := h.resolve_left (not_not.2 hu)
    have i1 : PyDict.get? G.base.nodeToIndex u = some ((opNodes ops).idxOf u) := by rw [r.base]; exact rxOf_index hu
    have i2 : PyDict.get? G.base.nodeToIndex v = none := by rw [r.base]; exact rxOf_index_none hv
    simp only [i1, i2, Option.bind_eq_bind, Option.bind_some, Option.bind_none]
  · have i1 : PyDict.get? G.base.nodeToIndex u = none := by rw [r.base]; exact rxOf_index_none hu
    simp only [i1, Option.bind_eq_bind, Option.bind_none]

/-- Adding a node again hides its edges (`networkx` keeps them): the node gets a new index. -/
theorem C70_readd (ops : List GraphOp) (hn : (opNodes ops).Nodup) (hk : endsKnown ops) {G : RxStab}
    (hG : ops.foldlM GraphOp.run ⟨.empty true, [], [], []⟩ = some G) (u v : SNode) :
    rxsEdgeData (rxsAddNode G u) u v = none ∧ rxsEdgeData (rxsAddNode G u) v u = none := by
  obtain ⟨G', D, e1, r, d⟩ := ops_rep ops hn hk
  rw [hG] at e1
  obtain rfl := Option.some.inj e1
  have hnode : (rxsAddNode G u).base.graph.edges = G.base.graph.edges := rfl
  have hi : PyDict.get? (rxsAddNode G u).base.nodeToIndex u = some (opNodes ops).length := by
    change PyDict.get? (PyDict.set G.base.nodeToIndex u G.base.graph.nodes.length) u = _
    rw [PyDict.get?_set, r.base]
    simp [rxOf]
  have hno : ∀ i, (rxsAddNode G u).base.graph.getEdgeData (opNodes ops).length i = none ∧
      (rxsAddNode G u).base.graph.getEdgeData i (opNodes ops).length = none := by
    intro i
    unfold PyGraph.getEdgeData
    rw [hnode, r.base]
    have hlt : ∀ e ∈ (rxOf true (opNodes ops) D).graph.edges, (opNodes ops).length ∉ s(e.1.1, e.1.2) := by
      intro e he
      obtain ⟨e', he', rfl⟩ := List.mem_map.1 he
      obtain ⟨o1, o2⟩ := r.over e' he'
      have l1 := List.idxOf_lt_length_of_mem o1
      have l2 := List.idxOf_lt_length_of_mem o2
      simp only [Sym2.mem_iff] at l1 l2 ⊢
      omega
    constructor
    · rw [Option.map_eq_none_iff, List.find?_eq_none]
      intro e he hc
      rw [decide_eq_true_eq] at hc
      exact hlt e he (by rw [hc]; simp)
    · rw [Option.map_eq_none_iff, List.find?_eq_none]
      intro e he hc
      rw [decide_eq_true_eq] at hc
      exact hlt e he (by rw [hc]; simp)
  constructor
  · unfold rxsEdgeData
    simp only [hi, Option.bind_eq_bind, Option.bind_some]
    cases PyDict.get? (rxsAddNode G u).base.nodeToIndex v with
    | none => rfl
    | some i => exact (hno i).1
  · unfold rxsEdgeData
    simp only [hi, Option.bind_eq_bind]
    cases PyDict.get? (rxsAddNode G u).base.nodeToIndex v with
    | none => rfl
    | some i => exact (hno i).2

theorem endsKnown_of {ops : List GraphOp}
    (h : ∀ i (hi : i < ops.length) u v cv, ops[i] = .edge u v cv → u ∈ opNodes (ops.take i) ∧ v ∈ opNodes (ops.take i)) : endsKnown ops := by
  rintro pre u v cv ⟨l, rfl⟩
  have := h pre.length (by simp) u v cv (by simp)
  simpa using this

/-! ### Examples -/

-- the assumptions on the library can be met
example : Nonempty RxPathLib ∧ Nonempty RxMatchLib := ⟨rxPathLib_exists, rxMatchLib_exists⟩

-- a history with two parallel edges
example : let ops : List GraphOp := [.node .low, .node (.stab 0), .edge .low (.stab 0) none, .node (.stab 1),
      .edge (.stab 1) (.stab 0) (some ![1, 1, 2]), .edge (.stab 0) (.stab 1) (some ![1, 2, 1])]
    (opNodes ops).Nodup ∧ endsKnown ops ∧
      (ops.foldlM GraphOp.run ⟨.empty true, [], [], []⟩).bind (fun G => rxsNeighbors G (.stab 0)) = some [.low, .stab 1] ∧
      ((ops.foldlM GraphOp.run ⟨.empty true, [], [], []⟩).bind fun G => rxsEdgeData G (.stab 0) (.stab 1)).map (·.commonVertex) =
        some (some ![1, 1, 2]) := by
  refine ⟨by decide, endsKnown_of ?_, by decide, by decide⟩
  intro i hi u v cv h
  have hi : i < 6 := hi
  interval_cases i <;> simp at h <;> obtain ⟨rfl, rfl, rfl⟩ := h <;> decide

-- the smallest code: the constructor and the assignment of weights, with the indices
example : ((surfaceCode idOrder .primal .open (fun _ => 2) none).bind fun code => (rxStabGraph headPop code).bind fun G =>
    (rxsAssign (fun _ => 1) G).map fun G => ((rxsNodes G).length, G.base.graph.edges.length)) = some (14, 20) := by
  decide +kernel

end Flamingpy.SurfaceCode
