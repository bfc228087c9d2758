import Verif.Model.Readouts
import Verif.Props.Rx
import Verif.Props.SurfaceCode

/-!
# C71, C72: geometry of stabilizers, parts of stabilizer graphs, conversions to networkx
-/

namespace Flamingpy.SurfaceCode

open Flamingpy

/-! ### C71 -/

theorem lims_around (c : V) (i : Fin 3) : lims (around c) i = some (c i - 1, c i + 1) := by
  unfold lims around
  fin_cases i <;> simp [List.min?_cons', List.max?_cons', Function.update_apply] <;> omega

theorem midpoint_around (c : V) : midpoint (around c) = some fun i => (c i : ℚ) := by
  unfold midpoint
  simp only [lims_around, Option.bind_eq_bind, Option.bind_some, Option.pure_def, Option.some.injEq]
  funext i
  fin_cases i <;> simp <;> ring

/-- The `k`-th stabilizer has an integer midpoint, odd in all coordinates for primal and even for dual codes; it extends one step to either
side of it along each axis; its qubits are exactly the nodes of the code graph next to the midpoint; and no two stabilizers have the same
midpoint. -/
theorem C71_midpoint {code : Code} (h : IsCode code) :
    (physical code).length = code.stabs.length ∧
    ((physical code).map midpoint).Nodup ∧
    ∀ k < code.stabs.length, ∃ c : V,
      midpoint ((physical code).getD k []) = some (fun i => (c i : ℚ)) ∧
      (∀ i, lims ((physical code).getD k []) i = some (c i - 1, c i + 1)) ∧
      (∀ i, c i % 2 = match code.ec with
        | .primal => 1
        | .dual => 0) ∧
      ∀ x, x ∈ code.stabs.getD k [] ↔
        x ∈ PyDict.keys code.graph.nodes ∧ adjacent code.dims (boundsOf code.ec code.boundaries) x c := by
  obtain ⟨hok, hd⟩ := h.ok
  have hph : physical code = (centers code.ec code.dims (boundsOf code.ec code.boundaries)).map around := sixBodies_eq _ _ _
  refine ⟨by rw [hph, List.length_map, hok.stabs_length], ?_, fun k hk => ?_⟩
  · rw [hph, List.map_map]
    refine (centers_nodup _ _ _).map fun a b hab => ?_
    simp only [Function.comp, midpoint_around, Option.some.injEq] at hab
    funext i
    exact_mod_cast congrFun hab i
  · have hk' : k < (centers code.ec code.dims (boundsOf code.ec code.boundaries)).length := by rw [hok.stabs_length]; exact hk
    set c := (centers code.ec code.dims (boundsOf code.ec code.boundaries)).getD k (fun _ => 0) with hc
    have hcm : c ∈ centers code.ec code.dims (boundsOf code.ec code.boundaries) := by
      rw [hc, List.getD_eq_getElem _ _ hk']
      exact List.getElem_mem hk'
    have hget : (physical code).getD k [] = around c := by
      rw [hph, hc, List.getD_eq_getElem _ _ (by rw [List.length_map]; exact hk'), List.getElem_map, List.getD_eq_getElem _ _ hk']
    have hst := (forall₂_getD hok.stabs (fun _ => 0) [] hk').2
    refine ⟨c, by rw [hget, midpoint_around], fun i => by rw [hget, lims_around], fun i => ?_, fun x => ?_⟩
    · have := ((mem_centers _ _ _ _).1 hcm i).1
      rw [this]
      cases code.ec <;> rfl
    · constructor
      · intro hx
        exact ⟨h.syndrome_node (hok.mem_syndrome_of_stab hx), ((hst x).1 hx).2⟩
      · rintro ⟨h1, h2⟩
        exact (hst x).2 ⟨((hok.graphNodes x).1 h1).1, h2⟩

/-! ### C72 -/

/-- `bound_points` are those of the code, `has_bound_points` tells open codes from the others, `real_nodes` are the nodes except the
connectors, and `real_edges` are the edges that stand for a qubit. -/
theorem C72_real {code : Code} (h : IsCode code) (bk : Backend) (sp : SetPop) :
    sgBoundPoints (stabGraph bk sp code) = code.boundPoints ∧
    (sgHasBound (stabGraph bk sp code) = true ↔ code.boundaries = .open) ∧
    sgRealNodes (stabGraph bk sp code) = (stabGraph bk sp code).nodes.filter (fun n => decide (n ≠ .low ∧ n ≠ .high)) ∧
    (sgRealEdges (stabGraph bk sp code)).Nodup ∧
    ∀ u v, s(u, v) ∈ sgRealEdges (stabGraph bk sp code) ↔ ∃ x, sgEdgeData (stabGraph bk sp code) u v = some (some x) := by
  have hb := h.ok.1.bound_nodup h.ok.2
  have hbp : sgBoundPoints (Flamingpy.SurfaceCode.stabGraph bk sp code) = code.boundPoints := by
    unfold sgBoundPoints
    rw [stabGraph_eq bk sp code hb]
    exact List.take_append_drop _ _
  have hn : (PyDict.keys (Flamingpy.SurfaceCode.stabGraph bk sp code).edges).Nodup := by
    rw [(h.stabGraph bk sp).1]
    exact h.ok.1.codeEdges_nodup h.ok.2 sp
  refine ⟨hbp, ?_, ?_, hn.filter _, fun u v => ?_⟩
  · have : sgHasBound (Flamingpy.SurfaceCode.stabGraph bk sp code) = true ↔ code.boundPoints ≠ [] := by
      rw [← hbp]
      unfold sgHasBound sgBoundPoints
      cases (Flamingpy.SurfaceCode.stabGraph bk sp code).lowPts <;> simp
    rw [this]
    constructor
    · intro hne
      by_contra hc
      exact hne (C27_periodic h hc)
    · intro ho hc
      obtain ⟨x, hx, hxe⟩ := slice_point h ho (Or.inl rfl)
      have hm := ((C27_low_high h ho).2.1 x).2 ⟨hx, by revert hxe; cases code.ec <;> exact fun h => h⟩
      rw [hc] at hm
      simp at hm
  · unfold sgRealNodes
    rw [hbp, stabGraph_eq bk sp code hb]
    have h1 : ((List.range code.stabs.length).map SNode.stab).filter (fun n => decide (n ≠ .low ∧ n ≠ .high)) =
        (List.range code.stabs.length).map SNode.stab := by
      rw [List.filter_eq_self]
      intro a ha
      obtain ⟨k, _, rfl⟩ := List.mem_map.1 ha
      simp
    have h2 : (code.boundPoints.map SNode.pt).filter (fun n => decide (n ≠ .low ∧ n ≠ .high)) = code.boundPoints.map SNode.pt := by
      rw [List.filter_eq_self]
      intro a ha
      obtain ⟨k, _, rfl⟩ := List.mem_map.1 ha
      simp
    have h3 : [SNode.low, .high].filter (fun n => decide (n ≠ .low ∧ n ≠ .high)) = [] := by decide
    simp only [List.filter_append, h1, h2, h3, List.nil_append]
  · unfold sgRealEdges
    rw [List.mem_filter, decide_eq_true_eq]
    unfold sgEdgeData
    rw [(h.stabGraph bk sp).1] at hn ⊢
    constructor
    · rintro ⟨h1, h2, h3⟩
      obtain ⟨⟨e', cv⟩, hm, he'⟩ := List.mem_map.1 h1
      simp only at he'
      subst he'
      cases cv with
      | none =>
        rcases (edge_none sp hm).1 with ⟨h4, _⟩ | ⟨h4, _⟩
        · exact absurd h4 h2
        · exact absurd h4 h3
      | some x => exact ⟨x, (PyDict.get?_iff_mem hn _ _).2 hm⟩
    · rintro ⟨x, hx⟩
      have hm := PyDict.get?_mem hx
      have := h.ok.1.edge_effect h.ok.2 sp hm
      exact ⟨List.mem_map.2 ⟨_, hm, rfl⟩, this.2.2⟩

/-! #### Conversions -/

theorem Rep.edgeData_all {G : RxStab} {A : StabGraph} {D : List ((SNode × SNode) × EdgeDict)} (h : Rep G A D) (u v : SNode) :
    rxsEdgeData G u v = PyDict.get? (symOf D) s(u, v) := by
  by_cases hu : u ∈ A.nodes ∧ v ∈ A.nodes
  · exact h.edgeData_eq hu.1 hu.2
  · have h1 : sgEdgeData A u v = none := by
      unfold sgEdgeData
      rw [PyDict.get?_eq_none]
      exact fun hc => hu (h.edge_over hc)
    have h2 : PyDict.get? (symOf D) s(u, v) = none := by
      rw [PyDict.get?_eq_none, ← h.keys_eq]
      exact fun hc => hu (h.edge_over hc)
    have h3 := h.edgeData_cv u v
    rw [h1, Option.map_eq_none_iff] at h3
    rw [h2, h3]

theorem mem_nxAddNode (N : NxStab) (a n : SNode) : n ∈ (nxAddNode N a).nodes ↔ n = a ∨ n ∈ N.nodes := by
  unfold nxAddNode
  split_ifs with h
  · constructor
    · exact Or.inr
    · rintro (rfl | h')
      · exact h
      · exact h'
  · simp [or_comm]

theorem nxAddNode_rest (N : NxStab) (a : SNode) : (nxAddNode N a).edges = N.edges ∧ (nxAddNode N a).stabs = N.stabs ∧
    (nxAddNode N a).lowPts = N.lowPts ∧ (nxAddNode N a).highPts = N.highPts := by
  unfold nxAddNode
  split_ifs <;> exact ⟨rfl, rfl, rfl, rfl⟩

theorem nx_step (N : NxStab) (u v : SNode) (d : EdgeDict)
    (hN : ∀ d', PyDict.get? N.edges s(u, v) = some d' → d' = d) :
    ∃ N', (match d.weight with
      | some x => nxSetWeight (nxAddEdge N u v d.commonVertex) u v x
      | none => some (nxAddEdge N u v d.commonVertex)) = some N' ∧
      (∀ k, PyDict.get? N'.edges k = if k = s(u, v) then some d else PyDict.get? N.edges k) ∧
      (∀ n, n ∈ N'.nodes ↔ n = u ∨ n = v ∨ n ∈ N.nodes) ∧ N'.stabs = N.stabs ∧ N'.lowPts = N.lowPts ∧ N'.highPts = N.highPts := by
  have hr := nxAddNode_rest N u
  have hr' := nxAddNode_rest (nxAddNode N u) v
  have hnodes : ∀ n, n ∈ (nxAddNode (nxAddNode N u) v).nodes ↔ n = u ∨ n = v ∨ n ∈ N.nodes := by
    intro n
    rw [mem_nxAddNode, mem_nxAddNode]
    tauto
  cases hw : d.weight with
  | none =>
    refine ⟨_, rfl, fun k => ?_, hnodes, hr'.2.1.trans hr.2.1, hr'.2.2.1.trans hr.2.2.1, hr'.2.2.2.trans hr.2.2.2⟩
    simp only [nxAddEdge, hr'.1, hr.1, PyDict.get?_set]
    by_cases hk : k = s(u, v)
    · subst hk
      rw [if_pos rfl, if_pos rfl]
      congr 1
      cases hg : PyDict.get? N.edges s(u, v) with
      | none => cases d; simp_all
      | some d' => rw [hN d' hg]; cases d; simp_all
    · rw [if_neg (Ne.symm hk), if_neg hk]
  | some x =>
    have hg : PyDict.get? (nxAddEdge N u v d.commonVertex).edges s(u, v) =
        some ⟨d.commonVertex, (PyDict.get? N.edges s(u, v)).bind (·.weight)⟩ := by
      simp only [nxAddEdge, hr'.1, hr.1, PyDict.get?_set]
      rfl
    simp only [nxSetWeight, hg, Option.bind_eq_bind, Option.bind_some, Option.pure_def]
    refine ⟨_, rfl, fun k => ?_, hnodes, hr'.2.1.trans hr.2.1, hr'.2.2.1.trans hr.2.2.1, hr'.2.2.2.trans hr.2.2.2⟩
    simp only [nxAddEdge, hr'.1, hr.1, PyDict.get?_set]
    by_cases hk : k = s(u, v)
    · subst hk
      rw [if_pos rfl, if_pos rfl]
      congr 1
      cases d
      simp_all
    · rw [if_neg (Ne.symm hk), if_neg hk, if_neg (Ne.symm hk)]

theorem toNx_fold {G : RxStab} {A : StabGraph} {D : List ((SNode × SNode) × EdgeDict)} (h : Rep G A D) (l : List (SNode × SNode))
    (hl : ∀ e ∈ l, s(e.1, e.2) ∈ PyDict.keys (symOf D)) (N : NxStab)
    (hN : ∀ k d, PyDict.get? N.edges k = some d → PyDict.get? (symOf D) k = some d) :
    ∃ N', (l.foldlM (fun N e => do
      let d ← rxsEdgeData G e.1 e.2
      let N := nxAddEdge N e.1 e.2 d.commonVertex
      match d.weight with
      | some x => nxSetWeight N e.1 e.2 x
      | none => some N) N) = some N' ∧
      (∀ k, PyDict.get? N'.edges k = if k ∈ l.map (fun e => s(e.1, e.2)) then PyDict.get? (symOf D) k else PyDict.get? N.edges k) ∧
      (∀ n, n ∈ N'.nodes ↔ n ∈ N.nodes ∨ ∃ e ∈ l, n = e.1 ∨ n = e.2) ∧
      N'.stabs = N.stabs ∧ N'.lowPts = N.lowPts ∧ N'.highPts = N.highPts := by
  induction l generalizing N with
  | nil => exact ⟨N, rfl, by simp, by simp, rfl, rfl, rfl⟩
  | cons e l ih =>
    have he := hl e (by simp)
    obtain ⟨d, hd⟩ : ∃ d, PyDict.get? (symOf D) s(e.1, e.2) = some d := by
      cases hg : PyDict.get? (symOf D) s(e.1, e.2) with
      | none => exact absurd he ((PyDict.get?_eq_none _ _).1 hg)
      | some d => exact ⟨d, rfl⟩
    obtain ⟨N1, h1, h2, h3, h4, h5, h6⟩ := nx_step N e.1 e.2 d fun d' hd' => by
      have := hN _ _ hd'
      rw [hd] at this
      exact (Option.some.inj this).symm
    obtain ⟨N2, k1, k2, k3, k4, k5, k6⟩ := ih (fun e he => hl e (List.mem_cons_of_mem _ he)) N1 (by
      intro k d' hk
      rw [h2] at hk
      split_ifs at hk with hke
      · rw [hke, hd, hk]
      · exact hN _ _ hk)
    refine ⟨N2, ?_, fun k => ?_, fun n => ?_, k4.trans h4, k5.trans h5, k6.trans h6⟩
    · rw [List.foldlM_cons, h.edgeData_all, hd]
      simp only [Option.bind_eq_bind, Option.bind_some, h1]
      exact k1
    · rw [k2, List.map_cons]
      simp only [List.mem_cons]
      by_cases hk : k ∈ l.map fun e => s(e.1, e.2)
      · rw [if_pos hk, if_pos (Or.inr hk)]
      · rw [if_neg hk, h2]
        by_cases hk' : k = s(e.1, e.2)
        · rw [if_pos hk', if_pos (Or.inl hk'), hk', hd]
        · rw [if_neg hk', if_neg (by tauto)]
    · rw [k3, h3]
      constructor
      · rintro ((h7 | h7 | h7) | ⟨e', h7, h8⟩)
        · exact Or.inr ⟨e, by simp, Or.inl h7⟩
        · exact Or.inr ⟨e, by simp, Or.inr h7⟩
        · exact Or.inl h7
        · exact Or.inr ⟨e', List.mem_cons_of_mem _ h7, h8⟩
      · rintro (h7 | ⟨e', h7, h8⟩)
        · exact Or.inl (Or.inr (Or.inr h7))
        · rcases List.mem_cons.1 h7 with rfl | h7
          · rcases h8 with h8 | h8
            · exact Or.inl (Or.inl h8)
            · exact Or.inl (Or.inr (Or.inl h8))
          · exact Or.inr ⟨e', h7, h8⟩

/-- The graph converted to networkx has the same edges with the same data; its nodes are the connectors and the ends of edges; the lists of
stabilizers and boundary points are empty. -/
theorem toNx_spec {G : RxStab} {A : StabGraph} {D : List ((SNode × SNode) × EdgeDict)} (h : Rep G A D) :
    ∃ N, rxsToNx G = some N ∧ (∀ u v, PyDict.get? N.edges s(u, v) = rxsEdgeData G u v) ∧
      (∀ n, n ∈ N.nodes ↔ n = .low ∨ n = .high ∨ ∃ v, (rxsEdgeData G n v).isSome) ∧
      N.stabs = [] ∧ N.lowPts = [] ∧ N.highPts = [] := by
  have hkeys : PyDict.keys (symOf D) = (D.map (·.1)).map fun e => s(e.1, e.2) := by
    unfold PyDict.keys symOf
    rw [List.map_map, List.map_map]
    rfl
  obtain ⟨N, h1, h2, h3, h4, h5, h6⟩ := toNx_fold h (D.map (·.1)) (fun e he => by
    rw [hkeys]; exact List.mem_map_of_mem he) nxEmpty (by
      intro k d hk
      have : nxEmpty.edges = [] := rfl
      rw [this, PyDict.get?_nil] at hk
      cases hk)
  refine ⟨N, ?_, fun u v => ?_, fun n => ?_, h4, h5, h6⟩
  · unfold rxsToNx
    rw [h.edges_eq]
    exact h1
  · rw [h2, h.edgeData_all, ← hkeys]
    split_ifs with hc
    · rfl
    · exact ((PyDict.get?_eq_none _ _).2 hc).symm
  · rw [h3]
    have h0 : n ∈ nxEmpty.nodes ↔ n = .low ∨ n = .high := by
      have : nxEmpty.nodes = [.low, .high] := rfl
      rw [this]
      simp
    rw [h0, or_assoc]
    apply or_congr_right
    apply or_congr_right
    constructor
    · rintro ⟨e, he, hne⟩
      have hk : s(e.1, e.2) ∈ PyDict.keys (symOf D) := by rw [hkeys]; exact List.mem_map_of_mem he
      rcases hne with rfl | rfl
      · refine ⟨e.2, ?_⟩
        rw [h.edgeData_all, ← Option.ne_none_iff_isSome, Ne, PyDict.get?_eq_none, not_not]
        exact hk
      · refine ⟨e.1, ?_⟩
        rw [h.edgeData_all, ← Option.ne_none_iff_isSome, Ne, PyDict.get?_eq_none, not_not, Sym2.eq_swap]
        exact hk
    · rintro ⟨v, hv⟩
      rw [h.edgeData_all, ← Option.ne_none_iff_isSome, Ne, PyDict.get?_eq_none, not_not, hkeys] at hv
      obtain ⟨e, he, hs⟩ := List.mem_map.1 hv
      refine ⟨e, he, ?_⟩
      rcases Sym2.eq_iff.1 hs with ⟨h1, _⟩ | ⟨_, h1⟩
      · exact Or.inl h1.symm
      · exact Or.inr h1.symm

/-- Whatever nodes and edges were added: the graph converted to networkx has the edges and data of the given one.  It has the connectors and
the nodes at an edge, no other nodes, and no stabilizers and boundary points. -/
theorem C72_to_nx (ops : List GraphOp) (hn : (opNodes ops).Nodup) (hk : endsKnown ops) :
    ∃ G N, ops.foldlM GraphOp.run ⟨.empty true, [], [], []⟩ = some G ∧ rxsToNx G = some N ∧
      (∀ u v, PyDict.get? N.edges s(u, v) = rxsEdgeData G u v) ∧
      (∀ n, n ∈ N.nodes ↔ n = .low ∨ n = .high ∨ ∃ v, (rxsEdgeData G n v).isSome) ∧
      N.stabs = [] ∧ N.lowPts = [] ∧ N.highPts = [] := by
  obtain ⟨G, D, h1, h2, _⟩ := ops_rep ops hn hk
  obtain ⟨N, hN⟩ := toNx_spec h2
  exact ⟨G, N, h1, hN⟩

theorem first_edge {E : List (Sym2 SNode × ℚ)} {a b : SNode} (h : Reach E a b) (hab : a ≠ b) : ∃ c, s(a, c) ∈ PyDict.keys E := by
  obtain ⟨p, h1, h2, h3⟩ := h
  match p, h1, h2, h3 with
  | [x], h1, h2, _ =>
    simp only [List.head?_cons, Option.some.injEq, List.getLast?_singleton] at h1 h2
    exact absurd (h1.symm.trans h2) hab
  | x :: y :: l, h1, _, h3 =>
    simp only [List.head?_cons, Option.some.injEq] at h1
    subst h1
    exact ⟨y, (List.isChain_cons_cons.1 h3).1⟩

/-- Every node of the graph of a code is at an edge (the connectors: of an open code). -/
theorem node_edge {code : Code} (h : IsCode code) (sp : SetPop) {n : SNode}
    (hn : n ∈ (Flamingpy.SurfaceCode.stabGraph .rustworkx sp code).nodes) :
    n = .low ∨ n = .high ∨ ∃ v, s(n, v) ∈ PyDict.keys (Flamingpy.SurfaceCode.stabGraph .rustworkx sp code).edges := by
  obtain ⟨hok, hd⟩ := h.ok
  rw [h.rx_nodes sp] at hn
  simp only [List.mem_cons, List.mem_append, List.mem_map, List.mem_range] at hn
  rcases hn with h1 | h1 | ⟨k, hk, rfl⟩ | ⟨p, hp, rfl⟩
  · exact Or.inl h1
  · exact Or.inr (Or.inl h1)
  · right; right
    have hkeys : ∀ e, e ∈ PyDict.keys (weightedEdges (Flamingpy.SurfaceCode.stabGraph .rustworkx sp code) fun _ => 0) ↔
        e ∈ PyDict.keys (Flamingpy.SurfaceCode.stabGraph .rustworkx sp code).edges := by
      intro e; rw [keys_weightedEdges]
    by_cases hb : code.boundaries = .open
    · obtain ⟨v, hv⟩ := first_edge (Reach.symm (C29_connectors h hb .rustworkx sp (fun _ => 0) hk).1) (by simp)
      exact ⟨v, (hkeys _).1 hv⟩
    · obtain ⟨i, hi⟩ : ∃ i, i ∈ planesToCheck code.ec code.boundaries := by
        cases code.ec <;> cases code.boundaries <;> simp [planesToCheck]
      obtain ⟨bits, _, _, hw⟩ := C33_exists h hi
      have hpos : 0 < weight code bits := by rw [hw]; have := hd i; omega
      obtain ⟨x, hx, _⟩ := List.countP_pos_iff.1 hpos
      have hc := hok.stabsOf_card hd hx
      rw [C27_periodic h hb, if_neg (by simp)] at hc
      obtain ⟨a, b, hab, hs⟩ := Finset.card_eq_two.1 hc
      have hreach : ∀ j ∈ stabsOf code.stabs x, j ≠ k → ∃ v, s(SNode.stab k, v) ∈
          PyDict.keys (Flamingpy.SurfaceCode.stabGraph .rustworkx sp code).edges := by
        intro j hj hjk
        obtain ⟨v, hv⟩ := first_edge (E := weightedEdges (Flamingpy.SurfaceCode.stabGraph .rustworkx sp code) fun _ => 0)
          (hok.stabs_reach hd sp (by
            intro i j y hy
            rw [hkeys, (h.stabGraph .rustworkx sp).1]
            exact List.mem_map.2 ⟨_, hy, rfl⟩) hk (mem_stabsOf.1 hj).1) (by simpa using Ne.symm hjk)
        exact ⟨v, (hkeys _).1 hv⟩
      by_cases hak : a = k
      · exact hreach b (by rw [hs]; simp) (by rw [← hak]; exact Ne.symm hab)
      · exact hreach a (by rw [hs]; simp) hak
  · right; right
    rw [(h.stabGraph .rustworkx sp).1]
    rw [← List.take_append_drop (code.boundPoints.length / 2) code.boundPoints, List.mem_append] at hp
    rcases hp with hp | hp
    · refine ⟨.low, ?_⟩
      rw [Sym2.eq_swap]
      exact List.mem_map.2 ⟨_, mem_codeEdges.2 (Or.inl ⟨p, hp, rfl⟩), rfl⟩
    · refine ⟨.high, ?_⟩
      rw [Sym2.eq_swap]
      exact List.mem_map.2 ⟨_, mem_codeEdges.2 (Or.inr (Or.inl ⟨p, hp, rfl⟩)), rfl⟩

/-- The graph of a code, after weights have been assigned: the conversion keeps its nodes, its edges, and their common vertices and weights,
but loses the stabilizers and the boundary points. -/
theorem C72_code {code : Code} (h : IsCode code) (sp : SetPop) (ws : List (V → ℚ)) (w : V → ℚ) :
    ∃ G G' N, rxStabGraph sp code = some G ∧ ((ws ++ [w]).foldlM (fun G w => rxsAssign w G) G) = some G' ∧ rxsToNx G' = some N ∧
      (∀ n, n ∈ N.nodes ↔ n ∈ rxsNodes G') ∧
      (∀ u v, PyDict.get? N.edges s(u, v) = (sgEdgeData (stabGraph .rustworkx sp code) u v).map fun cv =>
        ⟨cv, some (match cv with
          | some x => w x
          | none => 0)⟩) ∧
      N.stabs = [] ∧ N.lowPts = [] ∧ N.highPts = [] := by
  obtain ⟨G, G', D, h1, h2, h3⟩ := h.rx sp ws w
  obtain ⟨N, k1, k2, k3, k4⟩ := toNx_spec h3.toRep
  refine ⟨G, G', N, h1, h2, k1, fun n => ?_, fun u v => ?_, k4⟩
  · rw [k3, h3.toRep.nodes_eq]
    constructor
    · rintro (rfl | rfl | ⟨v, hv⟩)
      · rw [h.rx_nodes sp]; simp
      · rw [h.rx_nodes sp]; simp
      · rw [h3.toRep.edgeData_all, ← Option.ne_none_iff_isSome, Ne, PyDict.get?_eq_none, not_not, ← h3.toRep.keys_eq] at hv
        exact (h3.toRep.edge_over hv).1
    · intro hn
      rcases node_edge h sp hn with h4 | h4 | ⟨v, hv⟩
      · exact Or.inl h4
      · exact Or.inr (Or.inl h4)
      · refine Or.inr (Or.inr ⟨v, ?_⟩)
        rw [h3.toRep.edgeData_all, ← Option.ne_none_iff_isSome, Ne, PyDict.get?_eq_none, not_not, ← h3.toRep.keys_eq]
        exact hv
  · rw [k2, ← h3.toRep.edgeData_cv, h3.toRep.edgeData_all]
    cases hg : PyDict.get? (symOf D) s(u, v) with
    | none => rfl
    | some d =>
      have hm := PyDict.get?_mem hg
      obtain ⟨e, he, hs⟩ := List.mem_map.1 hm
      have hw := h3.weight e he
      obtain ⟨_, rfl⟩ := Prod.mk.inj hs
      obtain ⟨_, cv, wt⟩ := e
      simp only at hw ⊢
      rw [hw]
      simp only [Option.map_some]
      cases cv <;> rfl

/-! #### Matching graphs -/

theorem Stored.toNx {M : RxMatch} {B : MatchGraph} (h : Stored M B) : rxmToNx M = some (M, ⟨B.edges, []⟩) := by
  obtain ⟨L, D, hD⟩ := h
  have key : ∀ (l pre : List ((MNode × MNode) × (ℚ × List SNode))), D = pre ++ l →
      ((l.map fun e => ((L.idxOf e.1.1, L.idxOf e.1.2), e.2)).foldlM (fun (st : RxMatch × MatchGraph) e => do
        let u ← st.1.base.graph.getNodeData e.1.1
        let v ← st.1.base.graph.getNodeData e.1.2
        let q := rxmEdgeData st.1 u v
        let d ← q.2
        let q' := rxmEdgeData q.1 u v
        let d' ← q'.2
        pure (q'.1, mgAddEdge st.2 u v d.1 d'.2)) (M, ⟨symOf pre, []⟩)) = some (M, ⟨symOf D, []⟩) := by
    intro l
    induction l with
    | nil =>
      intro pre hp
      rw [List.append_nil] at hp
      rw [hp]
      rfl
    | cons e l ih =>
      intro pre hp
      have hm : e ∈ D := by rw [hp]; simp
      obtain ⟨hu, hv⟩ := hD.over e hm
      have hu' : M.base.graph.getNodeData (L.idxOf e.1.1) = some e.1.1 := by
        rw [hD.base, rxOf_data, getElem?_idxOf' hu]
      have hv' : M.base.graph.getNodeData (L.idxOf e.1.2) = some e.1.2 := by
        rw [hD.base, rxOf_data, getElem?_idxOf' hv]
      have hnd : (PyDict.keys (symOf D)).Nodup := by rw [← hD.edges]; exact hD.keys
      have hget : PyDict.get? B.edges s(e.1.1, e.1.2) = some e.2 := by
        rw [hD.edges, PyDict.get?_iff_mem hnd]
        exact List.mem_map.2 ⟨e, hm, rfl⟩
      have hkey : s(e.1.1, e.1.2) ∈ PyDict.keys B.edges := by
        by_contra hc
        rw [(PyDict.get?_eq_none _ _).2 hc] at hget
        cases hget
      have hed := Stored.edgeData ⟨L, D, hD⟩ hkey
      rw [hget] at hed
      have hnew : s(e.1.1, e.1.2) ∉ PyDict.keys (symOf pre) := by
        have h1 : PyDict.keys (symOf D) = PyDict.keys (symOf pre) ++ s(e.1.1, e.1.2) :: PyDict.keys (symOf l) := by
          rw [hp]
          unfold symOf PyDict.keys
          simp
        rw [h1] at hnd
        intro hc
        exact (List.nodup_append.1 hnd).2.2 _ hc _ (by simp) rfl
      rw [List.map_cons, List.foldlM_cons]
      simp only [hu', hv', Option.bind_eq_bind, Option.bind_some, hed, Option.pure_def]
      have hadd : mgAddEdge ⟨symOf pre, []⟩ e.1.1 e.1.2 e.2.1 e.2.2 = ⟨symOf (pre ++ [e]), []⟩ := by
        unfold mgAddEdge
        simp only [PyDict.set_of_not_mem _ hnew]
        unfold symOf
        simp
      rw [hadd]
      have := ih (pre ++ [e]) (by rw [hp]; simp)
      simpa only [Option.bind_eq_bind, Option.pure_def] using this
  unfold rxmToNx
  have hg : M.base.graph.edges = D.map fun e => ((L.idxOf e.1.1, L.idxOf e.1.2), e.2) := by rw [hD.base]; rfl
  rw [hg, hD.edges]
  exact key D [] rfl

theorem Stored.total {M : RxMatch} {B : MatchGraph} (h : Stored M B) (l : List (MNode × MNode))
    (hl : ∀ m ∈ l, s(m.1, m.2) ∈ PyDict.keys B.edges) : ∀ a, l.foldlM (fun (st : RxMatch × ℚ) m => do
      let q := rxmEdgeData st.1 m.1 m.2
      let d ← q.2
      pure (q.1, st.2 + d.1)) (M, a) = (mgTotal B l).map fun x => (M, a + x) := by
  induction l with
  | nil => intro a; simp [mgTotal]
  | cons m l ih =>
    intro a
    have hm := hl m (by simp)
    have hed := h.edgeData hm
    cases hg : PyDict.get? B.edges s(m.1, m.2) with
    | none => exact absurd hm ((PyDict.get?_eq_none _ _).1 hg)
    | some d =>
      rw [hg] at hed
      rw [List.foldlM_cons]
      simp only [hed, Option.bind_eq_bind, Option.bind_some, Option.pure_def]
      have := ih (fun m hm => hl m (List.mem_cons_of_mem _ hm)) (a + d.1)
      simp only [Option.bind_eq_bind, Option.pure_def] at this
      rw [this]
      unfold mgTotal
      simp only [List.mapM_cons, hg, Option.map_some, Option.bind_eq_bind, Option.bind_some, Option.pure_def]
      cases l.mapM (fun m => (PyDict.get? B.edges s(m.1, m.2)).map (·.1)) with
      | none => rfl
      | some ws => simp [add_assoc]

/-- Calls of `add_edge` on an empty `RxMatchingGraph`. -/
def rxmCalls (calls : List ((MNode × MNode) × (ℚ × List SNode))) : Option RxMatch :=
  calls.foldlM (fun M c => rxmAddEdge M c.1.1 c.1.2 c.2.1 c.2.2) ⟨.empty false, []⟩

/-- The weight and path an edge was given by the last call for it. -/
def lastCall (calls : List ((MNode × MNode) × (ℚ × List SNode))) (u v : MNode) : Option (ℚ × List SNode) :=
  (calls.reverse.find? fun c => decide (s(c.1.1, c.1.2) = s(u, v))).map (·.2)

theorem calls_stored (calls : List ((MNode × MNode) × (ℚ × List SNode))) :
    ∃ M B, rxmCalls calls = some M ∧ Stored M B ∧ B.virtuals = [] ∧ ∀ u v, PyDict.get? B.edges s(u, v) = lastCall calls u v := by
  unfold rxmCalls lastCall
  induction calls using List.reverseRecOn with
  | nil => exact ⟨_, ⟨[], []⟩, rfl, ⟨[], [], repM_empty⟩, rfl, fun u v => by simp [PyDict.get?_nil]⟩
  | append_singleton l c ih =>
    obtain ⟨M, B, h1, ⟨L, D, h2⟩, h3, h4⟩ := ih
    obtain ⟨M', h5, h6⟩ := h2.addEdge c.1.1 c.1.2 c.2.1 c.2.2
    refine ⟨M', _, ?_, h6, h3, fun u v => ?_⟩
    · rw [List.foldlM_append, h1]
      simp [h5]
    · simp only [mgAddEdge, PyDict.get?_set, List.reverse_append, List.reverse_singleton, List.singleton_append, List.find?_cons]
      by_cases hc : s(c.1.1, c.1.2) = s(u, v)
      · simp [hc]
      · simp [hc, h4]

/-- Whatever edges were added: the matching graph converted to networkx has the same edges, each with the weight and path of the last call;
its list of virtual points is empty.  The conversion leaves the graph as it was. -/
theorem C72_matching_to_nx (calls : List ((MNode × MNode) × (ℚ × List SNode))) :
    ∃ M N, rxmCalls calls = some M ∧ rxmToNx M = some (M, N) ∧ (PyDict.keys N.edges).Nodup ∧
      (∀ u v, PyDict.get? N.edges s(u, v) = lastCall calls u v) ∧ N.virtuals = [] := by
  obtain ⟨M, B, h1, h2, h3, h4⟩ := calls_stored calls
  refine ⟨M, ⟨B.edges, []⟩, h1, h2.toNx, ?_, h4, rfl⟩
  obtain ⟨L, D, h5⟩ := h2
  exact h5.keys

theorem mapM_getD {α β : Type} (f : α → Option β) (g : α → β) (l : List α) (h : ∀ a ∈ l, f a = some (g a)) : l.mapM f = some (l.map g) := by
  induction l with
  | nil => rfl
  | cons a l ih =>
    rw [List.mapM_cons, h a (by simp), ih fun a ha => h a (List.mem_cons_of_mem _ ha)]
    rfl

theorem mgTotal_eq (B : MatchGraph) (l : List (MNode × MNode)) (hl : ∀ m ∈ l, s(m.1, m.2) ∈ PyDict.keys B.edges) :
    mgTotal B l = some (matchWeight (B.edges.map fun e => (e.1, e.2.1)) l) := by
  unfold mgTotal matchWeight
  rw [mapM_getD _ (fun m => ((PyDict.get? B.edges s(m.1, m.2)).map (·.1)).getD 0) l]
  · simp only [Option.bind_eq_bind, Option.bind_some, Option.pure_def, get?_mapVal]
  · intro m hm
    cases hg : PyDict.get? B.edges s(m.1, m.2) with
    | none => exact absurd (hl m hm) ((PyDict.get?_eq_none _ _).1 hg)
    | some d => rfl

/-- `total_weight_of` is the sum of the weights last given to the edges, does not change the graph, and is the same for the converted graph. -/
theorem C72_total (calls : List ((MNode × MNode) × (ℚ × List SNode))) (l : List (MNode × MNode))
    (hl : ∀ m ∈ l, (lastCall calls m.1 m.2).isSome) :
    ∃ M N, rxmCalls calls = some M ∧ rxmToNx M = some (M, N) ∧
      rxmTotal M l = some (M, (l.map fun m => ((lastCall calls m.1 m.2).map (·.1)).getD 0).sum) ∧
      mgTotal N l = some (l.map fun m => ((lastCall calls m.1 m.2).map (·.1)).getD 0).sum := by
  obtain ⟨M, B, h1, h2, h3, h4⟩ := calls_stored calls
  have hk : ∀ m ∈ l, s(m.1, m.2) ∈ PyDict.keys B.edges := by
    intro m hm
    by_contra hc
    have := hl m hm
    rw [← h4, (PyDict.get?_eq_none _ _).2 hc] at this
    cases this
  have hw : matchWeight (B.edges.map fun e => (e.1, e.2.1)) l = (l.map fun m => ((lastCall calls m.1 m.2).map (·.1)).getD 0).sum := by
    unfold matchWeight
    congr 1
    apply List.map_congr_left
    intro m _
    rw [get?_mapVal, h4]
  refine ⟨M, _, h1, h2.toNx, ?_, ?_⟩
  · unfold rxmTotal
    rw [h2.total l hk, mgTotal_eq B l hk, hw]
    simp
  · rw [mgTotal_eq ⟨B.edges, []⟩ l hk, hw]

theorem total_none {M : RxMatch} {L : List MNode} {B : MatchGraph} {D : List ((MNode × MNode) × (ℚ × List SNode))} (h : RepM M B L D)
    (l : List (MNode × MNode)) (hl : ∃ m ∈ l, PyDict.get? B.edges s(m.1, m.2) = none) (a : ℚ) :
    l.foldlM (fun (st : RxMatch × ℚ) m => do
      let q := rxmEdgeData st.1 m.1 m.2
      let d ← q.2
      pure (q.1, st.2 + d.1)) (M, a) = none := by
  induction l generalizing M L a with
  | nil => simp at hl
  | cons m l ih =>
    obtain ⟨L1, k1, k2, k3, k4, _⟩ := h.index m.1
    obtain ⟨L2, j1, j2, j3, j4, _⟩ := k1.index m.2
    have hd : (rxmEdgeData M m.1 m.2).2 = PyDict.get? B.edges s(m.1, m.2) := by
      unfold rxmEdgeData
      simp only
      rw [k2, j2, j1.base, ← (j4 _ k3).2, rxOf_edgeData j1.over (j4 _ k3).1 j3, j1.edges]
    rw [List.foldlM_cons]
    simp only [hd]
    cases hg : PyDict.get? B.edges s(m.1, m.2) with
    | none => rfl
    | some d =>
      simp only [Option.bind_eq_bind, Option.bind_some, Option.pure_def]
      refine ih (L := L2) (M := (rxmEdgeData M m.1 m.2).1) j1 ?_ _
      obtain ⟨m', hm', hn⟩ := hl
      rcases List.mem_cons.1 hm' with rfl | hm'
      · rw [hg] at hn; cases hn
      · exact ⟨m', hm', hn⟩

/-- For a pair that was never joined, `total_weight_of` is an error in both classes. -/
theorem C72_total_unknown (calls : List ((MNode × MNode) × (ℚ × List SNode))) (l : List (MNode × MNode))
    (hl : ∃ m ∈ l, lastCall calls m.1 m.2 = none) :
    ∃ M N, rxmCalls calls = some M ∧ rxmToNx M = some (M, N) ∧ rxmTotal M l = none ∧ mgTotal N l = none := by
  obtain ⟨M, B, h1, h2, h3, h4⟩ := calls_stored calls
  refine ⟨M, _, h1, h2.toNx, ?_, ?_⟩
  · obtain ⟨L, D, h5⟩ := h2
    refine total_none h5 l ?_ 0
    obtain ⟨m, hm, hn⟩ := hl
    exact ⟨m, hm, by rw [h4, hn]⟩
  · obtain ⟨m, hm, hn⟩ := hl
    unfold mgTotal
    have : l.mapM (fun m => (PyDict.get? B.edges s(m.1, m.2)).map (·.1)) = none := by
      induction l with
      | nil => simp at hm
      | cons a l ih =>
        rw [List.mapM_cons]
        rcases List.mem_cons.1 hm with rfl | hm
        · rw [h4, hn]; rfl
        · rw [ih hm]
          cases (PyDict.get? B.edges s(a.1, a.2)).map (·.1) <;> rfl
    rw [this]
    rfl

/-- The matching found has the largest size and, by `total_weight_of`, the least weight of that size. -/
theorem C72_minimal (calls : List ((MNode × MNode) × (ℚ × List SNode))) (rm : RxMatchLib) :
    ∃ M m x, rxmCalls calls = some M ∧ rxmMatching rm M = some m ∧ rxmTotal M m = some (M, x) ∧
      (m.flatMap fun p => [p.1, p.2]).Nodup ∧
      ∀ m', (m'.flatMap fun p => [p.1, p.2]).Nodup → (∀ p ∈ m', (lastCall calls p.1 p.2).isSome) →
        m'.length ≤ m.length ∧ ∀ y, m'.length = m.length → rxmTotal M m' = some (M, y) → x ≤ y := by
  obtain ⟨M, B, h1, h2, h3, h4⟩ := calls_stored calls
  obtain ⟨ml, hml⟩ := h2.matching rm
  have hkeys : PyDict.keys (B.edges.map fun e => (e.1, e.2.1)) = PyDict.keys B.edges := by
    unfold PyDict.keys
    rw [List.map_map]
    rfl
  have hm := ml.isMatching (B.edges.map fun e => (e.1, e.2.1))
  have hin : ∀ p ∈ perfectMatching ml B, s(p.1, p.2) ∈ PyDict.keys B.edges := by
    intro p hp
    rw [← hkeys]
    exact hm.1 p hp
  refine ⟨M, perfectMatching ml B, matchWeight (B.edges.map fun e => (e.1, e.2.1)) (perfectMatching ml B), h1, hml, ?_, hm.2, ?_⟩
  · unfold rxmTotal
    rw [h2.total _ hin, mgTotal_eq B _ hin]
    simp
  · intro m' hn hs
    have hin' : ∀ p ∈ m', s(p.1, p.2) ∈ PyDict.keys B.edges := by
      intro p hp
      by_contra hc
      have := hs p hp
      rw [← h4, (PyDict.get?_eq_none _ _).2 hc] at this
      cases this
    have hm' : IsMatching (B.edges.map fun e => (e.1, e.2.1)) m' := ⟨fun p hp => by rw [hkeys]; exact hin' p hp, hn⟩
    refine ⟨ml.maximum _ _ hm', fun y hlen hy => ?_⟩
    unfold rxmTotal at hy
    rw [h2.total _ hin', mgTotal_eq B _ hin'] at hy
    simp only [Option.map_some, zero_add, Option.some.injEq, Prod.mk.injEq, true_and] at hy
    rw [← hy]
    exact ml.minimal _ _ hm' hlen

/-! ### Concrete cases -/

example : (surfaceCode idOrder .primal .open (fun _ => 2) none).bind (fun code => (physical code)[0]?.bind midpoint) =
    some ![1, 1, 1] := by
  decide +kernel

example : ((surfaceCode idOrder .primal .open (fun _ => 2) none).bind fun code => (rxStabGraph headPop code).bind fun G =>
    (rxsAssign (fun _ => 1) G).bind fun G => (rxsToNx G).map fun N =>
      (N.nodes.length, N.edges.length, (N.edges.countP fun e => decide (e.2.weight = some 1)), N.stabs.length)) = some (14, 20, 12, 0) := by
  decide +kernel

example : let calls : List ((MNode × MNode) × (ℚ × List SNode)) := [((.stab 0, .stab 1), (3, [])), ((.stab 2, .stab 3), (1, [])),
      ((.stab 1, .stab 0), (2, []))]
    lastCall calls (.stab 0) (.stab 1) = some (2, []) ∧
      ((rxmCalls calls).bind fun M => (rxmTotal M [(.stab 0, .stab 1), (.stab 3, .stab 2)]).map (·.2)) = some 3 ∧
      ((rxmCalls calls).bind rxmToNx).map (fun r => r.2.edges.length) = some 2 := by
  decide +kernel

end Flamingpy.SurfaceCode
