import Verif.Proofs.Rx
import Verif.Proofs.StabGraph
import Verif.Proofs.MwpmWalk

/-!
# The rustworkx stabilizer graph: what is behind the indices
-/

namespace Flamingpy.SurfaceCode

open Flamingpy

/-- `G` stores the graph `A`; `D` lists the edges with their dictionaries. -/
structure Rep (G : RxStab) (A : StabGraph) (D : List ((SNode × SNode) × EdgeDict)) : Prop where
  base : G.base = rxOf true A.nodes D
  nodup : A.nodes.Nodup
  over : ∀ e ∈ D, e.1.1 ∈ A.nodes ∧ e.1.2 ∈ A.nodes
  edges : A.edges = D.map fun e => (s(e.1.1, e.1.2), e.2.commonVertex)
  stabs : G.stabs = A.stabs
  low : G.lowPts = A.lowPts
  high : G.highPts = A.highPts

variable {G : RxStab} {A : StabGraph} {D : List ((SNode × SNode) × EdgeDict)}

theorem Rep.addNode (h : Rep G A D) {n : SNode} (hn : n ∉ A.nodes) : Rep (rxsAddNode G n) (sgAddNode .rustworkx A n) D where
  base := by
    unfold rxsAddNode
    rw [h.base]
    exact rxOf_addNode hn h.over
  nodup := by
    change (A.nodes ++ [n]).Nodup
    rw [List.nodup_append]
    refine ⟨h.nodup, List.nodup_singleton n, ?_⟩
    intro a ha b hb hab
    rw [List.mem_singleton] at hb
    exact hn (hb ▸ hab ▸ ha)
  over e he := by
    obtain ⟨h1, h2⟩ := h.over e he
    exact ⟨List.mem_append_left _ h1, List.mem_append_left _ h2⟩
  edges := h.edges
  stabs := h.stabs
  low := h.low
  high := h.high

theorem Rep.addEdge (h : Rep G A D) {u v : SNode} (hu : u ∈ A.nodes) (hv : v ∈ A.nodes) (cv : Option V) :
    ∃ G', rxsAddEdge G u v cv = some G' ∧ Rep G' (sgAddEdge .rustworkx A u v cv) (D ++ [((u, v), ⟨cv, none⟩)]) := by
  have hadd := rxOf_addEdge (multi := true) h.over hu hv (⟨cv, none⟩ : EdgeDict)
  rw [Bool.not_true, Bool.false_and, if_neg Bool.false_ne_true, Option.map_eq_some_iff] at hadd
  obtain ⟨g, hg, hg'⟩ := hadd
  unfold rxsAddEdge
  rw [h.base]
  simp only [Option.bind_eq_bind, rxOf_index hu, rxOf_index hv, Option.bind_some, hg, Option.pure_def, Option.some.injEq,
    exists_eq_left']
  refine ⟨hg', h.nodup, ?_, ?_, h.stabs, h.low, h.high⟩
  · intro e he
    rcases List.mem_append.1 he with he | he
    · exact h.over e he
    · rw [List.mem_singleton] at he
      subst he
      exact ⟨hu, hv⟩
  · change A.edges ++ [(s(u, v), cv)] = _
    rw [List.map_append, ← h.edges]
    rfl

theorem rep_empty : Rep ⟨.empty true, [], [], []⟩ ⟨[], [], [], [], []⟩ [] where
  base := rfl
  nodup := List.nodup_nil
  over := by simp
  edges := rfl
  stabs := rfl
  low := rfl
  high := rfl

theorem Rep.addNodes (h : Rep G A D) (l : List ℕ) (hl : (A.nodes ++ l.map SNode.stab).Nodup) :
    Rep (l.foldl (fun G k => rxsAddNode G (.stab k)) G) (l.foldl (fun A k => sgAddNode .rustworkx A (.stab k)) A) D ∧
      (l.foldl (fun A k => sgAddNode .rustworkx A (.stab k)) A).nodes = A.nodes ++ l.map SNode.stab := by
  induction l generalizing G A with
  | nil => exact ⟨h, by simp⟩
  | cons k l ih =>
    have hk : SNode.stab k ∉ A.nodes := by
      intro hc
      rw [List.nodup_append] at hl
      exact hl.2.2 _ hc _ (by simp) rfl
    obtain ⟨i1, i2⟩ := ih (h.addNode hk) (by
      change (A.nodes ++ [SNode.stab k] ++ l.map SNode.stab).Nodup
      rw [List.append_assoc]; exact hl)
    refine ⟨i1, i2.trans ?_⟩
    change A.nodes ++ [SNode.stab k] ++ l.map SNode.stab = _
    simp

theorem Rep.addLows (h : Rep G A D) (l : List V) (hl : (A.nodes ++ l.map SNode.pt).Nodup) (hlow : SNode.low ∈ A.nodes) :
    ∃ G' D', l.foldlM rxsAddLow G = some G' ∧ Rep G' (l.foldl (addLowPoint .rustworkx) A) D' ∧
      (l.foldl (addLowPoint .rustworkx) A).nodes = A.nodes ++ l.map SNode.pt := by
  induction l generalizing G A D with
  | nil => exact ⟨G, D, rfl, h, by simp⟩
  | cons p l ih =>
    have hp : SNode.pt p ∉ A.nodes := by
      intro hc
      rw [List.nodup_append] at hl
      exact hl.2.2 _ hc _ (by simp) rfl
    have h0 : Rep { G with lowPts := G.lowPts ++ [p] } { A with lowPts := A.lowPts ++ [p] } D :=
      ⟨h.base, h.nodup, h.over, h.edges, h.stabs, by rw [h.low], h.high⟩
    have h1 := h0.addNode (n := .pt p) hp
    have hnodes : (sgAddNode .rustworkx { A with lowPts := A.lowPts ++ [p] } (.pt p)).nodes = A.nodes ++ [.pt p] := rfl
    obtain ⟨G', e1, e2⟩ := h1.addEdge (u := .low) (v := .pt p) (by rw [hnodes]; simp [hlow]) (by rw [hnodes]; simp) none
    obtain ⟨G'', D'', f1, f2, f3⟩ := ih e2 (by
      change (A.nodes ++ [SNode.pt p] ++ l.map SNode.pt).Nodup
      rw [List.append_assoc]; exact hl) (by
      change _ ∈ A.nodes ++ [SNode.pt p]
      simp [hlow])
    refine ⟨G'', D'', ?_, f2, ?_⟩
    · rw [List.foldlM_cons]
      change (rxsAddEdge _ _ _ _).bind _ = _
      rw [e1]
      exact f1
    · rw [List.foldl_cons]
      refine f3.trans ?_
      change A.nodes ++ [SNode.pt p] ++ l.map SNode.pt = _
      simp

theorem Rep.addHighs (h : Rep G A D) (l : List V) (hl : (A.nodes ++ l.map SNode.pt).Nodup) (hlow : SNode.high ∈ A.nodes) :
    ∃ G' D', l.foldlM rxsAddHigh G = some G' ∧ Rep G' (l.foldl (addHighPoint .rustworkx) A) D' ∧
      (l.foldl (addHighPoint .rustworkx) A).nodes = A.nodes ++ l.map SNode.pt := by
  induction l generalizing G A D with
  | nil => exact ⟨G, D, rfl, h, by simp⟩
  | cons p l ih =>
    have hp : SNode.pt p ∉ A.nodes := by
      intro hc
      rw [List.nodup_append] at hl
      exact hl.2.2 _ hc _ (by simp) rfl
    have h0 : Rep { G with highPts := G.highPts ++ [p] } { A with highPts := A.highPts ++ [p] } D :=
      ⟨h.base, h.nodup, h.over, h.edges, h.stabs, h.low, by rw [h.high]⟩
    have h1 := h0.addNode (n := .pt p) hp
    have hnodes : (sgAddNode .rustworkx { A with highPts := A.highPts ++ [p] } (.pt p)).nodes = A.nodes ++ [.pt p] := rfl
    obtain ⟨G', e1, e2⟩ := h1.addEdge (u := .high) (v := .pt p) (by rw [hnodes]; simp [hlow]) (by rw [hnodes]; simp) none
    obtain ⟨G'', D'', f1, f2, f3⟩ := ih e2 (by
      change (A.nodes ++ [SNode.pt p] ++ l.map SNode.pt).Nodup
      rw [List.append_assoc]; exact hl) (by
      change _ ∈ A.nodes ++ [SNode.pt p]
      simp [hlow])
    refine ⟨G'', D'', ?_, f2, ?_⟩
    · rw [List.foldlM_cons]
      change (rxsAddEdge _ _ _ _).bind _ = _
      rw [e1]
      exact f1
    · rw [List.foldl_cons]
      refine f3.trans ?_
      change A.nodes ++ [SNode.pt p] ++ l.map SNode.pt = _
      simp

theorem sim_foldlM {σ τ δ : Type} {R : σ → τ → Prop} {f : σ → δ → Option σ} {g : τ → δ → τ} (l : List δ)
    (h : ∀ s t, ∀ a ∈ l, R s t → ∃ s', f s a = some s' ∧ R s' (g t a)) {s : σ} {t : τ} (hst : R s t) :
    ∃ s', l.foldlM f s = some s' ∧ R s' (l.foldl g t) := by
  induction l generalizing s t with
  | nil => exact ⟨s, rfl, hst⟩
  | cons a l ih =>
    obtain ⟨s', e1, e2⟩ := h s t a (by simp) hst
    obtain ⟨s'', f1, f2⟩ := ih (fun s t a ha => h s t a (by simp [ha])) e2
    refine ⟨s'', ?_, f2⟩
    rw [List.foldlM_cons, e1]
    exact f1

theorem nodes_fields (l : List ℕ) (A : StabGraph) :
    (l.foldl (fun A k => sgAddNode .rustworkx A (.stab k)) A).stabs = A.stabs ∧
    (l.foldl (fun A k => sgAddNode .rustworkx A (.stab k)) A).lowPts = A.lowPts ∧
    (l.foldl (fun A k => sgAddNode .rustworkx A (.stab k)) A).highPts = A.highPts := by
  induction l generalizing A with
  | nil => exact ⟨rfl, rfl, rfl⟩
  | cons k l ih => exact ih (sgAddNode .rustworkx A (.stab k))

theorem lows_fields (l : List V) (A : StabGraph) :
    (l.foldl (addLowPoint .rustworkx) A).stabs = A.stabs ∧ (l.foldl (addLowPoint .rustworkx) A).lowPts = A.lowPts ++ l ∧
    (l.foldl (addLowPoint .rustworkx) A).highPts = A.highPts := by
  induction l generalizing A with
  | nil => exact ⟨rfl, by simp, rfl⟩
  | cons p l ih =>
    obtain ⟨h1, h2, h3⟩ := ih (addLowPoint .rustworkx A p)
    refine ⟨h1, h2.trans ?_, h3⟩
    change A.lowPts ++ [p] ++ l = _
    simp

theorem highs_fields (l : List V) (A : StabGraph) :
    (l.foldl (addHighPoint .rustworkx) A).stabs = A.stabs ∧ (l.foldl (addHighPoint .rustworkx) A).lowPts = A.lowPts ∧
    (l.foldl (addHighPoint .rustworkx) A).highPts = A.highPts ++ l := by
  induction l generalizing A with
  | nil => exact ⟨rfl, rfl, by simp⟩
  | cons p l ih =>
    obtain ⟨h1, h2, h3⟩ := ih (addHighPoint .rustworkx A p)
    refine ⟨h1, h2, h3.trans ?_⟩
    change A.highPts ++ [p] ++ l = _
    simp

/-- The constructor. -/
theorem rep_stabGraph (sp : SetPop) (code : Code) (hb : code.boundPoints.Nodup) :
    ∃ G D, rxStabGraph sp code = some G ∧ Rep G (stabGraph .rustworkx sp code) D := by
  have h2 : Rep (rxsAddNode (rxsAddNode ⟨.empty true, [], [], []⟩ .low) .high)
      (sgAddNode .rustworkx (sgAddNode .rustworkx ⟨[], [], [], [], []⟩ .low) .high) [] :=
    (rep_empty.addNode (n := .low) (by simp)).addNode (n := .high) (by
      change SNode.high ∉ [SNode.low]
      simp)
  have h3 : Rep { rxsAddNode (rxsAddNode ⟨.empty true, [], [], []⟩ .low) .high with stabs := code.stabs }
      { sgAddNode .rustworkx (sgAddNode .rustworkx ⟨[], [], [], [], []⟩ .low) .high with stabs := code.stabs } [] :=
    ⟨h2.base, h2.nodup, h2.over, h2.edges, rfl, h2.low, h2.high⟩
  have hst : ([SNode.low, SNode.high] ++ (List.range code.stabs.length).map SNode.stab).Nodup := by
    rw [List.nodup_append]
    refine ⟨by simp, List.nodup_range.map fun a b h => by cases h; rfl, ?_⟩
    rintro a ha b hb rfl
    obtain ⟨k, _, rfl⟩ := List.mem_map.1 hb
    simp at ha
  have hall : ([SNode.low, SNode.high] ++ (List.range code.stabs.length).map SNode.stab ++ code.boundPoints.map SNode.pt).Nodup := by
    rw [List.nodup_append]
    refine ⟨hst, hb.map fun a b h => by cases h; rfl, ?_⟩
    rintro a ha b hb rfl
    obtain ⟨k, _, rfl⟩ := List.mem_map.1 hb
    simp at ha
  rw [← List.take_append_drop (code.boundPoints.length / 2) code.boundPoints, List.map_append, ← List.append_assoc] at hall
  obtain ⟨h4, n4⟩ := h3.addNodes (List.range code.stabs.length) hst
  have n4' : _ = [SNode.low, SNode.high] ++ (List.range code.stabs.length).map SNode.stab := n4
  obtain ⟨G5, D5, e5, h5, n5⟩ := h4.addLows (code.boundPoints.take (code.boundPoints.length / 2))
    (by rw [n4']; exact (List.nodup_append.1 hall).1) (by rw [n4']; simp)
  rw [n4'] at n5
  obtain ⟨G6, D6, e6, h6, n6⟩ := h5.addHighs (code.boundPoints.drop (code.boundPoints.length / 2))
    (by rw [n5]; exact hall) (by rw [n5]; simp)
  rw [n5, List.append_assoc, ← List.map_append, List.take_append_drop] at n6
  unfold rxStabGraph stabGraph
  simp only [Option.bind_eq_bind]
  rw [e5, Option.bind_some, e6, Option.bind_some]
  set A6 := (List.foldl (addHighPoint .rustworkx) _ (code.boundPoints.drop (code.boundPoints.length / 2))) with hA6
  have s6 : A6.stabs = code.stabs ∧ A6.lowPts ++ A6.highPts = code.boundPoints := by
    rw [hA6]
    refine ⟨?_, ?_⟩
    · rw [(highs_fields _ _).1, (lows_fields _ _).1, (nodes_fields _ _).1]
    · rw [(highs_fields _ _).2.1, (lows_fields _ _).2.1, (highs_fields _ _).2.2, (lows_fields _ _).2.2, (nodes_fields _ _).2.1,
        (nodes_fields _ _).2.2]
      exact List.take_append_drop _ _
  clear_value A6
  -- the two loops
  have hin : ∀ k, k < code.stabs.length → SNode.stab k ∈ A6.nodes := by
    intro k hk
    rw [n6]
    simp [hk]
  have hip : ∀ p ∈ code.boundPoints, SNode.pt p ∈ A6.nodes := by
    intro p hp
    rw [n6]
    simp [hp]
  let R : RxStab → StabGraph → Prop := fun G A => (∃ D, Rep G A D) ∧ A.nodes = A6.nodes ∧ A.stabs = A6.stabs ∧ A.lowPts = A6.lowPts ∧
    A.highPts = A6.highPts
  have hR : ∀ G A u v cv, R G A → u ∈ A6.nodes → v ∈ A6.nodes → ∃ G', rxsAddEdge G u v cv = some G' ∧ R G' (sgAddEdge .rustworkx A u v cv) := by
    rintro G A u v cv ⟨⟨D, hD⟩, r1, r2⟩ hu hv
    obtain ⟨G', g1, g2⟩ := hD.addEdge (by rw [r1]; exact hu) (by rw [r1]; exact hv) cv
    exact ⟨G', g1, ⟨_, g2⟩, r1, r2⟩
  obtain ⟨G7, e7, h7, n7, s7, l7, i7⟩ := sim_foldlM (R := R) (combinations2 (List.range G6.stabs.length))
    (f := fun G p =>
      let common := commonVertices (G.stabs.getD p.1 []) (G.stabs.getD p.2 [])
      if common = [] then some G else rxsAddEdge G (.stab p.1) (.stab p.2) (some (sp.pop p.1 p.2 common)))
    (g := fun G p =>
      let common := commonVertices (G.coords p.1) (G.coords p.2)
      if common = [] then G else sgAddEdge .rustworkx G (.stab p.1) (.stab p.2) (some (sp.pop p.1 p.2 common)))
    (by
      rintro G A p hp hGA
      obtain ⟨⟨D, hD⟩, r1, r2⟩ := hGA
      obtain ⟨c1, c2⟩ := combinations2_mem _ _ _ hp
      rw [List.mem_range, h6.stabs, s6.1] at c1 c2
      have hco : ∀ k, G.stabs.getD k [] = A.coords k := fun k => by rw [hD.stabs]; rfl
      simp only [hco]
      by_cases hc : commonVertices (A.coords p.1) (A.coords p.2) = []
      · rw [if_pos hc, if_pos hc]
        exact ⟨G, rfl, ⟨D, hD⟩, r1, r2⟩
      · rw [if_neg hc, if_neg hc]
        exact hR G A _ _ _ ⟨⟨D, hD⟩, r1, r2⟩ (hin _ c1) (hin _ c2)) (s := G6) (t := A6) ⟨⟨D6, h6⟩, rfl, rfl, rfl, rfl⟩
  obtain ⟨D7, h7⟩ := h7
  unfold rxsConnect
  simp only [Option.bind_eq_bind]
  rw [e7, Option.bind_some, h7.stabs, h7.low, h7.high]
  unfold connectPoints
  have hcs : connectStabs .rustworkx sp A6 = List.foldl (fun G p =>
      let common := commonVertices (G.coords p.1) (G.coords p.2)
      if common = [] then G else sgAddEdge .rustworkx G (.stab p.1) (.stab p.2) (some (sp.pop p.1 p.2 common))) A6
        (combinations2 (List.range G6.stabs.length)) := by
    unfold connectStabs
    rw [h6.stabs]
  rw [hcs]
  generalize List.foldl _ A6 (combinations2 (List.range G6.stabs.length)) = A7 at *
  obtain ⟨G8, e8, ⟨D8, h8⟩, -⟩ := sim_foldlM (R := R)
    ((List.range A7.stabs.length).flatMap fun k => (A7.lowPts ++ A7.highPts).map fun p => (k, p))
    (f := fun G e => if e.2 ∈ G.stabs.getD e.1 [] then rxsAddEdge G (.stab e.1) (.pt e.2) (some e.2) else some G)
    (g := fun G e => if e.2 ∈ G.coords e.1 then sgAddEdge .rustworkx G (.stab e.1) (.pt e.2) (some e.2) else G)
    (by
      rintro G A p hp hGA
      obtain ⟨⟨D, hD⟩, r1, r2⟩ := hGA
      obtain ⟨k, hk, hp⟩ := List.mem_flatMap.1 hp
      obtain ⟨q, hq, rfl⟩ := List.mem_map.1 hp
      rw [List.mem_range, s7, s6.1] at hk
      rw [l7, i7, s6.2] at hq
      have hco : ∀ k, G.stabs.getD k [] = A.coords k := fun k => by rw [hD.stabs]; rfl
      simp only [hco]
      by_cases hc : q ∈ A.coords k
      · rw [if_pos hc, if_pos hc]
        exact hR G A _ _ _ ⟨⟨D, hD⟩, r1, r2⟩ (hin _ hk) (hip _ hq)
      · rw [if_neg hc, if_neg hc]
        exact ⟨G, rfl, ⟨D, hD⟩, r1, r2⟩) (s := G7) (t := A7) ⟨⟨D7, h7⟩, n7, s7, l7, i7⟩
  exact ⟨G8, D8, e8, h8⟩

/-! ### Queries -/

theorem Rep.nodes_eq (h : Rep G A D) : rxsNodes G = A.nodes := by
  unfold rxsNodes
  rw [h.base]
  change (A.nodes.map some).filterMap id = _
  simp

theorem Rep.pair_eq (h : Rep G A D) {u v : SNode} (hu : u ∈ A.nodes) (hv : v ∈ A.nodes) :
    rxsPair G (A.nodes.idxOf u, A.nodes.idxOf v) = some (u, v) := by
  unfold rxsPair
  rw [h.base]
  simp only [rxOf_data, getElem?_idxOf' hu, getElem?_idxOf' hv]
  rfl

theorem Rep.edges_eq (h : Rep G A D) : rxsEdges G = some (D.map (·.1)) := by
  have key : ∀ D' : List ((SNode × SNode) × EdgeDict), (∀ e ∈ D', e.1.1 ∈ A.nodes ∧ e.1.2 ∈ A.nodes) →
      (D'.map fun e => ((A.nodes.idxOf e.1.1, A.nodes.idxOf e.1.2), e.2)).mapM (fun e => rxsPair G e.1) = some (D'.map (·.1)) := by
    intro D' hD'
    induction D' with
    | nil => rfl
    | cons e D' ih =>
      rw [List.map_cons, List.mapM_cons, h.pair_eq (hD' e (by simp)).1 (hD' e (by simp)).2, ih fun e he => hD' e (by simp [he])]
      rfl
  unfold rxsEdges
  conv_lhs => rw [h.base]
  exact key D h.over

theorem Rep.edgeData_eq (h : Rep G A D) {u v : SNode} (hu : u ∈ A.nodes) (hv : v ∈ A.nodes) :
    rxsEdgeData G u v = PyDict.get? (symOf D) s(u, v) := by
  unfold rxsEdgeData
  rw [h.base]
  simp only [Option.bind_eq_bind, rxOf_index hu, rxOf_index hv, Option.bind_some, rxOf_edgeData h.over hu hv]

theorem get?_mapVal {K W W' : Type} [DecidableEq K] (f : W → W') (d : List (K × W)) (k : K) :
    PyDict.get? (d.map fun e => (e.1, f e.2)) k = (PyDict.get? d k).map f := by
  induction d with
  | nil => rfl
  | cons a d ih =>
    rw [List.map_cons, PyDict.get?_cons, PyDict.get?_cons, ih]
    split_ifs <;> rfl

theorem Rep.edges_sym (h : Rep G A D) : A.edges = (symOf D).map fun e => (e.1, e.2.commonVertex) := by
  rw [h.edges, symOf, List.map_map]
  rfl

theorem Rep.edge_over (h : Rep G A D) {u v : SNode} (he : s(u, v) ∈ PyDict.keys A.edges) : u ∈ A.nodes ∧ v ∈ A.nodes := by
  obtain ⟨e, he, hk⟩ := List.mem_map.1 he
  rw [h.edges_sym] at he
  obtain ⟨e', he', rfl⟩ := List.mem_map.1 he
  have := symOf_over h.over e' he'
  simp only at hk
  rwa [hk, over_mk] at this

theorem Rep.edgeData_cv (h : Rep G A D) (u v : SNode) : (rxsEdgeData G u v).map (·.commonVertex) = sgEdgeData A u v := by
  unfold sgEdgeData
  by_cases hu : u ∈ A.nodes ∧ v ∈ A.nodes
  · rw [h.edgeData_eq hu.1 hu.2, h.edges_sym, get?_mapVal]
  · have : PyDict.get? A.edges s(u, v) = none := by
      rw [PyDict.get?_eq_none]
      exact fun hc => hu (h.edge_over hc)
    rw [this]
    unfold rxsEdgeData
    rw [h.base]
    by_cases hu' : u ∈ A.nodes
    · rw [rxOf_index hu', rxOf_index_none fun hv => hu ⟨hu', hv⟩]
      rfl
    · rw [rxOf_index_none hu']
      rfl

/-- The other ends of the edges at `u`. -/
def endsOf (D : List ((SNode × SNode) × EdgeDict)) (u : SNode) : List SNode :=
  D.filterMap fun e => if e.1.1 = u then some e.1.2 else if e.1.2 = u then some e.1.1 else none

theorem Rep.ends_eq (h : Rep G A D) {u : SNode} (hu : u ∈ A.nodes) :
    G.base.graph.ends (A.nodes.idxOf u) = (endsOf D u).map A.nodes.idxOf ∧ ∀ v ∈ endsOf D u, v ∈ A.nodes := by
  constructor
  · rw [h.base]
    unfold PyGraph.ends endsOf rxOf
    rw [List.filterMap_map, List.map_filterMap]
    refine List.filterMap_congr fun e he => ?_
    obtain ⟨h1, h2⟩ := h.over e he
    simp only [Function.comp]
    have e1 : A.nodes.idxOf e.1.1 = A.nodes.idxOf u ↔ e.1.1 = u := List.idxOf_inj h1
    have e2 : A.nodes.idxOf e.1.2 = A.nodes.idxOf u ↔ e.1.2 = u := List.idxOf_inj h2
    by_cases c1 : e.1.1 = u
    · rw [if_pos c1, if_pos (e1.2 c1)]; rfl
    · rw [if_neg c1, if_neg fun hc => c1 (e1.1 hc)]
      by_cases c2 : e.1.2 = u
      · rw [if_pos c2, if_pos (e2.2 c2)]; rfl
      · rw [if_neg c2, if_neg fun hc => c2 (e2.1 hc)]; rfl
  · intro v hv
    obtain ⟨e, he, hev⟩ := List.mem_filterMap.1 hv
    obtain ⟨h1, h2⟩ := h.over e he
    split_ifs at hev
    · rw [← Option.some.inj hev]; exact h2
    · rw [← Option.some.inj hev]; exact h1

theorem mem_endsOf {u v : SNode} : v ∈ endsOf D u ↔ s(u, v) ∈ PyDict.keys (symOf D) := by
  unfold endsOf PyDict.keys symOf
  rw [List.mem_filterMap, List.map_map, List.mem_map]
  refine exists_congr fun e => and_congr_right fun _ => ?_
  simp only [Function.comp, Sym2.eq_iff]
  split_ifs with h1 h2
  · rw [Option.some.injEq]
    constructor
    · rintro rfl; exact Or.inl ⟨h1, rfl⟩
    · rintro (⟨_, h⟩ | ⟨h, h'⟩)
      · exact h
      · rw [h', ← h1, h]
  · rw [Option.some.injEq]
    constructor
    · rintro rfl; exact Or.inr ⟨rfl, h2⟩
    · rintro (⟨h, _⟩ | ⟨h, _⟩)
      · exact absurd h h1
      · exact h
  · constructor
    · intro h; cases h
    · rintro (⟨h, _⟩ | ⟨_, h⟩)
      · exact absurd h h1
      · exact absurd h h2

theorem keys_cv : PyDict.keys ((symOf D).map fun e => (e.1, e.2.commonVertex)) = PyDict.keys (symOf D) := by
  simp [PyDict.keys, Function.comp_def]

theorem Rep.keys_eq (h : Rep G A D) : PyDict.keys A.edges = PyDict.keys (symOf D) := by
  rw [h.edges_sym, keys_cv]

theorem dedup_map_idx {L : List SNode} (l : List SNode) (hl : ∀ a ∈ l, a ∈ L) : (l.map L.idxOf).dedup = l.dedup.map L.idxOf := by
  induction l with
  | nil => rfl
  | cons a l ih =>
    have hl' := fun b hb => hl b (List.mem_cons_of_mem a hb)
    rw [List.map_cons]
    by_cases h : a ∈ l
    · have hm : L.idxOf a ∈ l.map L.idxOf := List.mem_map.2 ⟨a, h, rfl⟩
      rw [List.dedup_cons_of_mem h, List.dedup_cons_of_mem hm, ih hl']
    · have hm : L.idxOf a ∉ l.map L.idxOf := by
        intro hc
        obtain ⟨b, hb, hbe⟩ := List.mem_map.1 hc
        exact h ((List.idxOf_inj (hl' b hb)).1 hbe ▸ hb)
      rw [List.dedup_cons_of_notMem h, List.dedup_cons_of_notMem hm, ih hl', List.map_cons]

theorem Rep.neighbors_eq (h : Rep G A D) {u : SNode} (hu : u ∈ A.nodes) :
    ∃ l, rxsNeighbors G u = some l ∧ l.Nodup ∧ ∀ v, v ∈ l ↔ s(u, v) ∈ PyDict.keys A.edges := by
  obtain ⟨h1, h2⟩ := h.ends_eq hu
  refine ⟨(endsOf D u).dedup, ?_, List.nodup_dedup _, fun v => ?_⟩
  · unfold rxsNeighbors PyGraph.neighbors
    have hi : PyDict.get? G.base.nodeToIndex u = some (A.nodes.idxOf u) := by rw [h.base]; exact rxOf_index hu
    simp only [hi, Option.bind_eq_bind, Option.bind_some]
    rw [h1, dedup_map_idx _ h2]
    refine mapM_some _ fun a ha => ?_
    rw [h.base, rxOf_node]
    exact getElem?_idxOf' (h2 a (List.mem_dedup.1 ha))
  · rw [List.mem_dedup, mem_endsOf, h.keys_eq]

theorem Rep.outEdges_eq (h : Rep G A D) {u : SNode} (hu : u ∈ A.nodes) :
    ∃ l : List SNode, rxsOutEdges G u = some (l.map fun v => (u, v)) ∧ (∀ v, v ∈ l ↔ s(u, v) ∈ PyDict.keys A.edges) ∧
      ((PyDict.keys A.edges).Nodup → l.Nodup) := by
  obtain ⟨h1, h2⟩ := h.ends_eq hu
  refine ⟨endsOf D u, ?_, fun v => by rw [mem_endsOf, h.keys_eq], fun hn => ?_⟩
  · unfold rxsOutEdges PyGraph.outEdges
    have hi : PyDict.get? G.base.nodeToIndex u = some (A.nodes.idxOf u) := by rw [h.base]; exact rxOf_index hu
    simp only [hi, Option.bind_eq_bind, Option.bind_some]
    rw [h1, List.map_map]
    revert h2
    generalize endsOf D u = l
    intro h2
    induction l with
    | nil => rfl
    | cons a l ih =>
      rw [List.map_cons, List.mapM_cons, ih fun v hv => h2 v (by simp [hv])]
      simp only [Function.comp]
      rw [h.pair_eq hu (h2 a (by simp))]
      rfl
  · rw [h.keys_eq] at hn
    clear h1 h2 h
    induction D with
    | nil => exact List.nodup_nil
    | cons e D ih =>
      rw [symOf, List.map_cons] at hn
      have hn' : s(e.1.1, e.1.2) ∉ PyDict.keys (symOf D) ∧ (PyDict.keys (symOf D)).Nodup := List.nodup_cons.1 hn
      have hrec := ih hn'.2
      have hnot : ∀ v, s(u, v) = s(e.1.1, e.1.2) → v ∉ endsOf D u := by
        intro v hv hm
        rw [mem_endsOf, hv] at hm
        exact hn'.1 hm
      unfold endsOf at hrec ⊢
      rw [List.filterMap_cons]
      by_cases c1 : e.1.1 = u
      · rw [if_pos c1]
        exact List.nodup_cons.2 ⟨hnot _ (by rw [c1]), hrec⟩
      · rw [if_neg c1]
        by_cases c2 : e.1.2 = u
        · rw [if_pos c2]
          exact List.nodup_cons.2 ⟨hnot _ (by rw [c2, Sym2.eq_swap]), hrec⟩
        · rw [if_neg c2]
          exact hrec

/-! ### Weights -/

theorem Rep.setWeight (h : Rep G A D) {u v : SNode} (hu : u ∈ A.nodes) (hv : v ∈ A.nodes) {d : EdgeDict}
    (hd : PyDict.get? (symOf D) s(u, v) = some d) (x : ℚ) :
    ∃ G', rxsSetWeight G u v x = some G' ∧ G'.base =
      rxOf true A.nodes (D.map fun e => if s(e.1.1, e.1.2) = s(u, v) then (e.1, { d with weight := some x }) else e) ∧
      G'.stabs = G.stabs ∧ G'.lowPts = G.lowPts ∧ G'.highPts = G.highPts := by
  unfold rxsSetWeight
  rw [h.base]
  simp only [Option.bind_eq_bind, rxOf_index hu, rxOf_index hv, Option.bind_some, rxOf_edgeData h.over hu hv, hd, Option.pure_def,
    Option.some.injEq, exists_eq_left', and_self, and_true]
  exact rxOf_setEdge h.over hu hv _

/-- Weighted edges. -/
structure WRep (G : RxStab) (A : StabGraph) (w : V → ℚ) (D : List ((SNode × SNode) × EdgeDict)) : Prop extends Rep G A D where
  weight : ∀ e ∈ D, e.2.weight = some (cvWeight w e.2.commonVertex)

theorem Rep.assign (h : Rep G A D) (w : V → ℚ) (hn : (PyDict.keys A.edges).Nodup)
    (hc : ∀ e ∈ A.edges, e.2 = none → SNode.low ∈ e.1 ∨ SNode.high ∈ e.1) :
    ∃ G' D', rxsAssign w G = some G' ∧ WRep G' A w D' := by
  have step : ∀ (l : List (SNode × SNode)) (G : RxStab) (D : List ((SNode × SNode) × EdgeDict)), Rep G A D →
      (∀ p ∈ l, s(p.1, p.2) ∈ PyDict.keys A.edges) → ∃ G' D', l.foldlM (fun G e => do
        let d ← rxsEdgeData G e.1 e.2
        match d.commonVertex with
        | some v => rxsSetWeight G e.1 e.2 (w v)
        | none => if e.1 = .high ∨ e.2 = .high ∨ e.1 = .low ∨ e.2 = .low then rxsSetWeight G e.1 e.2 0 else some G) G = some G' ∧
        Rep G' A D' ∧ ∀ e ∈ D', e.2.weight = some (cvWeight w e.2.commonVertex) ∨ (e ∈ D ∧ ∀ p ∈ l, s(p.1, p.2) ≠ s(e.1.1, e.1.2)) := by
    intro l
    induction l with
    | nil => exact fun G D h _ => ⟨G, D, rfl, h, fun e he => Or.inr ⟨he, by simp⟩⟩
    | cons p l ih =>
      intro G D h hl
      have hp := hl p (by simp)
      obtain ⟨hu, hv⟩ := h.edge_over hp
      obtain ⟨d, hd⟩ : ∃ d, PyDict.get? (symOf D) s(p.1, p.2) = some d := by
        rw [h.keys_eq, ← PyDict.get?_isSome_iff] at hp
        exact Option.isSome_iff_exists.1 hp
      have hnD : (PyDict.keys (symOf D)).Nodup := by rw [← h.keys_eq]; exact hn
      obtain ⟨G1, g1, g2, g3, g4, g5⟩ := h.setWeight hu hv hd (cvWeight w d.commonVertex)
      have hval : ∀ e ∈ D, s(e.1.1, e.1.2) = s(p.1, p.2) → e.2 = d := by
        intro e he hk
        have : (s(p.1, p.2), e.2) ∈ symOf D := List.mem_map.2 ⟨e, he, by rw [hk]⟩
        rw [← PyDict.get?_iff_mem hnD, hd] at this
        exact (Option.some.inj this).symm
      have hR1 : Rep G1 A (D.map fun e => if s(e.1.1, e.1.2) = s(p.1, p.2) then
          (e.1, { d with weight := some (cvWeight w d.commonVertex) }) else e) := by
        refine ⟨g2, h.nodup, ?_, ?_, g3.trans h.stabs, g4.trans h.low, g5.trans h.high⟩
        · intro e he
          obtain ⟨e', he', rfl⟩ := List.mem_map.1 he
          have := h.over e' he'
          split_ifs <;> exact this
        · rw [h.edges, List.map_map]
          refine List.map_congr_left fun e he => ?_
          simp only [Function.comp]
          split_ifs with hk
          · rw [hval e he hk]
          · rfl
      obtain ⟨G2, D2, e1, e2, e3⟩ := ih G1 _ hR1 fun q hq => hl q (by simp [hq])
      refine ⟨G2, D2, ?_, e2, fun e he => ?_⟩
      · rw [List.foldlM_cons]
        have hfirst : (do
            let d ← rxsEdgeData G p.1 p.2
            match d.commonVertex with
            | some v => rxsSetWeight G p.1 p.2 (w v)
            | none => if p.1 = .high ∨ p.2 = .high ∨ p.1 = .low ∨ p.2 = .low then rxsSetWeight G p.1 p.2 0 else some G) = some G1 := by
          rw [h.edgeData_eq hu hv, hd]
          simp only [Option.bind_eq_bind, Option.bind_some]
          cases hcv : d.commonVertex with
          | some v =>
            rw [hcv] at g1
            exact g1
          | none =>
            have hmem : (s(p.1, p.2), (none : Option V)) ∈ A.edges := by
              rw [h.edges_sym]
              exact List.mem_map.2 ⟨_, PyDict.get?_mem hd, by rw [hcv]⟩
            have := hc _ hmem rfl
            simp only [Sym2.mem_iff] at this
            have hcond : p.1 = .high ∨ p.2 = .high ∨ p.1 = .low ∨ p.2 = .low := by
              rcases this with (h | h) | (h | h) <;> simp [← h]
            simp only [if_pos hcond]
            rw [hcv] at g1
            exact g1
        rw [hfirst]
        exact e1
      · rcases e3 e he with h1 | ⟨h1, h2⟩
        · exact Or.inl h1
        · obtain ⟨e', he', rfl⟩ := List.mem_map.1 h1
          by_cases hk : s(e'.1.1, e'.1.2) = s(p.1, p.2)
          · left
            rw [if_pos hk]
          · rw [if_neg hk] at h2 ⊢
            right
            refine ⟨he', fun q hq => ?_⟩
            rcases List.mem_cons.1 hq with rfl | hq
            · exact fun hc => hk hc.symm
            · exact h2 q hq
  unfold rxsAssign
  rw [h.edges_eq]
  simp only [Option.bind_eq_bind, Option.bind_some]
  obtain ⟨G', D', e1, e2, e3⟩ := step (D.map (·.1)) G D h (by
    intro p hp
    obtain ⟨e, he, rfl⟩ := List.mem_map.1 hp
    rw [h.keys_eq]
    exact List.mem_map.2 ⟨_, List.mem_map.2 ⟨e, he, rfl⟩, rfl⟩)
  refine ⟨G', D', e1, ⟨e2, fun e he => ?_⟩⟩
  rcases e3 e he with h1 | ⟨h1, h2⟩
  · exact h1
  · exact absurd rfl (h2 e.1 (List.mem_map.2 ⟨e, h1, rfl⟩))

end Flamingpy.SurfaceCode
