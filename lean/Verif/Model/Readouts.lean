import Verif.Model.Rx

/-!
# Model of the remaining queries: geometry of stabilizers, parts of stabilizer graphs, conversions to networkx
-/

namespace Flamingpy.SurfaceCode

open Flamingpy

/-! ### `codes/stabilizer.py` -/

/-- The attributes `physical` of the stabilizers, codes/surface_code.py:413, 419. -/
def physical (code : Code) : List (List V) := sixBodies code.ec code.dims (boundsOf code.ec code.boundaries)

/-- `xlims`, `ylims`, `zlims` (axis 0, 1, 2), codes/stabilizer.py:61-77; `none` is the error for an empty list. -/
def lims (stabe : List V) (i : Fin 3) : Option (ℤ × ℤ) := do
  let lo ← (stabe.map fun p => p i).min?
  let hi ← (stabe.map fun p => p i).max?
  pure (lo, hi)

/-- `midpoint`, codes/stabilizer.py:79-85 (`np.average` of a pair). -/
def midpoint (stabe : List V) : Option (Fin 3 → ℚ) := do
  let x ← lims stabe 0
  let y ← lims stabe 1
  let z ← lims stabe 2
  pure ![(x.1 + x.2) / 2, (y.1 + y.2) / 2, (z.1 + z.2) / 2]

/-! ### Parts of a stabilizer graph -/

/-- `bound_points`, codes/graphs/stabilizer_graph.py:281-283. -/
def sgBoundPoints (G : StabGraph) : List V := G.lowPts ++ G.highPts

/-- `has_bound_points` (as a truth value), codes/graphs/stabilizer_graph.py:285-287. -/
def sgHasBound (G : StabGraph) : Bool := !(G.lowPts.isEmpty && G.highPts.isEmpty)

/-- `real_nodes`, codes/graphs/stabilizer_graph.py:308-311. -/
def sgRealNodes (G : StabGraph) : List SNode :=
  (List.range G.stabs.length).map SNode.stab ++ (sgBoundPoints G).map SNode.pt

/-- `real_edges`, codes/graphs/stabilizer_graph.py:313-319. -/
def sgRealEdges (G : StabGraph) : List (Sym2 SNode) :=
  (PyDict.keys G.edges).filter fun e => decide (SNode.low ∉ e ∧ SNode.high ∉ e)

/-! ### Conversions -/

/-- An `NxStabilizerGraph` with the dictionaries of its edges, codes/graphs/stabilizer_graph.py:356-390. -/
structure NxStab where
  nodes : List SNode
  edges : List (Sym2 SNode × EdgeDict)
  stabs : List (List V)
  lowPts : List V
  highPts : List V

/-- `add_node`, codes/graphs/stabilizer_graph.py:369-371. -/
def nxAddNode (N : NxStab) (n : SNode) : NxStab := if n ∈ N.nodes then N else { N with nodes := N.nodes ++ [n] }

/-- `add_edge`, codes/graphs/stabilizer_graph.py:376-378: networkx adds missing nodes and updates the dictionary of an existing edge. -/
def nxAddEdge (N : NxStab) (u v : SNode) (cv : Option V) : NxStab :=
  let N := nxAddNode (nxAddNode N u) v
  { N with edges := PyDict.set N.edges s(u, v) ⟨cv, (PyDict.get? N.edges s(u, v)).bind (·.weight)⟩ }

/-- `edge_data(u, v)["weight"] = x`. -/
def nxSetWeight (N : NxStab) (u v : SNode) (x : ℚ) : Option NxStab := do
  let d ← PyDict.get? N.edges s(u, v)
  pure { N with edges := PyDict.set N.edges s(u, v) { d with weight := some x } }

/-- `NxStabilizerGraph()`, codes/graphs/stabilizer_graph.py:365-367, 72-77. -/
def nxEmpty : NxStab := nxAddNode (nxAddNode ⟨[], [], [], [], []⟩ .low) .high

/-- `to_nx` of an `RxStabilizerGraph`, codes/graphs/stabilizer_graph.py:331-344. -/
def rxsToNx (G : RxStab) : Option NxStab := do
  let es ← rxsEdges G
  es.foldlM (fun N e => do
    let d ← rxsEdgeData G e.1 e.2
    let N := nxAddEdge N e.1 e.2 d.commonVertex
    match d.weight with
    | some x => nxSetWeight N e.1 e.2 x
    | none => some N) nxEmpty

/-- `to_nx` of an `RxMatchingGraph`, decoders/mwpm/matching.py:294-304; a networkx matching graph is a `MatchGraph`. -/
def rxmToNx (M : RxMatch) : Option (RxMatch × MatchGraph) :=
  M.base.graph.edges.foldlM (fun (st : RxMatch × MatchGraph) e => do
    let u ← st.1.base.graph.getNodeData e.1.1
    let v ← st.1.base.graph.getNodeData e.1.2
    let q := rxmEdgeData st.1 u v
    let d ← q.2
    let q' := rxmEdgeData q.1 u v
    let d' ← q'.2
    pure (q'.1, mgAddEdge st.2 u v d.1 d'.2)) (M, ⟨[], []⟩)

/-- `total_weight_of`, decoders/mwpm/matching.py:86-95, on a networkx graph (203-204). -/
def mgTotal (B : MatchGraph) (l : List (MNode × MNode)) : Option ℚ := do
  let ws ← l.mapM fun m => (PyDict.get? B.edges s(m.1, m.2)).map (·.1)
  pure ws.sum

/-- `total_weight_of` on a rustworkx graph (280-281). -/
def rxmTotal (M : RxMatch) (l : List (MNode × MNode)) : Option (RxMatch × ℚ) :=
  l.foldlM (fun (st : RxMatch × ℚ) m => do
    let q := rxmEdgeData st.1 m.1 m.2
    let d ← q.2
    pure (q.1, st.2 + d.1)) (M, 0)

end Flamingpy.SurfaceCode
