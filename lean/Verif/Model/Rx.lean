import Verif.Model.Mwpm

/-!
# Model of the rustworkx-backed graph classes

`RxStabilizerGraph` (codes/graphs/stabilizer_graph.py:413-516) and `RxMatchingGraph` (decoders/mwpm/matching.py:244-304) keep their graph in
a `rustworkx.PyGraph`, whose nodes are integers, and two dictionaries between nodes and integers.  `Model/StabGraph` and `Model/Mwpm` describe
these classes without the integers; here they are modelled with them.
-/

namespace Flamingpy.SurfaceCode

open Flamingpy

/-! ### `rustworkx.PyGraph` -/

/-- `rustworkx.PyGraph` (an external library): payloads of the nodes by index (`none`: removed), edges with payloads. -/
structure PyGraph (α β : Type) where
  multigraph : Bool
  nodes : List (Option α)
  edges : List ((ℕ × ℕ) × β)

namespace PyGraph

variable {α β : Type}

/-- `PyGraph(multigraph=...)`. -/
def empty (multigraph : Bool) : PyGraph α β := ⟨multigraph, [], []⟩

/-- `add_node`: the new graph and the new index.  (Indices are reused after removals; the code adds no node to a graph it has removed
nodes from.) -/
def addNode (g : PyGraph α β) (a : α) : PyGraph α β × ℕ := ({ g with nodes := g.nodes ++ [some a] }, g.nodes.length)

/-- `get_node_data`. -/
def getNodeData (g : PyGraph α β) (i : ℕ) : Option α := (g.nodes[i]?).join

/-- `get_edge_data`; `none` is `NoEdgeBetweenNodes`.  (Of parallel edges, the one added first; rustworkx does not say which.) -/
def getEdgeData (g : PyGraph α β) (i j : ℕ) : Option β :=
  (g.edges.find? fun e => decide (s(e.1.1, e.1.2) = s(i, j))).map (·.2)

/-- Replace the payload of the edges between two nodes. -/
def setEdgeData (g : PyGraph α β) (i j : ℕ) (b : β) : PyGraph α β :=
  { g with edges := g.edges.map fun e => if s(e.1.1, e.1.2) = s(i, j) then (e.1, b) else e }

/-- `add_edge`: without `multigraph` an existing edge gets the new payload; `none` is the error for a missing node. -/
def addEdge (g : PyGraph α β) (i j : ℕ) (b : β) : Option (PyGraph α β) :=
  if (g.getNodeData i).isSome && (g.getNodeData j).isSome then
    some (if !g.multigraph && (g.getEdgeData i j).isSome then g.setEdgeData i j b else { g with edges := g.edges ++ [((i, j), b)] })
  else none

/-- `remove_nodes_from`: the nodes and their edges go, the other indices stay. -/
def removeNodesFrom (g : PyGraph α β) (l : List ℕ) : PyGraph α β :=
  { g with
    nodes := g.nodes.zipIdx.map fun n => if n.2 ∈ l then none else n.1
    edges := g.edges.filter fun e => decide (e.1.1 ∉ l ∧ e.1.2 ∉ l) }

/-- The other ends of the edges of a node, one entry for every edge. -/
def ends (g : PyGraph α β) (i : ℕ) : List ℕ :=
  g.edges.filterMap fun e => if e.1.1 = i then some e.1.2 else if e.1.2 = i then some e.1.1 else none

/-- `neighbors`: without repetitions (in an order that is not modelled). -/
def neighbors (g : PyGraph α β) (i : ℕ) : List ℕ := (g.ends i).dedup

/-- `out_edges`: every edge of the node, starting at it (in an order that is not modelled). -/
def outEdges (g : PyGraph α β) (i : ℕ) : List (ℕ × ℕ) := (g.ends i).map fun j => (i, j)

end PyGraph

/-! ### The attributes shared by the two classes -/

/-- The attributes `graph`, `node_to_index` and `index_to_node`. -/
structure RxGraph (α β : Type) where
  graph : PyGraph α β
  nodeToIndex : List (α × ℕ)
  indexToNode : List (ℕ × α)

/-- codes/graphs/stabilizer_graph.py:428-430, decoders/mwpm/matching.py:255-257. -/
def RxGraph.empty {α β : Type} (multigraph : Bool) : RxGraph α β := ⟨.empty multigraph, [], []⟩

/-- codes/graphs/stabilizer_graph.py:434-436, decoders/mwpm/matching.py:268-270. -/
def RxGraph.addNode {α β : Type} [DecidableEq α] (G : RxGraph α β) (n : α) : RxGraph α β :=
  let r := G.graph.addNode n
  ⟨r.1, PyDict.set G.nodeToIndex n r.2, PyDict.set G.indexToNode r.2 n⟩

/-! ### `RxStabilizerGraph` -/

/-- The dictionary of an edge: `common_vertex` and, once assigned, `weight`. -/
structure EdgeDict where
  commonVertex : Option V
  weight : Option ℚ

/-- An `RxStabilizerGraph`. -/
structure RxStab where
  base : RxGraph SNode EdgeDict
  stabs : List (List V)
  lowPts : List V
  highPts : List V

/-- `add_node`, codes/graphs/stabilizer_graph.py:433-437. -/
def rxsAddNode (G : RxStab) (n : SNode) : RxStab := { G with base := G.base.addNode n }

/-- `add_edge`, codes/graphs/stabilizer_graph.py:442-446; `none` is the KeyError for an unknown node. -/
def rxsAddEdge (G : RxStab) (u v : SNode) (cv : Option V) : Option RxStab := do
  let i ← PyDict.get? G.base.nodeToIndex u
  let j ← PyDict.get? G.base.nodeToIndex v
  let g ← G.base.graph.addEdge i j ⟨cv, none⟩
  pure { G with base := { G.base with graph := g } }

/-- `nodes`, codes/graphs/stabilizer_graph.py:439-440. -/
def rxsNodes (G : RxStab) : List SNode := G.base.graph.nodes.filterMap id

/-- `edge_data`, codes/graphs/stabilizer_graph.py:448-451. -/
def rxsEdgeData (G : RxStab) (u v : SNode) : Option EdgeDict := do
  let i ← PyDict.get? G.base.nodeToIndex u
  let j ← PyDict.get? G.base.nodeToIndex v
  G.base.graph.getEdgeData i j

/-- The pair of nodes for a pair of indices, codes/graphs/stabilizer_graph.py:455, 467. -/
def rxsPair (G : RxStab) (e : ℕ × ℕ) : Option (SNode × SNode) := do
  let u ← G.base.graph.getNodeData e.1
  let v ← G.base.graph.getNodeData e.2
  pure (u, v)

/-- `edges`, codes/graphs/stabilizer_graph.py:453-457. -/
def rxsEdges (G : RxStab) : Option (List (SNode × SNode)) := G.base.graph.edges.mapM fun e => rxsPair G e.1

/-- `neighbors`, codes/graphs/stabilizer_graph.py:459-463. -/
def rxsNeighbors (G : RxStab) (n : SNode) : Option (List SNode) := do
  let i ← PyDict.get? G.base.nodeToIndex n
  (G.base.graph.neighbors i).mapM fun j => PyDict.get? G.base.indexToNode j

/-- `out_edges`, codes/graphs/stabilizer_graph.py:465-469. -/
def rxsOutEdges (G : RxStab) (n : SNode) : Option (List (SNode × SNode)) := do
  let i ← PyDict.get? G.base.nodeToIndex n
  (G.base.graph.outEdges i).mapM (rxsPair G)

/-- `add_low_bound_point`, codes/graphs/stabilizer_graph.py:224-236. -/
def rxsAddLow (G : RxStab) (p : V) : Option RxStab :=
  rxsAddEdge (rxsAddNode { G with lowPts := G.lowPts ++ [p] } (.pt p)) .low (.pt p) none

/-- `add_high_bound_point`, codes/graphs/stabilizer_graph.py:252-264. -/
def rxsAddHigh (G : RxStab) (p : V) : Option RxStab :=
  rxsAddEdge (rxsAddNode { G with highPts := G.highPts ++ [p] } (.pt p)) .high (.pt p) none

/-- `connect_nodes`, codes/graphs/stabilizer_graph.py:289-302. -/
def rxsConnect (sp : SetPop) (G : RxStab) : Option RxStab := do
  let G ← (combinations2 (List.range G.stabs.length)).foldlM (fun G p =>
    let common := commonVertices (G.stabs.getD p.1 []) (G.stabs.getD p.2 [])
    if common = [] then some G else rxsAddEdge G (.stab p.1) (.stab p.2) (some (sp.pop p.1 p.2 common))) G
  ((List.range G.stabs.length).flatMap fun k => (G.lowPts ++ G.highPts).map fun p => (k, p)).foldlM
    (fun G e => if e.2 ∈ G.stabs.getD e.1 [] then rxsAddEdge G (.stab e.1) (.pt e.2) (some e.2) else some G) G

/-- `RxStabilizerGraph(ec, code)`, codes/graphs/stabilizer_graph.py:427-431, 72-88. -/
def rxStabGraph (sp : SetPop) (code : Code) : Option RxStab := do
  let G := rxsAddNode (rxsAddNode ⟨.empty true, [], [], []⟩ .low) .high
  let G := (List.range code.stabs.length).foldl (fun G k => rxsAddNode G (.stab k)) { G with stabs := code.stabs }
  let mid := code.boundPoints.length / 2
  let G ← (code.boundPoints.take mid).foldlM rxsAddLow G
  let G ← (code.boundPoints.drop mid).foldlM rxsAddHigh G
  rxsConnect sp G

/-- `data["weight"] = x` for the dictionary of an edge. -/
def rxsSetWeight (G : RxStab) (u v : SNode) (x : ℚ) : Option RxStab := do
  let i ← PyDict.get? G.base.nodeToIndex u
  let j ← PyDict.get? G.base.nodeToIndex v
  let d ← G.base.graph.getEdgeData i j
  pure { G with base := { G.base with graph := G.base.graph.setEdgeData i j { d with weight := some x } } }

/-- `assign_weights`, codes/graphs/stabilizer_graph.py:321-329, for node weights `w`. -/
def rxsAssign (w : V → ℚ) (G : RxStab) : Option RxStab := do
  let es ← rxsEdges G
  es.foldlM (fun G e => do
    let d ← rxsEdgeData G e.1 e.2
    match d.commonVertex with
    | some v => rxsSetWeight G e.1 e.2 (w v)
    | none => if e.1 = .high ∨ e.2 = .high ∨ e.1 = .low ∨ e.2 = .low then rxsSetWeight G e.1 e.2 0 else some G) G

/-- `rustworkx.graph_dijkstra_shortest_paths` (external): a dictionary from the indices of the nodes that can be reached from the source, without the
source, to shortest paths.  Nothing is assumed for negative weights and parallel edges. -/
structure RxPathLib where
  run : List (Sym2 ℕ × ℚ) → ℕ → List (ℕ × List ℕ)
  nodup : ∀ E s, (PyDict.keys (run E s)).Nodup
  source : ∀ E s, s ∉ PyDict.keys (run E s)
  sound : ∀ E s t p, (∀ e ∈ E, 0 ≤ e.2) → (PyDict.keys E).Nodup → (t, p) ∈ run E s →
    IsWalk E s t p ∧ ∀ p', IsWalk E s t p' → walkWeight E p ≤ walkWeight E p'
  complete : ∀ E s t p, (∀ e ∈ E, 0 ≤ e.2) → (PyDict.keys E).Nodup → IsWalk E s t p → t = s ∨ t ∈ PyDict.keys (run E s)

/-- `_path_weight`, codes/graphs/stabilizer_graph.py:496-500, with `rx_weight_fn` (514-516). -/
def rxsPathWeight (G : RxStab) : List ℕ → Option ℚ
  | a :: b :: l => do
    let d ← G.base.graph.getEdgeData a b
    let x ← d.weight
    let r ← rxsPathWeight G (b :: l)
    pure ((pyInt x : ℚ) + r)
  | _ => some 0

/-- `_shortest_paths_from`, codes/graphs/stabilizer_graph.py:485-511: the dictionaries of lengths and paths. -/
def rxsShortest (lib : RxPathLib) (G : RxStab) (graph : PyGraph SNode EdgeDict) (source : SNode) :
    Option (List (SNode × ℚ) × List (SNode × List SNode)) := do
  let i ← PyDict.get? G.base.nodeToIndex source
  let E ← graph.edges.mapM fun e => e.2.weight.map fun x => (s(e.1.1, e.1.2), x)
  let paths := lib.run E i
  let lengths ← paths.mapM fun p => do
    let t ← PyDict.get? G.base.indexToNode p.1
    let x ← rxsPathWeight G p.2
    pure (t, x)
  let nodes ← paths.mapM fun p => do
    let t ← PyDict.get? G.base.indexToNode p.1
    let l ← p.2.mapM fun i => PyDict.get? G.base.indexToNode i
    pure (t, l)
  pure (PyDict.ofPairs lengths, PyDict.ofPairs nodes)

/-- `shortest_paths_without_high_low`, codes/graphs/stabilizer_graph.py:471-475. -/
def rxsWithout (lib : RxPathLib) (G : RxStab) (source : SNode) : Option (List (SNode × ℚ) × List (SNode × List SNode)) :=
  rxsShortest lib G (G.base.graph.removeNodesFrom [0, 1]) source

/-- `shortest_paths_from_high`, `shortest_paths_from_low`, codes/graphs/stabilizer_graph.py:477-481. -/
def rxsFrom (lib : RxPathLib) (G : RxStab) (source : SNode) : Option (List (SNode × ℚ) × List (SNode × List SNode)) :=
  rxsShortest lib G G.base.graph source

/-- `odd_parity_stabilizers`, codes/graphs/stabilizer_graph.py:304-306. -/
def rxsOdd (G : RxStab) (bits : V → Bool) : List ℕ :=
  (List.range G.stabs.length).filter fun k => parity bits (G.stabs.getD k [])

/-! ### `RxMatchingGraph` -/

/-- An `RxMatchingGraph`; the payload of an edge is its weight and its path (decoders/mwpm/matching.py:230-241). -/
structure RxMatch where
  base : RxGraph MNode (ℚ × List SNode)
  virtuals : List MNode

/-- `node_index`, decoders/mwpm/matching.py:260-271: adds an unknown node. -/
def rxmIndex (M : RxMatch) (n : MNode) : RxMatch × ℕ :=
  match PyDict.get? M.base.nodeToIndex n with
  | some i => (M, i)
  | none => ({ M with base := M.base.addNode n }, (M.base.graph.addNode n).2)

/-- `add_edge`, decoders/mwpm/matching.py:273-278. -/
def rxmAddEdge (M : RxMatch) (u v : MNode) (wt : ℚ) (path : List SNode) : Option RxMatch := do
  let r := rxmIndex M u
  let r' := rxmIndex r.1 v
  let g ← r'.1.base.graph.addEdge r.2 r'.2 (wt, path)
  pure { r'.1 with base := { r'.1.base with graph := g } }

/-- `edge_weight`, `edge_path`, decoders/mwpm/matching.py:280-284: the changed graph and the payload, `none` for a missing edge. -/
def rxmEdgeData (M : RxMatch) (u v : MNode) : RxMatch × Option (ℚ × List SNode) :=
  let r := rxmIndex M u
  let r' := rxmIndex r.1 v
  (r'.1, r'.1.base.graph.getEdgeData r.2 r'.2)

/-- `_with_edges_between_real_odd_nodes`, decoders/mwpm/matching.py:125-142: for every odd stabilizer but the last, one shortest-path
computation, and edges to the later ones. -/
def rxmReal (lib : RxPathLib) (SG : RxStab) : List ℕ → RxMatch → Option RxMatch
  | a :: b :: l, M => do
    let r ← rxsWithout lib SG (.stab a)
    let M ← (b :: l).foldlM (fun M c => do
      let length ← PyDict.get? r.1 (.stab c)
      let path ← PyDict.get? r.2 (.stab c)
      rxmAddEdge M (.stab a) (.stab c) length path) M
    rxmReal lib SG (b :: l) M
  | _, M => some M

/-- `_with_edges_from_low_or_high_connector`, decoders/mwpm/matching.py:144-173. -/
def rxmVirtual (lib : RxPathLib) (SG : RxStab) (odd : List ℕ) (M : RxMatch) : Option RxMatch := do
  let low ← rxsFrom lib SG .low
  let high ← rxsFrom lib SG .high
  let M ← odd.zipIdx.foldlM (fun M e => do
    let lowLen ← PyDict.get? low.1 (.stab e.1)
    let highLen ← PyDict.get? high.1 (.stab e.1)
    let lowPath ← PyDict.get? low.2 (.stab e.1)
    let highPath ← PyDict.get? high.2 (.stab e.1)
    let length := if lowLen ≤ highLen then lowLen else highLen
    let fullPath := if lowLen ≤ highLen then lowPath else highPath
    let point ← fullPath[1]?
    let M ← rxmAddEdge M (.stab e.1) (.virt point e.2) length fullPath.tail
    pure { M with virtuals := M.virtuals ++ [.virt point e.2] }) M
  (combinations2 M.virtuals).foldlM (fun M e => rxmAddEdge M e.1 e.2 0 []) M

/-- `with_edges_from`, decoders/mwpm/matching.py:97-123, on an empty graph (52-56, 254-258). -/
def rxMatchGraph (lib : RxPathLib) (SG : RxStab) (bits : V → Bool) : Option RxMatch :=
  let odd := rxsOdd SG bits
  let M : RxMatch := ⟨.empty false, []⟩
  if odd = [] then some M
  else do
    let M ← rxmReal lib SG odd M
    if SG.lowPts ≠ [] ∨ SG.highPts ≠ [] then rxmVirtual lib SG odd M else pure M

/-- `rustworkx.max_weight_matching` with `max_cardinality=True` (external): some matching of the largest possible size and, among
those, of the greatest weight.  Nothing is assumed for parallel edges. -/
structure RxMatchLib where
  run : List (Sym2 ℕ × ℚ) → List (ℕ × ℕ)
  isMatching : ∀ E, (PyDict.keys E).Nodup → IsMatching E (run E)
  maximum : ∀ E M, (PyDict.keys E).Nodup → IsMatching E M → M.length ≤ (run E).length
  maximal : ∀ E M, (PyDict.keys E).Nodup → IsMatching E M → M.length = (run E).length → matchWeight E M ≤ matchWeight E (run E)

/-- `min_weight_perfect_matching`, decoders/mwpm/matching.py:286-292. -/
def rxmMatching (ml : RxMatchLib) (M : RxMatch) : Option (List (MNode × MNode)) :=
  (ml.run (M.base.graph.edges.map fun e => (s(e.1.1, e.1.2), -e.2.1))).mapM fun p => do
    let u ← PyDict.get? M.base.indexToNode p.1
    let v ← PyDict.get? M.base.indexToNode p.2
    pure (u, v)

/-- The inner loop of `mwpm_decoder`, decoders/mwpm/algos.py:88-92. -/
def rxTogglePath (SG : RxStab) : List SNode → List (Option V) → Option (List (Option V))
  | a :: b :: l, s => do
    let d ← rxsEdgeData SG a b
    rxTogglePath SG (b :: l) (toggle s d.commonVertex)
  | _, s => some s

/-- `mwpm_decoder` with the default backends, decoders/mwpm/algos.py:50-96 (drawing omitted). -/
def rxMwpm (lib : RxPathLib) (ml : RxMatchLib) (SG : RxStab) (bits : V → Bool) : Option (List (Option V)) := do
  let M ← rxMatchGraph lib SG bits
  let matching ← rxmMatching ml M
  let r ← matching.foldlM (fun (st : RxMatch × List (Option V)) m =>
    if m.1 ∈ st.1.virtuals ∧ m.2 ∈ st.1.virtuals then some st
    else do
      let q := rxmEdgeData st.1 m.1 m.2
      let d ← q.2
      let s ← rxTogglePath SG d.2 st.2
      pure (q.1, s)) (M, [])
  pure r.2

end Flamingpy.SurfaceCode
