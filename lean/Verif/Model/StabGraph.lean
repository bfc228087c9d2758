import Verif.Model.Decoder
import Mathlib.Data.Rat.Floor
import Mathlib.Data.List.Chain

/-!
# Model of `flamingpy/codes/graphs/stabilizer_graph.py`

Stabilizers are compared by identity in Python; here the `k`-th stabilizer of the code is the node
`stab k`.
-/

namespace Flamingpy.SurfaceCode

open Flamingpy

/-- Nodes of the stabilizer graph: the connectors, the stabilizers, the boundary points. -/
inductive SNode where
  | low
  | high
  | stab (k : ℕ)
  | pt (p : V)
deriving DecidableEq

/-- The two graph libraries. -/
inductive Backend where
  | networkx | rustworkx
deriving DecidableEq, Repr

/-- `set.pop()` on the common vertices of stabilizers `i` and `j`: some element. -/
structure SetPop where
  pop : ℕ → ℕ → List V → V
  mem : ∀ i j l, l ≠ [] → pop i j l ∈ l

/-- A `StabilizerGraph`; every edge carries its `common_vertex` (`none` is `None`). -/
structure StabGraph where
  nodes : List SNode
  stabs : List (List V)
  lowPts : List V
  highPts : List V
  edges : List (Sym2 SNode × Option V)

/-- `add_node`, codes/graphs/stabilizer_graph.py:369-371 (networkx: nothing happens for an existing
node), 433-437 (rustworkx: always a new index). -/
def sgAddNode (bk : Backend) (G : StabGraph) (n : SNode) : StabGraph :=
  match bk with
  | .networkx => if n ∈ G.nodes then G else { G with nodes := G.nodes ++ [n] }
  | .rustworkx => { G with nodes := G.nodes ++ [n] }

/-- `add_edge`, codes/graphs/stabilizer_graph.py:376-378 (networkx overwrites an existing edge), 442-446
(rustworkx: `PyGraph` is a multigraph). -/
def sgAddEdge (bk : Backend) (G : StabGraph) (u v : SNode) (cv : Option V) : StabGraph :=
  match bk with
  | .networkx => { G with edges := PyDict.set G.edges s(u, v) cv }
  | .rustworkx => { G with edges := G.edges ++ [(s(u, v), cv)] }

/-- `edge_data(u, v)["common_vertex"]`, codes/graphs/stabilizer_graph.py:380-381, 448-451; `none` is the
error for a missing edge. -/
def sgEdgeData (G : StabGraph) (u v : SNode) : Option (Option V) := PyDict.get? G.edges s(u, v)

/-- `itertools.combinations(l, 2)`. -/
def combinations2 {α : Type} : List α → List (α × α)
  | [] => []
  | a :: l => l.map (fun b => (a, b)) ++ combinations2 l

/-- `add_low_bound_point`, codes/graphs/stabilizer_graph.py:224-236. -/
def addLowPoint (bk : Backend) (G : StabGraph) (p : V) : StabGraph :=
  sgAddEdge bk (sgAddNode bk { G with lowPts := G.lowPts ++ [p] } (.pt p)) .low (.pt p) none

/-- `add_high_bound_point`, codes/graphs/stabilizer_graph.py:252-264. -/
def addHighPoint (bk : Backend) (G : StabGraph) (p : V) : StabGraph :=
  sgAddEdge bk (sgAddNode bk { G with highPts := G.highPts ++ [p] } (.pt p)) .high (.pt p) none

/-- `set(stab1.coords()) & set(stab2.coords())`. -/
def commonVertices (s t : List V) : List V := s.filter fun x => decide (x ∈ t)

/-- The coordinates of the `k`-th stabilizer. -/
def StabGraph.coords (G : StabGraph) (k : ℕ) : List V := G.stabs.getD k []

/-- The first loop of `connect_nodes`, codes/graphs/stabilizer_graph.py:295-298. -/
def connectStabs (bk : Backend) (sp : SetPop) (G : StabGraph) : StabGraph :=
  (combinations2 (List.range G.stabs.length)).foldl (fun G p =>
    let common := commonVertices (G.coords p.1) (G.coords p.2)
    if common = [] then G else sgAddEdge bk G (.stab p.1) (.stab p.2) (some (sp.pop p.1 p.2 common))) G

/-- The second loop of `connect_nodes`, codes/graphs/stabilizer_graph.py:299-301. -/
def connectPoints (bk : Backend) (G : StabGraph) : StabGraph :=
  ((List.range G.stabs.length).flatMap fun k => (G.lowPts ++ G.highPts).map fun p => (k, p)).foldl
    (fun G e => if e.2 ∈ G.coords e.1 then sgAddEdge bk G (.stab e.1) (.pt e.2) (some e.2) else G) G

/-- `StabilizerGraph(ec, code)`, codes/graphs/stabilizer_graph.py:72-88, 289-302. -/
def stabGraph (bk : Backend) (sp : SetPop) (code : Code) : StabGraph :=
  let G0 := sgAddNode bk (sgAddNode bk ⟨[], [], [], [], []⟩ .low) .high
  let G1 := (List.range code.stabs.length).foldl (fun G k => sgAddNode bk G (.stab k)) { G0 with stabs := code.stabs }
  let mid := code.boundPoints.length / 2
  let G2 := (code.boundPoints.take mid).foldl (addLowPoint bk) G1
  let G3 := (code.boundPoints.drop mid).foldl (addHighPoint bk) G2
  connectPoints bk (connectStabs bk sp G3)

/-- `odd_parity_stabilizers`, codes/graphs/stabilizer_graph.py:304-306. -/
def oddStabs (G : StabGraph) (bits : V → Bool) : List ℕ :=
  (List.range G.stabs.length).filter fun k => parity bits (G.coords k)

/-! ### Weights and shortest paths -/

/-- `assign_weights`, codes/graphs/stabilizer_graph.py:321-329, for node weights `w` (all syndrome qubits have
one): the weighted edges. A float weight is the rational number it denotes. -/
def weightedEdges (G : StabGraph) (w : V → ℚ) : List (Sym2 SNode × ℚ) :=
  G.edges.map fun e => (e.1, match e.2 with
    | some v => w v
    | none => 0)

/-- The edges of the graph without the connectors, codes/graphs/stabilizer_graph.py:392-396 (networkx), 471-475
(rustworkx: nodes 0 and 1). -/
def withoutConnectors (E : List (Sym2 SNode × ℚ)) : List (Sym2 SNode × ℚ) :=
  E.filter fun e => decide (SNode.low ∉ e.1 ∧ SNode.high ∉ e.1)

/-- A sequence of nodes joined by edges, from `s` to `t`. -/
def IsWalk {α : Type} (E : List (Sym2 α × ℚ)) (s t : α) (p : List α) : Prop :=
  p.head? = some s ∧ p.getLast? = some t ∧ p.IsChain fun a b => s(a, b) ∈ PyDict.keys E

/-- Sum of a function of the edge weights along a walk. -/
def walkSum {α : Type} [DecidableEq α] (f : ℚ → ℚ) (E : List (Sym2 α × ℚ)) : List α → ℚ
  | a :: b :: l => f ((PyDict.get? E s(a, b)).getD 0) + walkSum f E (b :: l)
  | _ => 0

/-- Total weight of a walk. -/
def walkWeight {α : Type} [DecidableEq α] (E : List (Sym2 α × ℚ)) (p : List α) : ℚ := walkSum id E p

/-- A shortest-path routine (networkx `single_source_dijkstra`, rustworkx
`graph_dijkstra_shortest_paths`): for non-negative weights it returns some shortest walk to each node that
can be reached, and nothing for the others.  These libraries are not modelled further. -/
structure PathLib where
  find : List (Sym2 SNode × ℚ) → SNode → SNode → Option (List SNode)
  sound : ∀ E s t p, (∀ e ∈ E, 0 ≤ e.2) → s ≠ t → find E s t = some p →
    IsWalk E s t p ∧ ∀ p', IsWalk E s t p' → walkWeight E p ≤ walkWeight E p'
  complete : ∀ E s t, (∀ e ∈ E, 0 ≤ e.2) → s ≠ t → find E s t = none → ∀ p, ¬ IsWalk E s t p

/-- Python's `int(x)`: truncation towards zero. -/
def pyInt (x : ℚ) : ℤ := if 0 ≤ x then ⌊x⌋ else ⌈x⌉

/-- The lengths returned next to the paths: Dijkstra's distance for networkx (the total weight of the
path; float rounding is not modelled); for rustworkx recomputed with truncated edge weights
(`_path_weight`, codes/graphs/stabilizer_graph.py:496-500). -/
def pathLength (bk : Backend) (E : List (Sym2 SNode × ℚ)) (p : List SNode) : ℚ :=
  match bk with
  | .networkx => walkWeight E p
  | .rustworkx => walkSum (fun x => (pyInt x : ℚ)) E p

end Flamingpy.SurfaceCode
