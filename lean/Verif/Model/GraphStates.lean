import Mathlib.Analysis.SpecialFunctions.Trigonometric.Basic
import Mathlib.Data.Sym.Sym2

/-!
# Model of `flamingpy/utils/graph_states.py`

Coordinates are exact real numbers: `np.cos`, `np.sin` are the real functions and `round(x, 5)` is the nearest
multiple of 10⁻⁵, ties to even.  Floating point error is not modelled.
-/

namespace Flamingpy.GraphStates

/-- A node: a triple of coordinates. -/
abbrev Pos := ℝ × ℝ × ℝ

/-- Nodes and edges of an `EGraph`, in order of insertion.  networkx keeps one undirected edge per pair. -/
structure GS where
  nodes : List Pos
  edges : List (Sym2 Pos)

noncomputable section

open Classical in
/-- `networkx.Graph.add_node`: no effect if present. -/
def addNode (g : GS) (p : Pos) : GS := if p ∈ g.nodes then g else ⟨g.nodes ++ [p], g.edges⟩

open Classical in
/-- `networkx.Graph.add_edge`: adds missing end nodes; no effect on an existing edge. -/
def addEdge (g : GS) (p q : Pos) : GS :=
  let g := addNode (addNode g p) q
  if s(p, q) ∈ g.edges then g else ⟨g.nodes, g.edges ++ [s(p, q)]⟩

/-- Result of a call: an exception or a graph. -/
inductive Res | valueError | ok (g : GS)

/-- A Python argument: an `int` (`bool` included) or something else. -/
inductive Arg | int (n : ℤ) | other

/-- `_generic_graph_state`, utils/graph_states.py:20-26, followed by `body`. -/
def generic (a : Arg) (body : ℕ → GS → GS) : Res :=
  match a with
  | .other => .valueError
  | .int n => if n < 1 then .valueError else .ok (body n.toNat ⟨[], []⟩)

/-- `linear_cluster`, utils/graph_states.py:63-72. -/
def linearCluster (a : Arg) : Res := generic a fun n g =>
  if n = 1 then addNode g (0, 0, 0)
  else (List.range (n - 1)).foldl (fun g (i : ℕ) => addEdge g ((i : ℝ), 0, 0) ((i : ℝ) + 1, 0, 0)) g

/-- `star_graph`, utils/graph_states.py:29-40. -/
def starGraph (a : Arg) : Res := generic a fun n g =>
  if n = 1 then addNode g (0, 0, 0)
  else (List.range (n - 1)).foldl (fun g (i : ℕ) =>
    let degs := 2 * Real.pi * i / ((n : ℝ) - 1)
    addEdge g (0, 0, 0) (Real.cos degs, Real.sin degs, 0)) g

/-- `numpy.rint`: nearest integer, ties to even. -/
def rint (x : ℝ) : ℤ :=
  if Int.fract x < 1 / 2 then ⌊x⌋ else if 1 / 2 < Int.fract x then ⌊x⌋ + 1
  else if Even ⌊x⌋ then ⌊x⌋ else ⌊x⌋ + 1

/-- `float(round(x, 5))` on a numpy float. -/
def round5 (x : ℝ) : ℝ := rint (x * 10 ^ 5) / 10 ^ 5

/-- `complete_graph`, utils/graph_states.py:43-60. -/
def completeGraph (a : Arg) : Res := generic a fun n g =>
  if n = 1 then addNode g (0, 0, 0)
  else (List.range n).foldl (fun g (i : ℕ) =>
    let degs := 2 * Real.pi * i / n
    (List.range' 1 (n - i - 1)).foldl (fun g (j : ℕ) =>
      let degsAdj := 2 * Real.pi * j / n + degs
      addEdge g (round5 (Real.cos degs), round5 (Real.sin degs), 0)
        (round5 (Real.cos degsAdj), round5 (Real.sin degsAdj), 0)) g) g

/-- `ring_graph`, utils/graph_states.py:75-91.  The loop carries `(x, y)`. -/
def ringGraph (a : Arg) : Res := generic a fun n g =>
  if n = 1 then addNode g (0, 0, 0)
  else ((List.range' 1 n).foldl (fun (c : GS × ℝ × ℝ) (i : ℕ) =>
    let degs := 2 * Real.pi * i / n
    (addEdge c.1 (round5 c.2.1, round5 c.2.2, 0) (round5 (Real.cos degs), round5 (Real.sin degs), 0),
      Real.cos degs, Real.sin degs)) (g, Real.cos 0, Real.sin 0)).1

/-- `bell`, utils/graph_states.py:94-96. -/
def bell : Res := linearCluster (.int 2)

end

end Flamingpy.GraphStates
