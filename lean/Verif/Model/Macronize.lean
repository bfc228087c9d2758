import Verif.Model.EGraph
import Mathlib.Data.Nat.Log
import Mathlib.Algebra.Order.Floor.Semiring

/-!
# Model of `macronize` (`flamingpy/codes/graphs/egraph.py:26-102`)

Coordinates are exact rationals instead of floats.  Node and edge attributes other than
`periodic` are not modelled.
-/

namespace Flamingpy.Macronize

open Flamingpy Flamingpy.EGraph

/-- The graph handed to `macronize`: nodes, edges with their `periodic` attribute, and the
optional graph attribute `perfect_points`. -/
structure CanGraph where
  nodes : List Pt
  edges : List (Pt × Pt × Bool)
  perfectPoints : Option (List Pt) := none

/-- The graph under construction (`macro_graph`, `macro_dict`). -/
structure MG where
  nodes : List Pt
  edges : List (Pt × Pt)
  dict : List (Pt × List Pt)
  perfectPoints : Option (List Pt) := none
deriving DecidableEq

/-- `macro_graph.add_node(p)`. -/
def addNode (m : MG) (p : Pt) : MG := if p ∈ m.nodes then m else { m with nodes := m.nodes ++ [p] }

/-- `macro_graph.add_edge(p, q)` (both ends present). -/
def addEdge (m : MG) (p q : Pt) : MG :=
  if m.edges.any fun e => decide ((e.1 = p ∧ e.2 = q) ∨ (e.1 = q ∧ e.2 = p)) then m
  else { m with edges := m.edges ++ [(p, q)] }

/-- `if not macro_dict.get(k): macro_dict[k] = []`, codes/graphs/egraph.py:78-81. -/
def ensure (d : List (Pt × List Pt)) (k : Pt) : List (Pt × List Pt) :=
  if ((PyDict.get? d k).getD []).isEmpty then PyDict.set d k [] else d

/-- `macro_dict[k].append(p)` for a key that is present. -/
def append (d : List (Pt × List Pt)) (k p : Pt) : List (Pt × List Pt) :=
  PyDict.set d k ((PyDict.get? d k).getD [] ++ [p])

/-- `np.round(x, n)` (half to even). -/
def roundDec (n : ℕ) (x : ℚ) : ℚ := pyRound (x * 10 ^ n) / 10 ^ n

/-- `-int(np.log10(disp)) + 2` for `0 < disp < 1`: `int` truncates, so `-int(log10 disp)` is the
largest `k` with `10^k ≤ 1/disp`. -/
def decimals (disp : ℚ) : ℕ := Nat.log 10 ⌊1 / disp⌋₊ + 2

/-- A component of `direction_vec / distance` for an axis-parallel edge. -/
def sgn (x : ℚ) : ℚ := if 0 < x then 1 else if x < 0 then -1 else 0

/-- `shortened_vec`, codes/graphs/egraph.py:67-71.  Simplification: the Euclidean norm is only
computed for axis-parallel edges, where dividing by it leaves the sign of each component. -/
def shortened (disp : ℚ) (u v : Pt) (periodic : Bool) : Pt :=
  let flip : ℚ := if periodic then -1 else 1
  let f (x : ℚ) : ℚ := roundDec (decimals disp) (flip * disp * sgn x)
  (f (v.1 - u.1), f (v.2.1 - u.2.1), f (v.2.2 - u.2.2))

/-- Vector sum. -/
def add (u v : Pt) : Pt := (u.1 + v.1, u.2.1 + v.2.1, u.2.2 + v.2.2)
/-- Vector difference. -/
def sub (u v : Pt) : Pt := (u.1 - v.1, u.2.1 - v.2.1, u.2.2 - v.2.2)

/-- One pass of the loop over edges, codes/graphs/egraph.py:65-84. -/
def edgeStep (disp : ℚ) (m : MG) (e : Pt × Pt × Bool) : MG :=
  let s := shortened disp e.1 e.2.1 e.2.2
  let p1 := add e.1 s
  let p2 := sub e.2.1 s
  let m := addEdge (addNode (addNode m p1) p2) p1 p2
  let d := ensure (ensure m.dict e.1) e.2.1
  { m with dict := append (append d e.1 p1) e.2.1 p2 }

/-- `new_node[i] = new_node[i] + 0.05`, codes/graphs/egraph.py:92-94. -/
def bump (v : Pt) (i : ℕ) : Pt :=
  match i with
  | 0 => (v.1 + 1 / 20, v.2.1, v.2.2)
  | 1 => (v.1, v.2.1 + 1 / 20, v.2.2)
  | _ => (v.1, v.2.1, v.2.2 + 1 / 20)

/-- One pass of the padding loop, codes/graphs/egraph.py:86-97; `none` is the KeyError of
`macro_dict[node]`. -/
def padStep (m : MG) (v : Pt) : Option MG :=
  match PyDict.get? m.dict v with
  | none => none
  | some l =>
    some ((List.range (4 - l.length)).foldl (fun m i =>
      let m := addNode m (bump v i)
      { m with dict := append m.dict v (bump v i) }) m)

/-- `macronize`, codes/graphs/egraph.py:26-102.  `disp = 0` fails in `int(log10(0))`
(OverflowError, reported here as a value error) as soon as there is an edge. -/
def macronize (G : CanGraph) (pad : Bool) (disp : ℚ) : Except PyErr MG :=
  if disp ≥ 1 / 2 ∨ disp < 0 then .error .valueError
  else if disp = 0 ∧ G.edges ≠ [] then .error .valueError
  else
    let m := G.edges.foldl (edgeStep disp) { nodes := [], edges := [], dict := [] }
    match (if pad then G.nodes.foldlM padStep m else some m) with
    | none => .error .keyError
    | some m =>
      match G.perfectPoints with
      | none => .ok m
      | some [] => .ok m
      | some pts =>
        match pts.mapM fun p => PyDict.get? m.dict p with
        | none => .error .keyError
        | some ls => .ok { m with perfectPoints := some ls.flatten }

end Flamingpy.Macronize
