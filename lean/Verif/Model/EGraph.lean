import Verif.Model.PyDict
import Mathlib.Data.Rat.Floor
import Mathlib.Algebra.Order.Ring.Rat

/-!
# Model of `flamingpy/codes/graphs/egraph.py` (the `EGraph` class)

Coordinates are rationals (Python ints or floats, exactly).  The underlying networkx graph
is an insertion-ordered list of nodes and a list of undirected edges with their weight
(edges without a `weight` attribute count 1, as in `to_numpy_array`).  Other node/edge
attributes are not modelled.  Every method returns its outcome (`Except PyErr`) *and* the
state it leaves behind, so half-done updates before an exception are visible.
-/

namespace Flamingpy.EGraph

open Flamingpy

/-- A 3-tuple of coordinates. -/
abbrev Pt := ℚ × ℚ × ℚ

/-- Exceptions. -/
inductive PyErr where
  | valueError | typeError | keyError | indexError | networkXError
deriving DecidableEq, Repr

/-- Tuple comparison `a <= b` (lexicographic). -/
def ptLe (a b : Pt) : Bool :=
  decide (a.1 < b.1 ∨ (a.1 = b.1 ∧ (a.2.1 < b.2.1 ∨ (a.2.1 = b.2.1 ∧ a.2.2 ≤ b.2.2))))

/-- `sorted(points)`. -/
def sorted (l : List Pt) : List Pt := l.mergeSort ptLe

/-- An `EGraph` (codes/graphs/egraph.py:105-131): the networkx graph and the extra attributes. -/
structure EG where
  nodes : List Pt
  edges : List (Pt × Pt × ℤ)
  /-- `_macronodes` -/
  macronodes : Bool := false
  /-- `macro_to_micro` -/
  macroToMicro : Option (List (Pt × List Pt)) := none
  toIndices : Option (List (Pt × ℕ)) := none
  toPoints : Option (List (ℕ × Pt)) := none
  adjMat : Option (List (List ℤ)) := none
deriving DecidableEq

/-- Does the (undirected) edge entry join `u` and `v`? -/
def joins (e : Pt × Pt × ℤ) (u v : Pt) : Bool :=
  decide ((e.1 = u ∧ e.2.1 = v) ∨ (e.1 = v ∧ e.2.1 = u))

/-- Weight of the edge between `u` and `v`, 0 if absent. -/
def weight (g : EG) (u v : Pt) : ℤ := ((g.edges.find? fun e => joins e u v).map (·.2.2)).getD 0

/-- networkx `add_node`. -/
def addNode (g : EG) (p : Pt) : EG :=
  if p ∈ g.nodes then g else { g with nodes := g.nodes ++ [p] }

/-- networkx `add_edge(u, v)` without attributes: creates missing end nodes; an existing edge
keeps its attributes. -/
def addEdge (g : EG) (u v : Pt) : EG :=
  let g := addNode (addNode g u) v
  if g.edges.any fun e => joins e u v then g else { g with edges := g.edges ++ [(u, v, 1)] }

/-- networkx `remove_node` for a node that is present. -/
def removeNode (g : EG) (p : Pt) : EG :=
  { g with
    nodes := g.nodes.filter fun q => decide (q ≠ p)
    edges := g.edges.filter fun e => decide (e.1 ≠ p ∧ e.2.1 ≠ p) }

/-- `index_generator`, codes/graphs/egraph.py:133-155.  `points[i] for i in range(N)` raises
IndexError when the macronode lists hold fewer than `N` points. -/
def indexGenerator (g : EG) : Except PyErr (List (Pt × ℕ)) × EG :=
  let N := g.nodes.length
  match g.toIndices with
  | some d => (.ok d, g)
  | none =>
    let mk (indDict : List (Pt × ℕ)) : Except PyErr (List (Pt × ℕ)) × EG :=
      (.ok indDict,
        { g with
          toIndices := some indDict
          toPoints := some (PyDict.ofPairs (indDict.map fun e => (e.2, e.1))) })
    if g.macronodes then
      match g.macroToMicro with
      | none => (.error .typeError, g) -- sorted(None)
      | some md =>
        let points := (sorted (PyDict.keys md)).flatMap fun v => (PyDict.get? md v).getD []
        if N ≤ points.length then mk (PyDict.ofPairs ((points.take N).zip (List.range N)))
        else (.error .indexError, g)
    else mk (PyDict.ofPairs ((sorted g.nodes).zip (List.range N)))

/-- `[self.to_points[i] for i in range(n)]` (codes/graphs/egraph.py:171); KeyError if absent. -/
def pointsInOrder (tp : List (ℕ × Pt)) (n : ℕ) : Option (List Pt) :=
  (List.range n).mapM fun i => PyDict.get? tp i

/-- `adj_generator`, codes/graphs/egraph.py:157-178 (same values for sparse and dense; the
int8 dtype is not modelled).  networkx rejects a nodelist with foreign nodes. -/
def adjGenerator (g : EG) : Except PyErr (List (List ℤ)) × EG :=
  match g.adjMat with
  | some a => (.ok a, g)
  | none =>
    let r : Except PyErr Unit × EG :=
      match g.toPoints with
      | some _ => (.ok (), g)
      | none => match indexGenerator g with
        | (.ok _, g) => (.ok (), g)
        | (.error e, g) => (.error e, g)
    match r with
    | (.error e, g) => (.error e, g)
    | (.ok _, g) =>
      match pointsInOrder (g.toPoints.getD []) g.nodes.length with
      | none => (.error .keyError, g)
      | some pts =>
        if pts.all fun p => decide (p ∈ g.nodes) then
          let a := pts.map fun u => pts.map fun v => weight g u v
          (.ok a, { g with adjMat := some a })
        else (.error .networkXError, g)

/-- The `qubit` argument of `add_qubit`. -/
inductive QubitArg where
  | tuple (coords : List ℚ)
  | none
  | other
deriving DecidableEq

/-- The `neighbors` argument of `add_qubit` (lists with elements of one type; the code only
looks at the type of the first element).  Neighbour positions are 3-tuples. -/
inductive Neighbors where
  | ints (l : List ℤ)
  | tuples (l : List Pt)
  | badType
deriving DecidableEq

/-- `max(map(lambda tup: tup[0], self.nodes()))`; `none` is the ValueError on no nodes. -/
def xMax (g : EG) : Option ℚ := (g.nodes.map (·.1)).max?

/-- The argument checks of `add_qubit`, codes/graphs/egraph.py:245-262. -/
def resolveQubit (g : EG) : QubitArg → Except PyErr Pt
  | .tuple [x, y, z] => if (x, y, z) ∈ g.nodes then .error .valueError else .ok (x, y, z)
  | .tuple _ => .error .valueError
  | .none => match xMax g with
    | some x => .ok (x + 1, 0, 0)
    | none => .error .valueError
  | .other => .error .typeError

/-- Python's `round` (to the nearest integer, ties to even). -/
def pyRound (x : ℚ) : ℤ :=
  let f := ⌊x⌋
  if x - f < 1 / 2 then f
  else if x - f > 1 / 2 then f + 1
  else if f % 2 = 0 then f else f + 1

/-- `tuple(round(i) for i in qubit)`, codes/graphs/egraph.py:301. -/
def roundPt (p : Pt) : Pt := ((pyRound p.1 : ℚ), (pyRound p.2.1 : ℚ), (pyRound p.2.2 : ℚ))

/-- The macronode part of `_update_attributes_add_qubit`, codes/graphs/egraph.py:299-306. -/
def recordMicro (g : EG) (p : Pt) (addToMacro : Bool) : EG :=
  if addToMacro then
    match g.macroToMicro with
    | some md =>
      { g with macroToMicro := some (match PyDict.get? md (roundPt p) with
          | some l => PyDict.set md (roundPt p) (l ++ [p])
          | none => PyDict.set md (roundPt p) [p]) }
    | none => g -- excluded by the caller
  else g

/-- `_update_attributes_add_qubit`, codes/graphs/egraph.py:295-311.  `max` of an empty dict
raises ValueError. -/
def updateAttributes (g : EG) (p : Pt) (addToMacro : Bool) : Except PyErr Unit × EG :=
  let g := recordMicro g p addToMacro
  match g.toIndices with
  | none => (.ok (), g)
  | some ti =>
    let tp := g.toPoints.getD []
    match (PyDict.keys tp).max? with
    | none => (.error .valueError, g)
    | some m =>
      (.ok (), { g with
        toPoints := some (PyDict.set tp (m + 1) p)
        toIndices := some (PyDict.set ti p (m + 1)) })

/-- `add_edges_from([(nb, qubit), …])`. -/
def addEdges (g : EG) (p : Pt) (nbs : List Pt) : EG := nbs.foldl (fun g q => addEdge g q p) g

/-- The neighbour part of `add_qubit`, codes/graphs/egraph.py:276-291. -/
def addNeighbors (g : EG) (p : Pt) : Option Neighbors → Except PyErr Unit × EG
  | none => (.ok (), g)
  | some (.ints []) => (.ok (), g)
  | some (.tuples []) => (.ok (), g)
  | some (.ints l) =>
    let r : Except PyErr Unit × EG :=
      match g.toPoints with
      | some _ => (.ok (), g)
      | none => match indexGenerator g with
        | (.ok _, g) => (.ok (), g)
        | (.error e, g) => (.error e, g)
    match r with
    | (.error e, g) => (.error e, g)
    | (.ok _, g) =>
      match l.mapM fun i => if 0 ≤ i then PyDict.get? (g.toPoints.getD []) i.toNat else none with
      | some nbs => (.ok (), addEdges g p nbs)
      | none => (.error .keyError, g)
  | some (.tuples l) => (.ok (), addEdges g p l)
  | some .badType => (.error .typeError, g)

/-- `add_qubit`, codes/graphs/egraph.py:222-293. -/
def addQubit (g : EG) (q : QubitArg) (nb : Option Neighbors) (addToMacro : Bool) :
    Except PyErr Unit × EG :=
  match resolveQubit g q with
  | .error e => (.error e, g)
  | .ok p =>
    if addToMacro && g.macroToMicro.isNone then (.error .valueError, g)
    else
      match updateAttributes (addNode g p) p addToMacro with
      | (.error e, g) => (.error e, g)
      | (.ok _, g) =>
        match addNeighbors g p nb with
        | (.error e, g) => (.error e, g)
        | (.ok _, g) => (.ok (), { g with adjMat := none })

/-- The argument of `remove_qubit`. -/
inductive RemArg where
  | tuple (p : Pt)
  | int (i : ℤ)
  | other
deriving DecidableEq

/-- The macronode part of `remove_qubit`, codes/graphs/egraph.py:343-353 (the loop over
`set(macro_dict)` treats each key independently, so its order is irrelevant). -/
def macroRemove (md : List (Pt × List Pt)) (p : Pt) : List (Pt × List Pt) :=
  md.filterMap fun e =>
    if p ∈ e.2 then
      let l := e.2.erase p
      if l.isEmpty then none else some (e.1, l)
    else some e

/-- The end of `remove_qubit`, codes/graphs/egraph.py:342-354. -/
def finishRemove (g : EG) (p : Pt) : EG :=
  { g with macroToMicro := g.macroToMicro.map fun m => macroRemove m p, adjMat := none }

/-- `remove_qubit`, codes/graphs/egraph.py:313-354. -/
def removeQubit (g : EG) (arg : RemArg) : Except PyErr Unit × EG :=
  match g.toIndices with
  | none =>
    match arg with
    | .tuple p =>
      if p ∈ g.nodes then (.ok (), finishRemove (removeNode g p) p) else (.error .networkXError, g)
    | _ => (.error .valueError, g)
  | some ti =>
    let target : Except PyErr Pt := match arg with
      | .other => .error .typeError
      | .int i =>
        match (if 0 ≤ i then PyDict.get? (g.toPoints.getD []) i.toNat else none) with
        | some p => .ok p
        | none => .error .keyError
      | .tuple p => .ok p
    match target with
    | .error e => (.error e, g)
    | .ok p =>
      if p ∈ g.nodes then
        let g := removeNode g p
        match PyDict.get? ti p with
        | none => (.error .keyError, g)
        | some _ =>
          let ti := PyDict.pop ti p
          let g := { g with
            toIndices := some ti
            toPoints := some (PyDict.ofPairs (ti.map fun e => (e.2, e.1))) }
          (.ok (), finishRemove g p)
      else (.error .networkXError, g)

/-- The public operations whose histories the properties range over. -/
inductive Op where
  | addQubit (q : QubitArg) (nb : Option Neighbors) (addToMacro : Bool)
  | removeQubit (arg : RemArg)
  | indexGenerator
  | adjGenerator
deriving DecidableEq

/-- One call; the result value of the getters is dropped here. -/
def step (g : EG) : Op → Except PyErr Unit × EG
  | .addQubit q nb m => addQubit g q nb m
  | .removeQubit a => removeQubit g a
  | .indexGenerator => match indexGenerator g with
    | (.ok _, g) => (.ok (), g)
    | (.error e, g) => (.error e, g)
  | .adjGenerator => match adjGenerator g with
    | (.ok _, g) => (.ok (), g)
    | (.error e, g) => (.error e, g)

/-- A history of calls (exceptions are caught by the caller, who goes on). -/
def run (g : EG) (ops : List Op) : EG := ops.foldl (fun g op => (step g op).2) g

end Flamingpy.EGraph
