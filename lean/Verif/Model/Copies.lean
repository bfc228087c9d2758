import Verif.Model.EGraph

/-!
# Several `EGraph` objects in one program: copies and what they share

`EGraph.__init__` (codes/graphs/egraph.py:122-131) takes `macro_to_micro` from the graph attribute `macro_dict` without copying it; networkx copies graph
attributes by reference (`Graph.__init__`, `Graph.copy`).  Dictionaries therefore live in a store here, and objects hold references to them.
-/

namespace Flamingpy.EGraph

/-- An `EGraph` object.  `macro_to_micro` of `g` is not used; it is the dictionary at `macroRef`. -/
structure Obj where
  g : EG
  /-- the reference `self.macro_to_micro` -/
  macroRef : Option ℕ
  /-- the reference `self.graph["macro_dict"]` -/
  graphDict : Option ℕ
deriving DecidableEq

/-- The objects of a program and the dictionaries. -/
structure World where
  objs : List Obj
  dicts : ℕ → List (Pt × List Pt)

/-- The object as its methods see it. -/
def view (w : World) (o : Obj) : EG := { o.g with macroToMicro := o.macroRef.map w.dicts }

/-- The operations of a program: a method of object `i` (codes/graphs/egraph.py:133-354, in Model/EGraph), `egraph.copy()` (networkx: a new object of
the class, made without arguments, with the graph attributes, nodes and edges of the old one), and `EGraph(egraph, macronodes=...)`
(codes/graphs/egraph.py:122-131).  Further attributes of nodes and edges are not modelled. -/
inductive WOp where
  | on (i : ℕ) (op : Op)
  | copy (i : ℕ)
  | construct (i : ℕ) (macronodes : Bool)
deriving DecidableEq

/-- The new object of `EGraph.__init__`, codes/graphs/egraph.py:122-131, for a graph with the nodes, edges and graph attributes of `o`. -/
def init (o : Obj) (macronodes : Bool) : Obj :=
  ⟨⟨o.g.nodes, o.g.edges, macronodes, none, none, none, none⟩, if macronodes then o.graphDict else none, o.graphDict⟩

/-- The changed dictionary is the same object: its new contents are in the store. -/
def writeBack (dicts : ℕ → List (Pt × List Pt)) : Option ℕ → Option (List (Pt × List Pt)) → ℕ → List (Pt × List Pt)
  | some r, some md => Function.update dicts r md
  | _, _ => dicts

/-- One operation (an index without object does nothing; exceptions are caught). -/
def stepW (w : World) : WOp → World
  | .on i op =>
    match w.objs[i]? with
    | none => w
    | some o =>
      let g' := (step (view w o) op).2
      ⟨w.objs.set i ⟨{ g' with macroToMicro := none }, o.macroRef, o.graphDict⟩,
        writeBack w.dicts o.macroRef g'.macroToMicro⟩
  | .copy i =>
    match w.objs[i]? with
    | none => w
    | some o => ⟨w.objs ++ [init o false], w.dicts⟩
  | .construct i macronodes =>
    match w.objs[i]? with
    | none => w
    | some o => ⟨w.objs ++ [init o macronodes], w.dicts⟩

/-- A history. -/
def runW (w : World) (ops : List WOp) : World := ops.foldl stepW w

end Flamingpy.EGraph
