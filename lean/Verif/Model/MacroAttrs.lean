import Verif.Model.Macronize
import Mathlib.Data.Sym.Sym2

/-!
# Model of the attributes that `macronize` copies (`flamingpy/codes/graphs/egraph.py:26-102`)

Model/Macronize has the nodes, edges and dictionary; here the attributes of nodes and edges are added.  Graph attributes other than `perfect_points`
and `macro_dict` are copied by `nx.Graph(**can_graph.graph)` and not modelled.
-/

namespace Flamingpy.Macronize

open Flamingpy Flamingpy.EGraph

/-- A dictionary of attributes (names to values). -/
abbrev Attrs (A : Type) := String → Option A

/-- `d.update(e)`. -/
def merge {A : Type} (d e : Attrs A) : Attrs A := fun k => match e k with
  | some a => some a
  | none => d k

/-- The attributes of the canonical graph. -/
structure CanAttrs (A : Type) where
  node : Pt → Attrs A
  edge : Pt × Pt × Bool → Attrs A

/-- The graph under construction with the attributes of its nodes and edges. -/
structure MGA (A : Type) where
  m : MG
  nattr : Pt → Attrs A
  eattr : Sym2 Pt → Attrs A

/-- networkx `add_node(p, **a)`: the attribute part. -/
def nodeAttr {A : Type} (nattr : Pt → Attrs A) (p : Pt) (a : Attrs A) : Pt → Attrs A := Function.update nattr p (merge (nattr p) a)

/-- One pass of the loop over edges, codes/graphs/egraph.py:65-84, with `**can_graph.nodes[edge[0]]`, `**can_graph.nodes[edge[1]]` and
`**can_graph.edges[edge]` (lines 74-76). -/
def edgeStepA {A : Type} (C : CanAttrs A) (disp : ℚ) (st : MGA A) (e : Pt × Pt × Bool) : MGA A :=
  let s := shortened disp e.1 e.2.1 e.2.2
  let p1 := add e.1 s
  let p2 := sub e.2.1 s
  ⟨edgeStep disp st.m e, nodeAttr (nodeAttr st.nattr p1 (C.node e.1)) p2 (C.node e.2.1),
    Function.update st.eattr s(p1, p2) (merge (st.eattr s(p1, p2)) (C.edge e))⟩

/-- One pass of the padding loop, codes/graphs/egraph.py:86-97, with `**can_graph.nodes[node]` (line 96). -/
def padStepA {A : Type} (C : CanAttrs A) (st : MGA A) (v : Pt) : Option (MGA A) :=
  match PyDict.get? st.m.dict v with
  | none => none
  | some l =>
    some ((List.range (4 - l.length)).foldl (fun st i =>
      let m := addNode st.m (bump v i)
      ⟨{ m with dict := append m.dict v (bump v i) }, nodeAttr st.nattr (bump v i) (C.node v), st.eattr⟩) st)

/-- `macronize` with attributes, codes/graphs/egraph.py:26-102. -/
def macronizeA {A : Type} (C : CanAttrs A) (G : CanGraph) (pad : Bool) (disp : ℚ) : Except PyErr (MGA A) :=
  if disp ≥ 1 / 2 ∨ disp < 0 then .error .valueError
  else if disp = 0 ∧ G.edges ≠ [] then .error .valueError
  else
    let st := G.edges.foldl (edgeStepA C disp) ⟨{ nodes := [], edges := [], dict := [] }, fun _ _ => none, fun _ _ => none⟩
    match (if pad then G.nodes.foldlM (padStepA C) st else some st) with
    | none => .error .keyError
    | some st =>
      match G.perfectPoints with
      | none => .ok st
      | some [] => .ok st
      | some pts =>
        match pts.mapM fun p => PyDict.get? st.m.dict p with
        | none => .error .keyError
        | some ls => .ok { st with m := { st.m with perfectPoints := some ls.flatten } }

end Flamingpy.Macronize
