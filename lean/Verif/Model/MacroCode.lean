import Verif.Model.Macro
import Verif.Model.Macronize
import Verif.Model.SurfaceCode

/-!
# Model of the constructor of `CVMacroLayer` on a surface code, `flamingpy/noise/cv.py:367-378`
-/

namespace Flamingpy.Noise

open Flamingpy Flamingpy.SurfaceCode Flamingpy.EGraph Flamingpy.Macronize

/-- Integer coordinates as numbers. -/
def toPt (x : V) : Pt := ((x 0 : ℚ), (x 1 : ℚ), (x 2 : ℚ))

/-- `code.graph` as `macronize` sees it; `oriented` is the list `can_graph.edges` with the `periodic`
attributes. -/
def canGraph (code : Code) (oriented : List (V × V × Bool)) : CanGraph :=
  ⟨(PyDict.keys code.graph.nodes).map toPt, oriented.map fun e => (toPt e.1, toPt e.2.1, e.2.2), none⟩

/-- networkx may list the edges in any order and direction. -/
def Oriented (code : Code) (oriented : List (V × V × Bool)) : Prop :=
  (oriented.map fun e => (s(e.1, e.2.1), e.2.2)).Perm (code.graph.edges.map fun e => (e.1, e.2.2))

/-- `can_graph.edges[edge]["weight"]`: the polarity of an edge of the code, codes/surface_code.py:179-206. -/
def polarityOf (code : Code) (x y : V) : ℤ := ((PyDict.get? code.graph.edges s(x, y)).map (·.1)).getD 1

/-- `EGraph(macronize(...), macronodes=True)`, codes/graphs/egraph.py:196-201.  `ws` are the weights of the edges of the
code, in the order in which `macronize` goes through them: it adds one edge for each of them, with the same attributes
(egraph.py:64-75). -/
def macroEG (m : MG) (ws : List ℤ) : EG :=
  ⟨m.nodes, (m.edges.zip ws).map fun e => (e.1.1, e.1.2, e.2), true, some m.dict, none, none, none⟩

/-- `list(macro_graph[v])`. -/
def macroNbrs (m : MG) (v : Pt) : List Pt :=
  m.edges.filterMap fun e => if e.1 = v then some e.2 else if e.2 = v then some e.1 else none

noncomputable section

/-- `CVMacroLayer(code, delta=..., p_swap=..., states=...)`, noise/cv.py:367-378, with the default beamsplitter
network. -/
def macroLayer (code : Code) (oriented : List (V × V × Bool)) (delta : ℝ) (pSwap : Option ℝ)
    (supplied : Option (List (String × List ℕ))) : Option (Macro Pt) := do
  let m ← (macronize (canGraph code oriented) (decide (boundStr code.ec code.boundaries ≠ "periodic")) (1 / 10)).toOption
  let r := adjGenerator (macroEG m (oriented.map fun e => polarityOf code e.1 e.2.1))
  let a ← r.1.toOption
  let pts ← pointsInOrder (r.2.toPoints.getD []) r.2.nodes.length
  let states ← initStates pSwap supplied
  pure ⟨⟨pts, fun i j => (((a.getD i []).getD j 0 : ℤ) : ℝ), delta, pSwap, .twoStep, [], states,
      ⟨fun _ => none, fun _ => none, fun _ => none, fun _ => none⟩⟩,
    macroNbrs m, PyDict.get? m.dict, roundPt, (PyDict.keys code.graph.nodes).map toPt, [],
    fun _ => none, fun _ => none, fun _ => none, fun _ => none⟩

end

end Flamingpy.Noise
