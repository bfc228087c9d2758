import Verif.Model.Weights

/-!
# Model of repeated calls of `assign_weights`, `flamingpy/decoders/decoder.py:31-119`

Unlike Model/Weights, this follows what a call that raises leaves behind.
-/

namespace Flamingpy.Weights

open Flamingpy Flamingpy.SurfaceCode

noncomputable section

/-- What `assign_weights` writes: the `weight` attributes of the nodes of `code.graph`, and those of the edges of the
stabilizer graph (`none`: absent or `None`). -/
structure WState where
  nodes : V → Option ℝ
  edges : List (Sym2 SNode × Option ℝ)

/-- A call: its arguments, the attributes of the nodes at that time, and the order in which the set of the syndrome
qubits (decoders/decoder.py:54) is traversed. -/
structure Call where
  decoder : String
  opts : Opts
  attrs : Attrs
  order : List V

/-- The loops over `qubit_coords`, decoders/decoder.py:60-93, 101-114, 116-117, which an exception ends; what was
written before stays. -/
def runLoop (f : V → Except WErr ℝ) : List V → (V → Option ℝ) → (V → Option ℝ) × Option WErr
  | [], w => (w, none)
  | q :: qs, w => match f q with
    | .ok r => runLoop f qs (Function.update w q (some r))
    | .error e => (w, some e)

/-- decoders/decoder.py:118-119: the edges, reached only if nothing was raised before.  Simplification: as in
`assignEdges`, an edge that has no common vertex and does not end in a connector (there are none) gets no weight. -/
def finish (SG : StabGraph) (st : WState) : (V → Option ℝ) × Option WErr → WState × Option WErr
  | (w, none) => (⟨w, assignEdges SG w⟩, none)
  | (w, some e) => (⟨w, st.edges⟩, some e)

/-- `assign_weights`, decoders/decoder.py:31-119: the weights after the call, and the exception. -/
def assignCall (code : Code) (SG : StabGraph) (c : Call) (st : WState) : WState × Option WErr :=
  finish SG st <|
    if c.opts.method = "blueprint" then
      if c.decoder = "MWPM" then runLoop (blueprintWeight c.opts c.attrs code.graph) c.order st.nodes
      else if c.decoder = "UF" then (st.nodes, some .incompatible)
      else (st.nodes, none)
    else if c.opts.method = "uniform" then
      if c.decoder = "UF" then runLoop (fun q => .ok (ufWeight c.attrs code.graph q)) c.order st.nodes
      else runLoop (fun _ => .ok 1) c.order st.nodes
    else (st.nodes, none)

/-- Calls one after the other, exceptions being caught by the caller. -/
def assignCalls (code : Code) (SG : StabGraph) (cs : List Call) (st : WState) : WState :=
  cs.foldl (fun st c => (assignCall code SG c st).1) st

end

end Flamingpy.Weights
