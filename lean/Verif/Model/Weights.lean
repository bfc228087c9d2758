import Verif.Model.StabGraph
import Verif.Model.Gkp
import Mathlib.Analysis.SpecialFunctions.Log.Basic

/-!
# Model of `assign_weights`, `flamingpy/decoders/decoder.py:31-119`

Numbers are exact reals.  The loop over the *set* of syndrome qubits writes one attribute per
qubit and reads none of them, so its order is irrelevant: the list `code.syndrome` is used.
-/

namespace Flamingpy.Weights

open Flamingpy Flamingpy.SurfaceCode

noncomputable section

/-- The exceptions that can occur. -/
inductive WErr where
  /-- a missing node attribute or an entry of `weight_dict` -/
  | keyError
  /-- arithmetic on `None` (no `delta`) -/
  | typeError
  /-- decoders/decoder.py:95 -/
  | incompatible
deriving DecidableEq

/-- `weight_options` (defaults: decoders/decoder.py:50-51). -/
structure Opts where
  method : String := "uniform"
  integer : Bool := false
  multiplier : ℝ := 1
  probPrecomputed : Bool := false
  delta : Option ℝ := none

/-- The node attributes that are read. -/
structure Attrs where
  state : V → Option String
  homValP : V → Option ℝ
  pPhaseCond : V → Option ℝ

/-- A dictionary access that must succeed. -/
def need {α : Type} (e : WErr) : Option α → Except WErr α
  | some a => .ok a
  | none => .error e

/-- `G[node]`, the neighbours of a node (networkx adjacency, used at decoders/decoder.py:61, 102). -/
def adjOf (G : RGraph) (q : V) : List V :=
  (PyDict.keys G.nodes).filter fun x => decide (s(q, x) ∈ PyDict.keys G.edges)

/-- Python's `round`: to the nearest integer, ties to even. -/
def pyRound (x : ℝ) : ℤ :=
  if x - ⌊x⌋ < 1 / 2 then ⌊x⌋
  else if 1 / 2 < x - ⌊x⌋ then ⌊x⌋ + 1
  else if ⌊x⌋ % 2 = 0 then ⌊x⌋ else ⌊x⌋ + 1

/-- `smallest_number = sys.float_info.min`, decoders/decoder.py:27, that is `2 ** -1022`. -/
def smallestNumber : ℝ := (2 : ℝ)⁻¹ ^ 1022

/-- decoders/decoder.py:78-82 and 88-92: the weight of an error probability. -/
def toWeight (o : Opts) (p : ℝ) : ℝ :=
  if o.integer then (pyRound (-o.multiplier * Real.log p) : ℝ) else -Real.log p

/-- decoders/decoder.py:67-73: the error probability of a node with at most one p-squeezed neighbour. -/
def errProb (o : Opts) (a : Attrs) (nbrs : List V) (q : V) : Except WErr ℝ :=
  if o.probPrecomputed then need .keyError (a.pPhaseCond q)
  else do
    let delta ← need .typeError o.delta
    let homVal ← need .keyError (a.homValP q)
    pure (Gkp.zErrCond (((nbrs.length : ℝ) + 1) * delta) homVal)

/-- decoders/decoder.py:74-77. -/
def clip (p : ℝ) : ℝ :=
  let p := min p 0.5
  if p = 0 then smallestNumber else p

/-- decoders/decoder.py:64-65: number of neighbours labelled "p" (`["state"]` must exist). -/
def pCount (a : Attrs) (nbrs : List V) : Except WErr ℕ := do
  let labels ← nbrs.mapM fun v => need WErr.keyError (a.state v)
  pure (labels.countP fun s => s == "p")

/-- `weight_dict`, decoders/decoder.py:86. -/
def weightDict : List (ℕ × ℝ) := [(2, 1 / 4), (3, 1 / 3), (4, 2 / 5)]

/-- The body of the blueprint loop, decoders/decoder.py:60-93. -/
def blueprintWeight (o : Opts) (a : Attrs) (G : RGraph) (q : V) : Except WErr ℝ := do
  let nbrs := adjOf G q
  let n ← pCount a nbrs
  if n = 0 ∨ n = 1 then do
    let p ← errProb o a nbrs q
    pure (toWeight o (clip p))
  else do
    let p ← need .keyError (PyDict.get? weightDict n)
    pure (toWeight o p)

/-- The body of the Union-Find loop, decoders/decoder.py:101-114 (`.get("state")`). -/
def ufWeight (a : Attrs) (G : RGraph) (q : V) : ℝ :=
  let n := (adjOf G q).countP fun v => a.state v == some "p"
  if n = 0 ∨ n = 1 then 2 else -1

/-- The loop over the qubits: set the attribute `weight` of each. -/
def setAll (f : V → Except WErr ℝ) (qs : List V) (w : V → Option ℝ) : Except WErr (V → Option ℝ) :=
  qs.foldlM (fun w q => (f q).map fun r => Function.update w q (some r)) w

/-- The node part of `assign_weights`, decoders/decoder.py:50-116; `w` holds the `weight`
attributes before the call and the result those after it. -/
def assignNodes (code : Code) (decoder : String) (o : Opts) (a : Attrs) (w : V → Option ℝ) :
    Except WErr (V → Option ℝ) :=
  if o.method = "blueprint" then
    if decoder = "MWPM" then setAll (blueprintWeight o a code.graph) code.syndrome w
    else if decoder = "UF" then .error .incompatible
    else .ok w
  else if o.method = "uniform" then
    if decoder = "UF" then setAll (fun q => .ok (ufWeight a code.graph q)) code.syndrome w
    else setAll (fun _ => .ok 1) code.syndrome w
  else .ok w

/-- `StabilizerGraph.assign_weights`, codes/graphs/stabilizer_graph.py:321-329: the edges with their
`weight` (`none` is `None`, or no such attribute). -/
def assignEdges (G : StabGraph) (w : V → Option ℝ) : List (Sym2 SNode × Option ℝ) :=
  G.edges.map fun e => (e.1, match e.2 with
    | some v => w v
    | none => if SNode.high ∈ e.1 ∨ SNode.low ∈ e.1 then some 0 else none)

/-- `assign_weights`, decoders/decoder.py:31-119: node and edge weights. -/
def assignWeights (code : Code) (SG : StabGraph) (decoder : String) (o : Opts) (a : Attrs)
    (w : V → Option ℝ) : Except WErr ((V → Option ℝ) × List (Sym2 SNode × Option ℝ)) := do
  let w' ← assignNodes code decoder o a w
  pure (w', assignEdges SG w')

end

end Flamingpy.Weights
