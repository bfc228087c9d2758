import Verif.Model.Correct
import Verif.Model.Readouts

/-!
# Model of `flamingpy/utils/viz.py`: what is drawn, and what drawing does to the objects drawn

Matplotlib, plotly and networkx drawing calls are not modelled; the model stops at the data handed to them.
-/

namespace Flamingpy.Viz

open Flamingpy Flamingpy.SurfaceCode

noncomputable section

/-! ### Axes -/

/-- `math.remainder(x, y)`: the difference to the nearest multiple of `y`, ties to even. -/
def remainder (x y : ℝ) : ℝ := x - Weights.pyRound (x / y) * y

/-- `np.isclose(x, 0)`: the default absolute tolerance (the relative one does not count at 0). -/
def isClose0 (x : ℝ) : Bool := by
  classical exact decide (|x| ≤ 1 / 10 ^ 8)

/-- Python's `int(x)` of a float: truncation towards zero. -/
def truncInt (x : ℝ) : ℤ := if 0 ≤ x then ⌊x⌋ else ⌈x⌉

/-- `bool * str` and `int * str` for 0 and 1. -/
def times (b : Bool) (s : String) : String := if b then s else ""

/-- `to_pi_string`, utils/viz.py:1087-1108.  `fmt x d` is the string `f"{x:.{d}f}"`; floats are real numbers. -/
def toPiString (fmt : ℝ → ℕ → String) (x : ℝ) (tex : Bool) (d : ℕ) : String :=
  if isClose0 (remainder x (√Real.pi / 2)) then
    let integer := Weights.pyRound (x / (√Real.pi / 2))
    let pref := truncInt (integer * ((1 - (integer % 2 : ℤ)) / 2 + (integer % 2 : ℤ)))
    let nonzero := decide (Weights.pyRound x ≠ 0)
    times (!nonzero) "0" ++ times nonzero (times tex "$" ++ times (decide (1 + pref = 0)) "-" ++
      times (decide (1 - |pref| ≠ 0)) (toString pref) ++ "\\sqrt{\\pi}" ++ times (decide (integer % 2 = 1)) "/2" ++ times tex "$")
  else fmt x d

/-- `np.linspace(a, b, num)`; `none` is the error for a negative number. -/
def linspace (a b : ℝ) (num : ℤ) : Option (List ℝ) :=
  if num < 0 then none
  else if num = 1 then some [a]
  else some ((List.range num.toNat).map fun i : ℕ => a + i * ((b - a) / (num - 1)))

/-- `x // y`. -/
def floorDiv (x y : ℝ) : ℤ := ⌊x / y⌋

/-- The ticks of `plot_integer_part`, `plot_fractional_part`, `plot_GKP_bins`, utils/viz.py:68-69, 90-91, 115-116 (and 147-148 with 153,
`plot_Z_err_cond` with `use_hom_val`), for the first and the last value. -/
def xTicks (first last alpha : ℝ) : Option (List ℝ) :=
  let xmin := alpha * floorDiv first alpha
  let xmax := alpha * floorDiv last alpha + alpha
  linspace xmin xmax (floorDiv (xmax - xmin) alpha + 1)

/-! ### The syndrome plot -/

/-- `_cuboid_data`, utils/viz.py:976-996: the faces as lists of corners. -/
def cuboidData (origin size : Fin 3 → ℝ) : List (List (Fin 3 → ℝ)) :=
  let X : List (List (Fin 3 → ℝ)) :=
    [[![0, 1, 0], ![0, 0, 0], ![1, 0, 0], ![1, 1, 0]],
     [![0, 0, 0], ![0, 0, 1], ![1, 0, 1], ![1, 0, 0]],
     [![1, 0, 1], ![1, 0, 0], ![1, 1, 0], ![1, 1, 1]],
     [![0, 0, 1], ![0, 0, 0], ![0, 1, 0], ![0, 1, 1]],
     [![0, 1, 0], ![0, 1, 1], ![1, 1, 1], ![1, 1, 0]],
     [![0, 1, 1], ![0, 0, 1], ![1, 0, 1], ![1, 1, 1]]]
  X.map fun face => face.map fun p i => p i * size i + origin i

/-- The loop of `syndrome_plot`, utils/viz.py:887-909: origin, size and colour of the voxel of each stabilizer (`physical` and coordinates of the
stabilizers side by side); `none` is an error. -/
def voxels (code : Code) (bits : V → Bool) : Option (List ((Fin 3 → ℝ) × (Fin 3 → ℝ) × String)) :=
  ((physical code).zip code.stabs).mapM fun s => do
    let x ← lims s.1 0
    let y ← lims s.1 1
    let z ← lims s.1 2
    let color := if parity bits s.2 then "#FF000015" else "#00FF0015"
    let gap : ℝ := 0.15
    let lo : Fin 3 → ℝ := ![x.1, y.1, z.1]
    let hi : Fin 3 → ℝ := ![x.2, y.2, z.2]
    pure (fun i => lo i + gap, fun i => |hi i - lo i| - 2 * gap, color)

/-- `_plot_cubes_at`, utils/viz.py:948-973: the polygons (`np.concatenate`) and their colours (`np.repeat(colors, 6)`). -/
def plotCubes (vs : List ((Fin 3 → ℝ) × (Fin 3 → ℝ) × String)) : List (List (Fin 3 → ℝ)) × List String :=
  (vs.flatMap fun v => cuboidData v.1 v.2.1, vs.flatMap fun v => List.replicate 6 v.2.2)

/-! ### Drawing the graphs of the decoder -/

/-- Is the node one of the connectors? -/
def isConnector : SNode → Bool
  | .low => true
  | .high => true
  | _ => false

/-- `graph.graph.remove_nodes_from({"low", "high"})`, utils/viz.py:733-735, on a networkx graph: nodes and their edges. -/
def dropConnectors (G : StabGraph) : StabGraph :=
  { G with
    nodes := G.nodes.filter fun n => !isConnector n
    edges := G.edges.filter fun e => decide (SNode.low ∉ e.1 ∧ SNode.high ∉ e.1) }

/-- The same on the result of `to_nx`. -/
def dropConnectorsNx (N : NxStab) : NxStab :=
  { N with
    nodes := N.nodes.filter fun n => !isConnector n
    edges := N.edges.filter fun e => decide (SNode.low ∉ e.1 ∧ SNode.high ∉ e.1) }

/-- The stabilizer graph of a code after `draw_stabilizer_graph`, codes/surface_code.py:545-552 with codes/graphs/stabilizer_graph.py:338-339, 346-353
and utils/viz.py:733-737: a networkx graph is drawn itself, a rustworkx graph is converted first. -/
def afterDraw (bk : Backend) (G : StabGraph) : StabGraph :=
  match bk with
  | .networkx => dropConnectors G
  | .rustworkx => G

/-- The nodes and weighted edges drawn for a networkx stabilizer graph with node weights `w`: `assign_weights`, then `draw_dec_graph`. -/
def drawnNx (G : StabGraph) (w : V → ℚ) : List SNode × List (Sym2 SNode × ℚ) :=
  ((dropConnectors G).nodes, weightedEdges (dropConnectors G) w)

/-- The nodes and weighted edges drawn for a rustworkx stabilizer graph: `assign_weights`, `to_nx`, then `draw_dec_graph`; `none` is an error,
here also for an edge without weight (utils/viz.py:793). -/
def drawnRx (G : RxStab) (w : V → ℚ) : Option (List SNode × List (Sym2 SNode × ℚ)) := do
  let G ← rxsAssign w G
  let N ← rxsToNx G
  let es ← (dropConnectorsNx N).edges.mapM fun e => e.2.weight.map fun x => (e.1, x)
  pure ((dropConnectorsNx N).nodes, es)

/-- The labels of the nodes of the stabilizer graph in `draw_decoding`, utils/viz.py:1047-1049: `enumerate(list(nodes)[2:])`. -/
def stabLabels (G : StabGraph) : List (SNode × ℕ) := (G.nodes.drop 2).zipIdx

/-- The labels of the virtual nodes, utils/viz.py:1052-1055; `none` is the KeyError for a point without label. -/
def virtualLabels (G : StabGraph) (matchNodes : List MNode) : Option (List (MNode × ℕ)) :=
  (matchNodes.filter fun n => match n with
    | .stab k => decide (SNode.stab k ∉ G.nodes)
    | .virt _ _ => true).mapM fun n => match n with
    | .stab _ => none
    | .virt p _ => (PyDict.get? (stabLabels G) p).map fun i => (n, i)

/-- The nodes of a matching graph. -/
def matchNodes (G : MatchGraph) (odd : List ℕ) : List MNode :=
  (odd.map MNode.stab ++ G.virtuals).filter fun n => (PyDict.keys G.edges).any fun e => decide (n ∈ e)

/-- `mwpm_decoder(draw=True)`, decoders/mwpm/algos.py:50-96: the matching is computed before the drawing, the recovery after it.  The result is the
recovery and the stabilizer graph left behind.  (`labels`: whether nodes are labelled.) -/
def mwpmDraw (bk : Backend) (lib : PathLib) (ml : MatchLib) (labels : Bool) (SG : StabGraph) (w : V → ℚ) (bits : V → Bool) :
    Option (List (Option V) × StabGraph) := do
  let G ← matchGraph bk lib SG w bits
  let M := perfectMatching ml G
  if labels then
    let _ ← virtualLabels SG (matchNodes G (oddStabs SG bits))
  let SG := afterDraw bk SG
  let r ← matchingRecovery SG G M
  pure (r, SG)

/-- `uf_decoder(draw=True)`, decoders/unionfind/algos.py:314-334: the drawing comes last. -/
def ufDraw (bk : Backend) (cl : UnionFind.CompLib SNode) (sl : UnionFind.SpanLib SNode (Option V)) (io : UnionFind.IterOrder SNode) (fuel : ℕ)
    (SG : StabGraph) (w : V → ℚ) (bits : V → Bool) : Option (List (Option V) × StabGraph) := do
  let r ← UnionFind.ufDecoder cl sl io fuel SG w bits
  pure (r, afterDraw bk SG)

/-- One call of a decoder: its name, node weights, bit values, and whether it draws (and labels nodes). -/
structure Call where
  name : String
  w : V → ℚ
  bits : V → Bool
  draw : Bool
  labels : Bool

/-- A call of `decoder_dict[decoder]` as in decoders/decoder.py:277-283, with the options `draw` and `drawing_opts`, on a stabilizer graph: the recovery
and the stabilizer graph left behind (in Python the code object holds it, and the next call uses it). -/
def decodeCall (X : Trial.Libs) (code : Code) (SG : StabGraph) (c : Call) : Option (List (Option V) × StabGraph) :=
  let fuel := 2 * (stabGraph X.bk X.sp code).edges.length + 1
  if c.name = "MWPM" then
    if c.draw then mwpmDraw X.bk X.paths X.matching c.labels SG c.w c.bits
    else (mwpmDecoder X.bk X.paths X.matching SG c.w c.bits).map fun r => (r, SG)
  else if c.name = "UF" then
    if c.draw then ufDraw X.bk X.comps X.span X.iter fuel SG c.w c.bits
    else (UnionFind.ufDecoder X.comps X.span X.iter fuel SG c.w c.bits).map fun r => (r, SG)
  else none

/-- Several calls one after the other with the same code object: the recoveries; `none` if one of them raises. -/
def runCalls (X : Trial.Libs) (code : Code) : StabGraph → List Call → Option (List (List (Option V)))
  | _, [] => some []
  | SG, c :: cs => do
    let (r, SG) ← decodeCall X code SG c
    let rs ← runCalls X code SG cs
    pure (r :: rs)

/-! ### Titles, hover texts and colours -/

/-- The argument `title`: a string, a boolean, `None`, or another object with the given truth value. -/
inductive Title where
  | str (s : String)
  | bool (b : Bool)
  | none
  | other (truth : Bool)

/-- The argument `label`: a string, a list or tuple of strings, or something else (for instance `None`). -/
inductive Label where
  | str (s : String)
  | list (l : List String)
  | other

/-- Exceptions of the drawing functions. -/
inductive VizErr where
  | indexError | unboundLocal | typeError | attributeError | valueError | keyError
deriving DecidableEq, Repr

/-- `bool(title)`. -/
def Title.truth : Title → Bool
  | .str s => !s.isEmpty
  | .bool b => b
  | .none => false
  | .other b => b

/-- `title_dict`, utils/viz.py:260-268. -/
def titleDict : List (String × String) :=
  [("p_phase", "Phase error probabilities"), ("p_phase_cond", "Conditional phase error probabilities"), ("hom_val_p", "p-homodyne outcomes"),
   ("hom_val_q", "q-homodyne outcomes"), ("bit_val", "Bit values"), ("weight", "Weights"), ("index", "Indices")]

/-- `_get_title`, utils/viz.py:226-271. -/
def getTitle (title : Title) (label : Label) : Except VizErr (Option String) :=
  if !title.truth then .ok none
  else
    let fromLabel (label : Label) : Except VizErr (Option String) :=
      match title with
      | .str s => .ok (some s)
      | _ => match label with
        | .str l => match title with
          | .bool _ => .ok (some ((PyDict.get? titleDict l).getD l))
          | _ => .error .unboundLocal
        | _ => .ok none
    match label with
    | .list l =>
      if 1 < l.length then .ok (some (String.intercalate ", " l))
      else match l with
        | [] => .error .indexError
        | a :: _ => fromLabel (.str a)
    | label => fromLabel label

/-- The values of node attributes and what the drawing functions do with them: `str(value)`. -/
structure NodeInfo where
  /-- `str(node)` -/
  name : String
  /-- the attributes with their texts; `none` is the value `None` -/
  attrs : List (String × Option String)
  /-- `egraph.to_indices[node]` as a text; `none` is the error if there are no indices -/
  index : Option String

/-- The argument `information` of `_get_node_info`. -/
inductive Info where
  | str (s : String)
  | list (l : List String)
  | none

/-- `"index" in information` for a string: the substring test. -/
def isInfix (s t : List Char) : Bool := match t with
  | [] => s.isEmpty
  | _ :: t' => s.isPrefixOf t || isInfix s t'

/-- `_get_node_info`, utils/viz.py:600-649. -/
def getNodeInfo (n : NodeInfo) (information : Info) : Except VizErr (Option String) := do
  let info := match information with
    | .str s => if s = "all" then Info.list ("index" :: (PyDict.keys n.attrs).mergeSort fun a b => decide (a ≤ b)) else .str s
    | i => i
  let wantIndex : Bool ← (match info with
    | .none => .error .typeError
    | .str s => .ok (isInfix "index".toList s.toList)
    | .list l => .ok (decide ("index" ∈ l)))
  let attrs ← (if wantIndex then match n.index with
      | none => .error .typeError
      | some i => .ok (PyDict.set n.attrs "index" (some i))
    else .ok n.attrs : Except VizErr (List (String × Option String)))
  match info with
  | .none => .ok none
  | .str s =>
    if s = "coordinates" then .ok (some n.name)
    else .ok (some (s ++ ": " ++ ((PyDict.get? attrs s).join.getD "None")))
  | .list l => .ok (some (l.foldl (fun acc key => match (PyDict.get? attrs key).join with
      | some v => acc ++ "<br />" ++ key ++ ": " ++ v
      | none => acc) n.name))

/-- What `_plot_EGraph_nodes` prints and raises, utils/viz.py:524-560, for the attribute values of the nodes (`none`: missing) and the title
from `_get_title`: the number of nodes drawn and labelled, and the message. -/
def plotNodes (values : List (Option ℝ)) (labelled : Bool) (title : Option String) : Except VizErr (ℕ × ℕ × Option String) :=
  let uncomputed := (values.filter fun v => v.isNone).length
  if labelled && decide (0 < uncomputed) then match title with
    | none => .error .attributeError
    | some t => .ok (values.length, values.length - uncomputed,
        some (t.toLower ++ " at " ++ toString uncomputed ++ " node(s) have not yet been computed."))
  else .ok (values.length, if labelled then values.length else 0, none)

/-- The arguments `color_nodes` and `color_edges`: a string, a pair of an attribute and a dictionary from attribute values (as texts, `none` for
`None` or a missing attribute) to colours, a pair of other types, or a boolean. -/
inductive ColorArg where
  | str (s : String)
  | attr (a : String) (d : List (Option String × String))
  | badTuple
  | bool (b : Bool)

/-- `_get_node_color`, utils/viz.py:569-597.  The attributes are those of the node. -/
def getNodeColor (attrs : List (String × Option String)) : ColorArg → Except VizErr (Option String)
  | .str s => .ok (some s)
  | .attr a d => .ok (some ((PyDict.get? d (PyDict.get? attrs a).join).getD "black"))
  | .badTuple => .error .valueError
  | .bool true => .ok ((PyDict.get? attrs "color").getD (some "black"))
  | .bool false => .ok (some "black")

/-- `_get_edge_color`, utils/viz.py:652-691; `none` is `None`.  The attribute `"color"` of an edge, if it has one, is a non-empty string or `None`. -/
def getEdgeColor (attrs : List (String × Option String)) : ColorArg → Except VizErr (Option String)
  | .str s => .ok (some s)
  | .attr a d => .ok (PyDict.get? d (PyDict.get? attrs a).join)
  | .badTuple => .error .valueError
  | .bool true => .ok (some ((PyDict.get? attrs "color").join.getD "grey"))
  | .bool false => .ok (some "grey")

end

end Flamingpy.Viz
