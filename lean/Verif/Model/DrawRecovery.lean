import Verif.Model.Viz

/-!
# Model of the recovery drawing and of the positions in graph drawings, `flamingpy/utils/viz.py`
-/

namespace Flamingpy.Viz

open Flamingpy Flamingpy.SurfaceCode

/-! ### `add_recovery_drawing` -/

/-- The coordinates of a node of a path, utils/viz.py:1016-1019: `midpoint()` of a stabilizer, a boundary point itself; the names 'low' and
'high' of the connectors are not coordinates ('high' cannot be unpacked, and for 'low' `plt.plot` gets letters). -/
def nodePos (code : Code) : SNode → Option (Fin 3 → ℚ)
  | .stab k => do
    let s ← (physical code)[k]?
    midpoint s
  | .pt p => some fun i => (p i : ℚ)
  | .low => none
  | .high => none

/-- Is the node marked, utils/viz.py:1016-1020? -/
def isMarked : SNode → Bool
  | .stab _ => false
  | _ => true

/-- What has been drawn: single markers and lines (the lists `xlist`, `ylist`, `zlist`). -/
structure Drawing where
  markers : List (Fin 3 → ℚ)
  lines : List (List ℚ × List ℚ × List ℚ)

/-- The body of the inner loop, utils/viz.py:1015-1023; the state is the markers and the three lists. -/
def pathStep (code : Code) (st : List (Fin 3 → ℚ) × List ℚ × List ℚ × List ℚ) (n : SNode) :
    Option (List (Fin 3 → ℚ) × List ℚ × List ℚ × List ℚ) := do
  let p ← nodePos code n
  let ms := if isMarked n then st.1 ++ [p] else st.1
  pure (ms, st.2.1 ++ [p 0], st.2.2.1 ++ [p 1], st.2.2.2 ++ [p 2])

/-- One pair of the matching, utils/viz.py:1012-1031. -/
def drawPair (code : Code) (G : MatchGraph) (d : Drawing) (m : MNode × MNode) : Option Drawing :=
  if m.1 ∈ G.virtuals ∧ m.2 ∈ G.virtuals then some d
  else do
    let e ← PyDict.get? G.edges s(m.1, m.2)
    let st ← e.2.foldlM (pathStep code) (d.markers, [], [], [])
    pure ⟨st.1, d.lines ++ [st.2]⟩

/-- `add_recovery_drawing`, utils/viz.py:999-1033, with the `dec_objects` of either decoder: a recovery set (`none` in it is `None`, which cannot be
unpacked), or a matching graph and a matching. Titles and colours are not modelled. -/
def addRecovery (code : Code) (recoverySet : List (Option V)) (matching : Option (MatchGraph × List (MNode × MNode))) : Option Drawing := do
  let ps ← recoverySet.mapM id
  let d : Drawing := ⟨ps.map fun p i => (p i : ℚ), []⟩
  match matching with
  | none => some d
  | some (G, M) => M.foldlM (drawPair code G) d

/-- The recovery drawing of `mwpm_decoder(draw=True)` with the option `show_recovery`, decoders/mwpm/algos.py:73-86, utils/viz.py:1081-1082. -/
def mwpmRecoveryDrawing (bk : Backend) (lib : PathLib) (ml : MatchLib) (code : Code) (SG : StabGraph) (w : V → ℚ) (bits : V → Bool) :
    Option Drawing := do
  let G ← matchGraph bk lib SG w bits
  addRecovery code [] (some (G, perfectMatching ml G))

/-- The recovery drawing of `uf_decoder(draw=True)` with the option `show_recovery`, decoders/unionfind/algos.py:326-332. -/
def ufRecoveryDrawing (code : Code) (R : List (Option V)) : Option Drawing := addRecovery code R none

/-! ### Positions in graph drawings -/

/-- The coordinates of a node of an EGraph. -/
abbrev P3 := Fin 3 → ℚ

/-- The node trace of `draw_EGraph_plotly`, utils/viz.py:412-413; the array of an empty list has no second axis (IndexError). -/
def plotlyNodes (nodes : List P3) : Option (List ℚ × List ℚ × List ℚ) :=
  if nodes = [] then none else some (nodes.map (· 0), nodes.map (· 1), nodes.map (· 2))

/-- The edge trace of `draw_EGraph_plotly`, utils/viz.py:437-444; `none` is `None`. -/
def plotlyEdges (edges : List (P3 × P3)) : List (Option ℚ) × List (Option ℚ) × List (Option ℚ) :=
  edges.foldl (fun st e => (st.1 ++ [some (e.1 0), some (e.2 0), none], st.2.1 ++ [some (e.1 1), some (e.2 1), none],
    st.2.2 ++ [some (e.1 2), some (e.2 2), none])) ([], [], [])

/-- The labels of the axes of a matplotlib drawing, in the order of its coordinates, utils/viz.py:341-343 (and 883-885 in `syndrome_plot`). -/
def mplLabels : Fin 3 → String := ![ "x", "z", "y" ]

/-- The position of a node in a matplotlib drawing, utils/viz.py:530-532. -/
def mplNode (n : P3) : P3 :=
  let x := n 0
  let z := n 1
  let y := n 2
  ![x, y, z]

/-- The line of an edge, utils/viz.py:487-489. -/
def mplEdge (e : P3 × P3) : List ℚ × List ℚ × List ℚ :=
  let x1 := e.1 0
  let z1 := e.1 1
  let y1 := e.1 2
  let x2 := e.2 0
  let z2 := e.2 1
  let y2 := e.2 2
  ([x1, x2], [y1, y2], [z1, z2])

/-- The default of `dimensions`, utils/viz.py:306-311, for one coordinate; `none`: no nodes (the triple cannot be unpacked, ValueError). -/
def defaultLim (nodes : List P3) (i : Fin 3) : Option (ℤ × ℤ) := do
  let lo ← (nodes.map (· i)).min?
  let hi ← (nodes.map (· i)).max?
  pure (⌊lo⌋, ⌈hi⌉)

/-- `range(a, b + 1)`. -/
def tickRange (l : ℤ × ℤ) : List ℤ := (List.range (l.2 + 1 - l.1).toNat).map fun n : ℕ => l.1 + (n : ℤ)

/-- The widening of an empty interval, utils/viz.py:332-335. -/
def widen (l : ℤ × ℤ) : ℤ × ℤ := if l.1 = l.2 then (l.1 - 1, l.2 + 1) else l

/-- The ticks and limits of the three axes, in the order of the coordinates of the drawing, utils/viz.py:306-313, 328-339. -/
def frame (dimensions : Option (Fin 3 → ℤ × ℤ)) (nodes : List P3) : Option (Fin 3 → List ℤ × (ℤ × ℤ)) := do
  let d ← match dimensions with
    | some d => some d
    | none => do
      let x ← defaultLim nodes 0
      let y ← defaultLim nodes 1
      let z ← defaultLim nodes 2
      pure ![x, y, z]
  let xlim := d 0
  let ylim := d 1
  let zlim := d 2
  pure ![(tickRange xlim, widen xlim), (tickRange zlim, widen zlim), (tickRange ylim, widen ylim)]

/-- The limits of the axes of the syndrome plot, utils/viz.py:920-923. -/
def plotLims (code : Code) : Fin 3 → ℤ × ℤ :=
  let ymin : ℤ := match code.ec with
    | .primal => 0
    | .dual => -2
  ![(0, 2 * (code.dims 0 : ℤ)), (ymin, 2 * (code.dims 1 : ℤ)), (0, 2 * (code.dims 2 : ℤ))]

end Flamingpy.Viz
