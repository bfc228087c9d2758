import Verif.Model.PyDict
import Mathlib.Data.Sym.Sym2
import Mathlib.Data.Fin.VecNotation
import Mathlib.Data.List.Dedup
import Mathlib.Data.Int.Notation
import Mathlib.Data.Fintype.Pi

/-!
# Model of `flamingpy/codes/surface_code.py` and `flamingpy/codes/stabilizer.py`

A vertex is a function `Fin 3 → ℤ` (its three integer coordinates).  Python sets are lists
without duplicates whose iteration order is chosen by an oracle (`SetOrder`).
-/

namespace Flamingpy.SurfaceCode

open Flamingpy

/-- Lattice coordinates `(x, y, z)`. -/
abbrev V := Fin 3 → ℤ

/-- Boundary types of an axis. -/
inductive Bd where
  | primal | dual | periodic
deriving DecidableEq, Repr

/-- Error complexes. -/
inductive Ec where
  | primal | dual
deriving DecidableEq, Repr

/-- Iteration order of Python sets: for every set-valued expression (numbered by call site) and
every content, some arrangement of the content. -/
structure SetOrder where
  ord : ℕ → List V → List V
  perm : ∀ n l, (ord n l).Perm l

/-- `str_to_bound`, codes/surface_code.py:85-112.  `none` is `np.array(None)`, the value for an
unknown name.  (The TypeError for a non-string is not modelled.) -/
def strToBound (name : String) : Option (Fin 3 → Bd) :=
  PyDict.get?
    [("open_primal", ![Bd.primal, .dual, .primal]),
     ("open_dual", ![.primal, .dual, .dual]),
     ("primal", ![.primal, .primal, .primal]),
     ("dual", ![.dual, .dual, .dual]),
     ("periodic", ![.periodic, .periodic, .periodic]),
     ("periodic_primal", ![.periodic, .periodic, .primal]),
     ("periodic_dual", ![.periodic, .periodic, .dual])] name

/-- `alternating_polarity`, codes/surface_code.py:26-53; `direction` is the first coordinate in
which the points differ (equal points, an IndexError, are not modelled: 1). Coordinates that are
used as exponents are non-negative. -/
def alternatingPolarity (p1 p2 : V) : ℤ :=
  if p2 0 - p1 0 ≠ 0 then (-1) ^ (p1 1).toNat
  else if p2 1 - p1 1 ≠ 0 then (-1) ^ (p1 2).toNat
  else if p2 2 - p1 2 ≠ 0 then (-1) ^ (p1 0).toNat
  else 1

/-- `dual_neighbours` with `displace=1`, codes/surface_code.py:56-82. -/
def dualNeighbours (p : V) : List V :=
  let x := p 0
  let y := p 1
  let z := p 2
  let top := ![x, y + 1, z]
  let bottom := ![x, y - 1, z]
  let left := ![x - 1, y, z]
  let right := ![x + 1, y, z]
  if z % 2 ≠ 0 then
    let front := ![x, y, z + 1]
    let back := ![x, y, z - 1]
    if x % 2 ≠ 0 then [back, left, front, right]
    else [back, top, front, bottom]
  else [bottom, left, top, right]

/-- `it.product(range(a0, b0), range(a1, b1), range(a2, b2))`. -/
def product3 (lo hi : Fin 3 → ℤ) : List (ℤ × ℤ × ℤ) :=
  let r (i : Fin 3) : List ℤ := (List.range (hi i - lo i).toNat).map fun n : ℕ => lo i + (n : ℤ)
  (r 0).flatMap fun i => (r 1).flatMap fun j => (r 2).map fun k => (i, j, k)

/-- One entry of `all_six_bodies`, codes/surface_code.py:179-186. -/
def sixBody (t : ℤ × ℤ × ℤ) : List V :=
  let (i, j, k) := t
  [![2 * i, 2 * j + 1, 2 * k + 1],
   ![2 * i + 1, 2 * j, 2 * k + 1],
   ![2 * i + 1, 2 * j + 1, 2 * k],
   ![2 * i + 2, 2 * j + 1, 2 * k + 1],
   ![2 * i + 1, 2 * j + 2, 2 * k + 1],
   ![2 * i + 1, 2 * j + 1, 2 * k + 2]]

/-- `all_six_bodies` in `RHG_graph`, codes/surface_code.py:171-188. -/
def primalCubes (dims : Fin 3 → ℕ) (bds : Fin 3 → Bd) : List (List V) :=
  (product3 (fun _ => 0) fun i => (dims i : ℤ) - match bds i with
    | .primal => 1
    | .dual => 0
    | .periodic => 0).map sixBody

/-- The test in codes/surface_code.py:197-210 and 214-224: the vertex lies beyond the requested
boundaries (`where_0`/`where_max` collect coordinates equal to 0, else equal to `2*dims`). -/
def beyond (dims : Fin 3 → ℕ) (bds : Fin 3 → Bd) (v : V) : Bool :=
  (List.finRange 3).any fun i =>
    let is0 := decide (v i = 0)
    let isMax := !is0 && decide (v i = 2 * (dims i : ℤ))
    (isMax && decide (bds i = .dual)) || (is0 && decide (bds i = .dual)) ||
      (isMax && decide (bds i = .periodic))

/-- The graph under construction: nodes with their `type` (`true` = primal) and undirected edges
with `weight` and `periodic`. -/
structure RGraph where
  nodes : List (V × Bool)
  edges : List (Sym2 V × (ℤ × Bool))

/-- `G.add_node(v, type=...)`. -/
def addNode (G : RGraph) (v : V) (primal : Bool) : RGraph :=
  { G with nodes := PyDict.set G.nodes v primal }

/-- `G.add_edge(u, v, weight=w[, periodic=True])`: attributes of an existing edge are updated. -/
def addEdge (G : RGraph) (u v : V) (w : ℤ) (periodic : Bool) : RGraph :=
  let old := ((PyDict.get? G.edges s(u, v)).map (·.2)).getD false
  ⟨G.nodes, PyDict.set G.edges s(u, v) (w, periodic || old)⟩

/-- `polarity(edge) if polarity else 1`. -/
def weightOf (pol : Option (V → V → ℤ)) (u v : V) : ℤ :=
  match pol with
  | some f => f u v
  | none => 1

/-- `where_neighbor_0 & periodic_inds`, codes/surface_code.py:232 (the order of this set of
indices does not matter here: ascending). -/
def zeroPeriodic (bds : Fin 3 → Bd) (v : V) : List (Fin 3) :=
  (List.finRange 3).filter fun i => decide (v i = 0) && decide (bds i = .periodic)

/-- Additional edges for periodic boundaries, codes/surface_code.py:231-241. -/
def periodicStep (dims : Fin 3 → ℕ) (pol : Option (V → V → ℤ)) (n : V) (G : RGraph) (ind : Fin 3) :
    RGraph :=
  let other : V := Function.update n ind (2 * (dims ind : ℤ) - 1)
  addEdge (addNode G other true) n other (weightOf pol n other) true

/-- The body of the loop over neighbours, codes/surface_code.py:211-241. -/
def neighborStep (dims : Fin 3 → ℕ) (bds : Fin 3 → Bd) (pol : Option (V → V → ℤ)) (v : V) (G : RGraph)
    (n : V) : RGraph :=
  if beyond dims bds n then G
  else
    let G := addEdge (addNode (addNode G v true) n false) v n (weightOf pol v n) false
    (zeroPeriodic bds n).foldl (periodicStep dims pol n) G

/-- The body of the loop over vertices, codes/surface_code.py:196-241. -/
def vertexStep (dims : Fin 3 → ℕ) (bds : Fin 3 → Bd) (pol : Option (V → V → ℤ)) (G : RGraph) (v : V) :
    RGraph :=
  if beyond dims bds v then G else (dualNeighbours v).foldl (neighborStep dims bds pol v) G

/-- `RHG_graph`, codes/surface_code.py:115-245, for a triple of dimensions and a triple of
boundaries; `verts` is the iteration order of the set `denested_six_bodies`. -/
def rhgGraph (dims : Fin 3 → ℕ) (bds : Fin 3 → Bd) (pol : Option (V → V → ℤ)) (verts : List V) : RGraph :=
  verts.foldl (vertexStep dims bds pol) { nodes := [], edges := [] }

/-- `denested_six_bodies`, codes/surface_code.py:189 (as a duplicate-free list). -/
def denested (dims : Fin 3 → ℕ) (bds : Fin 3 → Bd) : List V := (primalCubes dims bds).flatten.dedup

/-! ### Stabilizers -/

/-- One entry of `stabes` in `six_body_dual_stabilizers`, codes/surface_code.py:475-485. -/
def dualSixBody (t : ℤ × ℤ × ℤ) : List V :=
  let (i, j, k) := t
  [![2 * i + 1, 2 * j + 2, 2 * k + 2],
   ![2 * i + 2, 2 * j + 1, 2 * k + 2],
   ![2 * i + 2, 2 * j + 2, 2 * k + 1],
   ![2 * i + 3, 2 * j + 2, 2 * k + 2],
   ![2 * i + 2, 2 * j + 3, 2 * k + 2],
   ![2 * i + 2, 2 * j + 2, 2 * k + 3]]

/-- `six_body_dual_stabilizers`, codes/surface_code.py:466-487. -/
def dualCubes (dims : Fin 3 → ℕ) (bds : Fin 3 → Bd) : List (List V) :=
  (product3 (fun i => match bds i with
      | .primal => -1
      | .dual => 0
      | .periodic => -1)
    fun i => (dims i : ℤ) - 1).map dualSixBody

/-- `generate_stabilizer_coords`, codes/surface_code.py:453-464. -/
def sixBodies (ec : Ec) (dims : Fin 3 → ℕ) (bds : Fin 3 → Bd) : List (List V) :=
  match ec with
  | .primal => primalCubes dims bds
  | .dual => dualCubes dims bds

/-- `stabe[n]` for a six-body list. -/
def nth (stabe : List V) (n : ℕ) : V := stabe.getD n (fun _ => 0)

/-- `periodic_boundary_stabilizers`, codes/surface_code.py:430-451: the virtual points appended. -/
def virtualPoints (ec : Ec) (dims : Fin 3 → ℕ) (bds : Fin 3 → Bd) (stabe : List V) : List V :=
  ((List.finRange 3).filter fun i => decide (bds i = .periodic)).filterMap fun ind =>
    match ec with
    | .dual =>
      let hp := nth stabe (3 + ind.val)
      if hp ind = 1 then some (Function.update hp ind (2 * (dims ind : ℤ) - 1)) else none
    | .primal =>
      let lp := nth stabe ind.val
      if lp ind = 2 * (dims ind : ℤ) - 2 then some (Function.update lp ind 0) else none

/-- `actual_stabe` for one six-body list, codes/surface_code.py:414-417; `n` numbers the call. -/
def actualStabe (o : SetOrder) (n : ℕ) (ec : Ec) (dims : Fin 3 → ℕ) (bds : Fin 3 → Bd) (nodes : List V)
    (stabe : List V) : List V :=
  let actual := o.ord n (stabe.dedup.filter fun p => decide (p ∈ nodes))
  if actual.length < 6 then actual ++ virtualPoints ec dims bds stabe else actual

/-- `rhg_lattice.subgraph(actual_stabe)` followed by `coords()`: the nodes of the graph that are
in the list, without repetition (codes/surface_code.py:418, codes/stabilizer.py:57-59). -/
def stabCoords (nodes : List V) (actual : List V) : List V :=
  (actual.filter fun p => decide (p ∈ nodes)).dedup

/-- `slice_coords` on the node list, codes/graphs/egraph.py:180-194. -/
def sliceCoords (nodes : List V) (plane : Fin 3) (number : ℤ) : List V :=
  nodes.filter fun p => decide (p plane = number)

/-- The `boundaries` argument of `SurfaceCode`. -/
inductive Boundaries where
  | open | toric | periodic
deriving DecidableEq, Repr

/-- `self.bound_str`, codes/surface_code.py:333-339. -/
def boundStr (ec : Ec) : Boundaries → String
  | .open => match ec with
    | .primal => "open_dual"
    | .dual => "open_primal"
  | .toric => match ec with
    | .primal => "periodic_dual"
    | .dual => "periodic_primal"
  | .periodic => "periodic"

/-- `self.boundaries`. -/
def boundsOf (ec : Ec) (b : Boundaries) : Fin 3 → Bd :=
  (strToBound (boundStr ec b)).getD fun _ => .periodic

/-- The boundary type named like an error complex (`self.boundaries == ec`). -/
def Ec.toBd : Ec → Bd
  | .primal => .primal
  | .dual => .dual

/-- `_get_ec_bounds`, codes/surface_code.py:506-525. -/
def ecBounds (o : SetOrder) (ec : Ec) (dims : Fin 3 → ℕ) (nodes syndrome : List V) (ind : Fin 3) : List V :=
  let low : ℤ := match ec with
    | .primal => 0
    | .dual => 1
  let high : ℤ := match ec with
    | .primal => 2 * (dims ind : ℤ) - 2
    | .dual => 2 * (dims ind : ℤ) - 1
  o.ord 1 ((sliceCoords nodes ind low).dedup.filter fun p => decide (p ∈ syndrome)) ++
  o.ord 2 ((sliceCoords nodes ind high).dedup.filter fun p => decide (p ∈ syndrome))

/-- The attributes of a `SurfaceCode` that the decoders use. -/
structure Code where
  dims : Fin 3 → ℕ
  ec : Ec
  boundaries : Boundaries
  graph : RGraph
  /-- coordinates of the `{ec}_stabilizers` -/
  stabs : List (List V)
  /-- `syndrome_coords` before duplicates are removed (codes/surface_code.py:409-419): the points whose
  indices are `{ec}_syndrome_inds` -/
  allCoords : List V
  /-- `{ec}_syndrome_coords` -/
  syndrome : List V
  /-- `{ec}_bound_points` -/
  boundPoints : List V

/-- `identify_boundary`, codes/surface_code.py:489-504 (`"periodic" in self.bound_str`;
`np.where(self.boundaries == ec)[0][0]`). -/
def boundPointsOf (o : SetOrder) (ec : Ec) (b : Boundaries) (dims : Fin 3 → ℕ) (nodes syndrome : List V) :
    List V :=
  match b with
  | .open =>
    match (List.finRange 3).find? fun i => decide (boundsOf ec b i = ec.toBd) with
    | some ind => ecBounds o ec dims nodes syndrome ind
    | none => []
  | _ => []

/-- The lists `actual_stabe`, in order, codes/surface_code.py:410-421. -/
def actuals (o : SetOrder) (ec : Ec) (dims : Fin 3 → ℕ) (bds : Fin 3 → Bd) (nodes : List V) : List (List V) :=
  (sixBodies ec dims bds).zipIdx.map fun e => actualStabe o (10 + e.2) ec dims bds nodes e.1

/-- `SurfaceCode.__init__`, codes/surface_code.py:309-371, 396-428, without the stabilizer graph; `none` is
the KeyError of `self.graph.to_indices[point]` for a point outside the graph. -/
def surfaceCode (o : SetOrder) (ec : Ec) (b : Boundaries) (dims : Fin 3 → ℕ) (pol : Option (V → V → ℤ)) :
    Option Code :=
  let bds := boundsOf ec b
  let graph := rhgGraph dims bds pol (o.ord 0 (denested dims bds))
  let nodes := PyDict.keys graph.nodes
  let acts := actuals o ec dims bds nodes
  let syndromeAll := acts.flatten
  if syndromeAll.all fun p => decide (p ∈ nodes) then
    let syndrome := o.ord 3 syndromeAll.dedup
    some
      { dims, ec, boundaries := b, graph
        stabs := acts.map (stabCoords nodes)
        allCoords := syndromeAll
        syndrome
        boundPoints := boundPointsOf o ec b dims nodes syndrome }
  else none

/-! ### Arguments of the constructor -/

/-- Python exceptions of the argument checks. -/
inductive ArgError where
  | typeError | valueError | attributeError
deriving DecidableEq, Repr

/-- A Python value passed as boundary name: a string or something else. -/
inductive PyArg where
  | str (s : String)
  | other
deriving DecidableEq, Repr

/-- `str_to_bound` with its type check, codes/surface_code.py:85-112. -/
def strToBoundArg : PyArg → Except ArgError (Option (Fin 3 → Bd))
  | .str s => .ok (strToBound s)
  | .other => .error .typeError

/-- The `distance` argument: an integer or a sequence. -/
inductive Distance where
  | int (n : ℕ)
  | seq (l : List ℕ)
deriving DecidableEq, Repr

/-- `self.dims`, codes/surface_code.py:317-321; for a sequence of another size the attribute is
never set and the first use of `self.dims` is an AttributeError. -/
def parseDims : Distance → Except ArgError (Fin 3 → ℕ)
  | .int n => .ok fun _ => n
  | .seq l => if h : l.length = 3 then .ok fun i => l[i.val]'(by rw [h]; exact i.isLt) else .error .attributeError

/-- The check of `ec` and `boundaries`, codes/surface_code.py:326-331. -/
def parseKind (ec boundaries : String) : Except ArgError (Ec × Boundaries) :=
  match (if boundaries = "open" then some Boundaries.open
      else if boundaries = "toric" then some .toric
      else if boundaries = "periodic" then some .periodic else none),
    (if ec = "primal" then some Ec.primal else if ec = "dual" then some .dual else none) with
  | some b, some e => .ok (e, b)
  | _, _ => .error .valueError

/-- `SurfaceCode(distance, ec, boundaries, polarity)` up to the stabilizer graph. -/
def surfaceCodeArgs (o : SetOrder) (distance : Distance) (ec boundaries : String)
    (pol : Option (V → V → ℤ)) : Except ArgError (Option Code) := do
  let (e, b) ← parseKind ec boundaries
  let dims ← parseDims distance
  pure (surfaceCode o e b dims pol)

/-- `Stabilizer.parity`, codes/stabilizer.py:43-55, for bit values in {0, 1} given as booleans. -/
def parity (bits : V → Bool) (coords : List V) : Bool := (coords.map bits).foldl xor false

end Flamingpy.SurfaceCode
