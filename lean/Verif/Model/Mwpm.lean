import Verif.Model.StabGraph

/-!
# Model of `flamingpy/decoders/mwpm` (algos.py, matching.py)
-/

namespace Flamingpy.SurfaceCode

open Flamingpy

/-- Nodes of the matching graph: odd stabilizers and virtual points `(point, i)`. -/
inductive MNode where
  | stab (k : ℕ)
  | virt (p : SNode) (i : ℕ)
deriving DecidableEq

/-- A `MatchingGraph`: edges with weight and path, and `virtual_points`. -/
structure MatchGraph where
  edges : List (Sym2 MNode × (ℚ × List SNode))
  virtuals : List MNode

/-- `add_edge`, decoders/mwpm/matching.py:200-201 (networkx), 273-278 (rustworkx with
`multigraph=False`): an existing edge is overwritten. -/
def mgAddEdge (G : MatchGraph) (u v : MNode) (wt : ℚ) (path : List SNode) : MatchGraph :=
  { G with edges := PyDict.set G.edges s(u, v) (wt, path) }

/-- `_with_edges_between_real_odd_nodes`, decoders/mwpm/matching.py:125-142; `none` is the KeyError for
an unreachable stabilizer. -/
def realEdges (bk : Backend) (lib : PathLib) (E : List (Sym2 SNode × ℚ)) (odd : List ℕ) (G : MatchGraph) :
    Option MatchGraph :=
  (combinations2 odd).foldlM (fun G p => do
    let path ← lib.find (withoutConnectors E) (.stab p.1) (.stab p.2)
    pure (mgAddEdge G (.stab p.1) (.stab p.2) (pathLength bk E path) path)) G

/-- One iteration of the loop in `_with_edges_from_low_or_high_connector`,
decoders/mwpm/matching.py:148-169 (`np.argmin` takes the first minimum). -/
def virtualStep (bk : Backend) (lib : PathLib) (E : List (Sym2 SNode × ℚ)) (G : MatchGraph) (e : ℕ × ℕ) :
    Option MatchGraph := do
  let lowPath ← lib.find E .low (.stab e.1)
  let highPath ← lib.find E .high (.stab e.1)
  let lowLen := pathLength bk E lowPath
  let highLen := pathLength bk E highPath
  let length := if lowLen ≤ highLen then lowLen else highLen
  let fullPath := if lowLen ≤ highLen then lowPath else highPath
  let point ← fullPath[1]?
  let virtualPoint := MNode.virt point e.2
  let G := mgAddEdge G (.stab e.1) virtualPoint length fullPath.tail
  pure { G with virtuals := G.virtuals ++ [virtualPoint] }

/-- `_with_edges_from_low_or_high_connector`, decoders/mwpm/matching.py:144-173. -/
def virtualEdges (bk : Backend) (lib : PathLib) (E : List (Sym2 SNode × ℚ)) (odd : List ℕ) (G : MatchGraph) :
    Option MatchGraph := do
  let G ← odd.zipIdx.foldlM (virtualStep bk lib E) G
  pure ((combinations2 G.virtuals).foldl (fun G e => mgAddEdge G e.1 e.2 0 []) G)

/-- `with_edges_from`, decoders/mwpm/matching.py:97-123. -/
def matchGraph (bk : Backend) (lib : PathLib) (SG : StabGraph) (w : V → ℚ) (bits : V → Bool) : Option MatchGraph :=
  let E := weightedEdges SG w
  let odd := oddStabs SG bits
  if odd = [] then some ⟨[], []⟩
  else do
    let G ← realEdges bk lib E odd ⟨[], []⟩
    if SG.lowPts ≠ [] ∨ SG.highPts ≠ [] then virtualEdges bk lib E odd G else pure G

/-- The edges are in the graph and no node is used twice. -/
def IsMatching {α : Type} (E : List (Sym2 α × ℚ)) (M : List (α × α)) : Prop :=
  (∀ m ∈ M, s(m.1, m.2) ∈ PyDict.keys E) ∧ (M.flatMap fun m => [m.1, m.2]).Nodup

/-- Total weight of a set of edges. -/
def matchWeight {α : Type} [DecidableEq α] (E : List (Sym2 α × ℚ)) (M : List (α × α)) : ℚ :=
  (M.map fun m => (PyDict.get? E s(m.1, m.2)).getD 0).sum

/-- A matching routine (networkx or rustworkx `max_weight_matching` with maximum cardinality on negated
weights, or lemon): some matching of the largest possible size and, among those, of least weight.
These libraries are not modelled further. -/
structure MatchLib where
  find : List (Sym2 MNode × ℚ) → List (MNode × MNode)
  isMatching : ∀ E, IsMatching E (find E)
  maximum : ∀ E M, IsMatching E M → M.length ≤ (find E).length
  minimal : ∀ E M, IsMatching E M → M.length = (find E).length → matchWeight E (find E) ≤ matchWeight E M

/-- `min_weight_perfect_matching`, decoders/mwpm/matching.py:209-210, 286-292. -/
def perfectMatching (ml : MatchLib) (G : MatchGraph) : List (MNode × MNode) :=
  ml.find (G.edges.map fun e => (e.1, e.2.1))

/-- `s ^= {x}`. -/
def toggle (s : List (Option V)) (x : Option V) : List (Option V) := if x ∈ s then s.erase x else s ++ [x]

/-- The inner loop of `mwpm_decoder`, decoders/mwpm/algos.py:88-92; `none` is the error for a pair that is
not an edge. -/
def togglePath (SG : StabGraph) : List SNode → List (Option V) → Option (List (Option V))
  | a :: b :: l, s => do
    let cv ← sgEdgeData SG a b
    togglePath SG (b :: l) (toggle s cv)
  | _, s => some s

/-- The loop of `mwpm_decoder` over the matching, decoders/mwpm/algos.py:83-93: the recovery set. -/
def matchingRecovery (SG : StabGraph) (G : MatchGraph) (M : List (MNode × MNode)) : Option (List (Option V)) :=
  M.foldlM (fun s m =>
    if m.1 ∈ G.virtuals ∧ m.2 ∈ G.virtuals then some s
    else do
      let e ← PyDict.get? G.edges s(m.1, m.2)
      togglePath SG e.2 s) []

/-- `mwpm_decoder`, decoders/mwpm/algos.py:50-96 (drawing omitted), with a matching routine as in `MatchLib`. -/
def mwpmDecoder (bk : Backend) (lib : PathLib) (ml : MatchLib) (SG : StabGraph) (w : V → ℚ) (bits : V → Bool) :
    Option (List (Option V)) := do
  let G ← matchGraph bk lib SG w bits
  matchingRecovery SG G (perfectMatching ml G)

end Flamingpy.SurfaceCode
