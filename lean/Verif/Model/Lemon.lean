import Verif.Model.Mwpm
import Mathlib.Data.Int.Log
import Mathlib.Algebra.Order.Floor.Ring
import Mathlib.Data.Rat.Floor

/-!
# Model of `flamingpy/decoders/mwpm/lemon.py` and `flamingpy/cpp/lemonpy.cpp`
-/

namespace Flamingpy.SurfaceCode

open Flamingpy

/-- Round to the nearest integer, ties to even. -/
def roundEven (x : ℚ) : ℤ :=
  if x - ⌊x⌋ < 1 / 2 then ⌊x⌋
  else if 1 / 2 < x - ⌊x⌋ then ⌊x⌋ + 1
  else if Even ⌊x⌋ then ⌊x⌋ else ⌊x⌋ + 1

/-- The conversion to `float` of `py::array_t<float, ... forcecast>`, cpp/lemonpy.cpp:50: 24 significant bits.
Simplifications: weights are exact rationals rounded once; underflow (below `2 ^ -126`) and overflow (from `2 ^ 128`)
are not modelled. -/
def float32 (x : ℚ) : ℚ :=
  if x = 0 then 0
  else
    let ulp : ℚ := 2 ^ (Int.log 2 |x| - 23)
    roundEven (x / ulp) * ulp

/-- A set of edges `i < j` of the complete graph on `n` nodes in which every node occurs exactly once. -/
def IsPerfect (n : ℕ) (M : List (ℕ × ℕ)) : Prop :=
  (∀ e ∈ M, e.1 < e.2 ∧ e.2 < n) ∧ (M.flatMap fun e => [e.1, e.2]).Perm (List.range n)

/-- `lemon::MaxWeightedPerfectMatching` on the graph built at cpp/lemonpy.cpp:19-28 (nodes `0 .. n - 1` and one edge with
`u = i`, `v = j`, weight `w i j`, for `i < j`), followed by the loop at 34-39 over the edges with `pm.matching(e)`: the
result is a set of edges (in any order) and, if the number of nodes is even, a perfect matching of largest weight.
LEMON itself is not modelled; its arithmetic (single precision) is taken to be exact. -/
structure LemonLib where
  run : (n : ℕ) → (ℕ → ℕ → ℚ) → List (ℕ × ℕ)
  edges : ∀ n w, ∀ e ∈ run n w, e.1 < e.2 ∧ e.2 < n
  perfect : ∀ n w, Even n → IsPerfect n (run n w)
  maximal : ∀ n w M, IsPerfect n M → (M.map fun e => w e.1 e.2).sum ≤ ((run n w).map fun e => w e.1 e.2).sum

/-- `py_mwpm` and `mwpm`, cpp/lemonpy.cpp:14-76: the matrix is copied to a flat array in row-major order and read back
at `i * num_nodes + j`. -/
def lemonMwpm (lib : LemonLib) (array : List (List ℚ)) : List (ℕ × ℕ) :=
  let pos := (array.map fun row => row.map float32).flatten
  let numNodes := array.length
  lib.run numNodes fun i j => pos.getD (i * numNodes + j) 0

/-- `nx.to_numpy_array(G_match, weight="inverse_weight", nonedge=-(2**64) + 1)`, decoders/mwpm/lemon.py:31; `nodes` is
`list(G_match)`, and the inverse weight of an edge is the negated weight, decoders/mwpm/matching.py:200-201. -/
def lemonAdjacency (nodes : List MNode) (E : List (Sym2 MNode × ℚ)) : List (List ℚ) :=
  nodes.map fun u => nodes.map fun v => ((PyDict.get? E s(u, v)).map fun wt => -wt).getD (-(2 ^ 64) + 1)

/-- `min_weight_matching`, decoders/mwpm/lemon.py:25-40; `none` is the IndexError of `nx_map`. -/
def lemonMatching (lib : LemonLib) (nodes : List MNode) (E : List (Sym2 MNode × ℚ)) :
    Option (List (MNode × MNode)) :=
  (lemonMwpm lib (lemonAdjacency nodes E)).mapM fun i => do
    let a ← nodes[i.1]?
    let b ← nodes[i.2]?
    pure (a, b)

/-- The order in which `G.nodes()` lists the nodes of a networkx graph (that of their first insertion, which the
unordered edges of the model do not record): any order, each node once. -/
structure NodeOrder where
  nodes : List (Sym2 MNode × ℚ) → List MNode
  nodup : ∀ E, (nodes E).Nodup
  mem : ∀ E x, x ∈ nodes E ↔ ∃ e ∈ PyDict.keys E, x ∈ e

/-- `mwpm_decoder(code, ec, backend="lemon")`, decoders/mwpm/algos.py:50-96, with `LemonMatchingGraph`,
decoders/mwpm/matching.py:213-217. -/
def lemonDecoder (bk : Backend) (lib : PathLib) (ll : LemonLib) (no : NodeOrder) (SG : StabGraph) (w : V → ℚ)
    (bits : V → Bool) : Option (List (Option V)) := do
  let G ← matchGraph bk lib SG w bits
  let E := G.edges.map fun e => (e.1, e.2.1)
  let M ← lemonMatching ll (no.nodes E) E
  matchingRecovery SG G M

end Flamingpy.SurfaceCode
