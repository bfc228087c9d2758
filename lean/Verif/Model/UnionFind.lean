import Verif.Model.StabGraph
import Mathlib.Data.Finset.Basic

/-!
# Model of `flamingpy/decoders/unionfind` (uf_classes.py, algos.py)

`Node` objects are named by their `id`; the `Root` object made from a node is named by that node
(the code makes at most one per node).  Parities are `Bool` (1 = `true`).
-/

namespace Flamingpy.UnionFind

open Flamingpy

/-! ### Cluster trees -/

section
variable {N : Type} [DecidableEq N]

/-- The attributes of the `Node` and `Root` objects.  `parent v = none`: the parent is the `Root` object of
`v`; `parent v = some v`: a new node, decoders/unionfind/uf_classes.py:34-37. -/
structure Heap (N : Type) where
  nodes : List N
  parent : N → Option N
  children : N → Finset N
  size : N → ℕ
  parity : N → Bool
  boundary : N → Option N

/-- `Node(v)` for every `v` of a list, decoders/unionfind/uf_classes.py:34-37 (algos.py:95-99). -/
def newNodes (ns : List N) : Heap N := ⟨ns, fun v => some v, fun _ => ∅, fun _ => 0, fun _ => false, fun _ => none⟩

/-- `Root(node, parity)`, decoders/unionfind/uf_classes.py:88-99; `none` is the parity "boundary". -/
def mkRoot (h : Heap N) (v : N) (p : Option Bool) : Heap N :=
  ⟨h.nodes, Function.update h.parent v none, h.children, Function.update h.size v 1,
    Function.update h.parity v (p.getD false),
    Function.update h.boundary v (if p = none then some v else none)⟩

/-- The while loop of `find_root`, decoders/unionfind/uf_classes.py:50-58: the children sets, and the last node with the traversed
nodes (`none` for `return None`).  The outer `none` is the KeyError of `children.remove`; `fuel` bounds the number
of steps (C40 shows that the number of nodes is always enough). -/
def climb (parent : N → Option N) (self : N) :
    ℕ → N → List N → (N → Finset N) → Option ((N → Finset N) × Option (N × List N))
  | 0, _, _, _ => none
  | fuel + 1, node, trav, ch =>
    match parent node with
    | none => some (ch, some (node, trav))
    | some p =>
      if p = self then some (ch, none)
      else if node ∈ ch p then
        climb parent self fuel p (node :: trav) (Function.update ch p ((ch p).erase node))
      else none

/-- `find_root`, decoders/unionfind/uf_classes.py:46-62: the new state and the root (`none` for the result `None`). -/
def findRoot (h : Heap N) (v : N) : Option (Heap N × Option N) := do
  let r ← climb h.parent v h.nodes.length v [] h.children
  match r with
  | (ch, none) => pure (⟨h.nodes, h.parent, ch, h.size, h.parity, h.boundary⟩, none)
  | (ch, some (top, trav)) =>
    pure (⟨h.nodes, trav.foldl (fun par t => Function.update par t (some top)) h.parent,
      Function.update ch top (ch top ∪ trav.toFinset), h.size, h.parity, h.boundary⟩, some top)

/-- `Node.add_child` (and `Root.add_child`, which calls it for the node of the root), decoders/unionfind/uf_classes.py:39-44 and 101-103:
`v` becomes a child of `u`.  `none` if `find_root` fails or returns `None` (AttributeError at `root.size`). -/
def addChild (h : Heap N) (u v : N) : Option (Heap N) := do
  let h : Heap N := ⟨h.nodes, Function.update h.parent v (some u),
    Function.update h.children u (insert v (h.children u)), h.size, h.parity, h.boundary⟩
  let (h, r) ← findRoot h u
  let r ← r
  pure ⟨h.nodes, h.parent, h.children, Function.update h.size r (h.size r + 1), h.parity, h.boundary⟩

/-- `union`, decoders/unionfind/algos.py:25-56: the new state and the nodes of the big and the small root (`none` if the roots are the
same). -/
def union (h : Heap N) (root1 root2 : N) : Heap N × Option (N × N) :=
  if root1 ≠ root2 then
    let big := if h.size root1 ≥ h.size root2 then root1 else root2
    let small := if h.size root1 ≥ h.size root2 then root2 else root1
    (⟨h.nodes, Function.update h.parent small (some big),
      Function.update h.children big (insert small (h.children big)),
      Function.update h.size big (h.size big + h.size small),
      Function.update h.parity big (xor (h.parity big) (h.parity small)),
      if h.boundary small ≠ none then Function.update h.boundary big (h.boundary small) else h.boundary⟩,
      some (big, small))
  else (h, none)

/-- `Node.parity`, decoders/unionfind/uf_classes.py:64-69. -/
def nodeParity (h : Heap N) (v : N) : Option (Heap N × Option Bool) := do
  let (h, r) ← findRoot h v
  match r with
  | none => pure (h, none)
  | some _ => do
    let (h, r) ← findRoot h v
    pure (h, r.map h.parity)

end

/-! ### Peeling -/

section
variable {N Q : Type} [DecidableEq N] [DecidableEq Q]

/-- `degree(node)`: number of edges at a node. -/
def degree (es : List (N × N × Q)) (v : N) : ℕ := es.countP fun e => decide (e.1 = v ∨ e.2.1 = v)

/-- `trim_forest`, decoders/unionfind/algos.py:259-287.  The forest is the list of its edges with their qubits; `out_edges(leaf)` is
in list order.  Python's recursion limit is not modelled here (see Model/Recursion); `fuel` bounds the number of calls (each call
removes an edge). -/
def trimForest : ℕ → List (N × N × Q) → N → (N → Bool) → List Q → List (N × N × Q) × (N → Bool) × List Q
  | 0, es, _, par, rec => (es, par, rec)
  | fuel + 1, es, leaf, par, rec =>
    match es.find? fun e => decide (e.1 = leaf ∨ e.2.1 = leaf) with
    | none => (es, par, rec)
    | some e =>
      let es' := es.erase e
      let newLeaf := if e.1 = leaf then e.2.1 else e.1
      let rec' := if par leaf then (if e.2.2 ∈ rec then rec else rec ++ [e.2.2]) else rec
      let par1 := if par leaf then Function.update par leaf false else par
      let par' := if par leaf then Function.update par1 newLeaf (!par1 newLeaf) else par1
      if degree es' newLeaf = 1 then trimForest fuel es' newLeaf par' rec' else (es', par', rec')

/-- `peeling`, decoders/unionfind/algos.py:290-311: what is left of the forest, the final parities and the recovery set. -/
def peeling (ns : List N) (es : List (N × N × Q)) (par : N → Bool) : List (N × N × Q) × (N → Bool) × List Q :=
  (ns.filter fun v => decide (degree es v = 1)).foldl
    (fun st leaf => trimForest st.1.length st.1 leaf st.2.1 st.2.2) (es, par, [])

end

/-! ### Growing the clusters -/

open SurfaceCode

/-- Joined by a sequence of edges. -/
def Conn {N : Type} (es : List (Sym2 N)) : N → N → Prop := Relation.ReflTransGen fun a b => s(a, b) ∈ es

/-- `rx.connected_components` with the iteration order of each component. -/
structure CompLib (N : Type) where
  find : List N → List (Sym2 N) → List (List N)
  perm : ∀ ns es, ns.Nodup → (find ns es).flatten.Perm ns
  nonempty : ∀ ns es, [] ∉ find ns es
  comp : ∀ ns es, (∀ e ∈ es, ∀ v ∈ e, v ∈ ns) → ∀ c ∈ find ns es, ∀ u ∈ c, ∀ v ∈ ns, v ∈ c ↔ Conn es u v

/-- No edge can be replaced by a path of other edges. -/
def IsForest {N Q : Type} [DecidableEq N] [DecidableEq Q] (es : List (N × N × Q)) : Prop :=
  ∀ e ∈ es, ¬ Conn ((es.erase e).map fun e => s(e.1, e.2.1)) e.1 e.2.1

/-- `rx.minimum_spanning_tree`: a spanning forest. -/
structure SpanLib (N Q : Type) [DecidableEq N] [DecidableEq Q] where
  find : List (N × N × Q) → List (N × N × Q)
  sublist : ∀ es, (find es).Sublist es
  forest : ∀ es, IsForest (find es)
  conn : ∀ es, ∀ e ∈ es, Conn ((find es).map fun e => s(e.1, e.2.1)) e.1 e.2.1

/-- The iteration orders of sets and edge views at time `n`. -/
structure IterOrder (N : Type) where
  ord : ℕ → List N → List N
  perm : ∀ n l, (ord n l).Perm l

/-- `node in {"low", "high"}`. -/
def isConn (n : SNode) : Bool := match n with
  | .low => true
  | .high => true
  | _ => false

/-- The edges of the graph that do not use a connector, in order. -/
def realE (E : List (Sym2 SNode × ℚ)) : List (Sym2 SNode) :=
  (PyDict.keys E).filter fun e => decide (SNode.low ∉ e ∧ SNode.high ∉ e)

/-- `edge_data(...)["weight"] == -1`. -/
def erased (E : List (Sym2 SNode × ℚ)) (e : Sym2 SNode) : Bool := decide (PyDict.get? E e = some (-1))

inductive Status where
  | empty | half | grown
deriving DecidableEq, Repr

/-- `Support.__init__`, decoders/unionfind/uf_classes.py:125-133. -/
def supportInit (E : List (Sym2 SNode × ℚ)) : List (Sym2 SNode × Status) :=
  (realE E).foldl (fun d e => PyDict.set d e (if erased E e then .grown else .empty)) []

/-- `Support.grow`, decoders/unionfind/uf_classes.py:135-143: the new table and whether the edge has become fully grown; `none` is the
KeyError. -/
def grow (status : List (Sym2 SNode × Status)) (e : SNode × SNode) :
    Option (List (Sym2 SNode × Status) × Bool) :=
  match PyDict.get? status s(e.1, e.2) with
  | none => none
  | some .empty => some (PyDict.set status s(e.1, e.2) .half, false)
  | some .half => some (PyDict.set status s(e.1, e.2) .grown, true)
  | some .grown => some (status, false)

/-- The data of a decoding run that do not change: nodes, weighted edges, parity of the stabilizers. -/
structure Input where
  nodes : List SNode
  E : List (Sym2 SNode × ℚ)
  odd : ℕ → Bool

/-- `stabilizer_graph.out_edges(node)` without those to a connector, in some order. -/
def outEdges (io : IterOrder SNode) (t : ℕ) (I : Input) (n : SNode) : List (SNode × SNode) :=
  ((io.ord t (I.nodes.filter fun m => decide (s(n, m) ∈ PyDict.keys I.E))).map fun m => (n, m)).filter
    fun e => !isConn e.1 && !isConn e.2

/-- The parity argument for `Root`, decoders/unionfind/algos.py:109-114, 119-126: boundary points are tuples. -/
def rootParity (I : Input) (n : SNode) : Option Bool := match n with
  | .stab k => some (I.odd k)
  | _ => none

/-- The nodes of the erasure graph, decoders/unionfind/algos.py:73-88: the ends of the real edges (in the order of the node list). -/
def erasureNodes (I : Input) : List SNode := I.nodes.filter fun n => (realE I.E).any fun e => decide (n ∈ e)

/-- The edges of the erasure graph, decoders/unionfind/algos.py:89-92. -/
def erasureEdges (I : Input) : List (Sym2 SNode) := (realE I.E).filter fun e => erased I.E e

/-- One component of the erasures, decoders/unionfind/algos.py:107-127. -/
def initCluster (I : Input) (h : Heap SNode) : List SNode → Heap SNode
  | [] => h
  | root :: rest => rest.foldl (fun h v => (union (mkRoot h v (rootParity I v)) root v).1) (mkRoot h root (rootParity I root))

/-- `initialize_cluster_trees`, decoders/unionfind/algos.py:59-132: the nodes, the cluster roots and those with odd parity.  A component is the
popped vertex followed by the others in iteration order. -/
def initClusters (cl : CompLib SNode) (I : Input) : Heap SNode × List SNode × List SNode :=
  let comps := cl.find (erasureNodes I) (erasureEdges I)
  let h := comps.foldl (initCluster I) (newNodes (I.nodes.filter fun n => !isConn n))
  let roots := comps.flatMap fun c => c.take 1
  (h, roots, roots.filter fun r => h.parity r)

/-- `find_child`, decoders/unionfind/uf_classes.py:173-178; the outer recursion is bounded by `fuel`. -/
def findChild (io : IterOrder SNode) (t : ℕ) (h : Heap SNode) (visited : List SNode) : ℕ → SNode → SNode
  | 0, node => node
  | fuel + 1, node =>
    match (io.ord t (h.nodes.filter fun c => decide (c ∈ h.children node))).find? fun c => decide (c ∉ visited) with
    | none => node
    | some c => findChild io t h visited fuel c

/-- Has the node a real edge that is not fully grown?  (`none`: KeyError.)  decoders/unionfind/uf_classes.py:206-210, 228-231. -/
def onBoundary (io : IterOrder SNode) (t : ℕ) (I : Input) (status : List (Sym2 SNode × Status)) (n : SNode) :
    Option Bool := do
  let l ← (outEdges io t I n).mapM fun e => PyDict.get? status s(e.1, e.2)
  pure (l.any fun s => decide (s ≠ .grown))

/-- The loop of `Boundary.__init__`, decoders/unionfind/uf_classes.py:195-213; `none` if it does not stop within the fuel, for a KeyError, or if a
`Root` is used as a node. -/
def boundaryLoop (io : IterOrder SNode) (t : ℕ) (I : Input) (h : Heap SNode) (status : List (Sym2 SNode × Status))
    (root : SNode) : ℕ → SNode → List SNode → List SNode → Option (List SNode)
  | 0, _, _, _ => none
  | fuel + 1, node, visited, acc => do
    let node := findChild io t h visited h.nodes.length node
    let visited := visited ++ [node]
    let b ← onBoundary io t I status node
    let acc := if b then acc ++ [node] else acc
    if node = root then pure acc
    else do
      let p ← h.parent node
      boundaryLoop io t I h status root fuel p visited acc

/-- `Boundary(cluster, support, graph).nodes`, decoders/unionfind/uf_classes.py:195-213. -/
def boundaryInit (io : IterOrder SNode) (t : ℕ) (I : Input) (h : Heap SNode) (status : List (Sym2 SNode × Status))
    (root : SNode) : Option (List SNode) :=
  boundaryLoop io t I h status root h.nodes.length root [] []

/-- `Boundary.prune`, decoders/unionfind/uf_classes.py:215-232. -/
def prune (io : IterOrder SNode) (t : ℕ) (I : Input) (status : List (Sym2 SNode × Status)) (ns : List SNode) :
    Option (List SNode) := ns.filterM fun n => onBoundary io t I status n

/-- The changing data of `union_find`; `bnd` is the dictionary `boundary` (keyed by root nodes). -/
structure St where
  heap : Heap SNode
  status : List (Sym2 SNode × Status)
  bnd : SNode → Option (List SNode)

/-- The growth loop, decoders/unionfind/algos.py:156-165: the support table and the fusion list. -/
def growAll (io : IterOrder SNode) (t : ℕ) (I : Input) (s : St) (odd : List SNode) :
    Option (List (Sym2 SNode × Status) × List (SNode × SNode)) := do
  let ns ← (io.ord t odd).mapM fun c => s.bnd c
  ((ns.flatMap fun l => io.ord t l).flatMap fun n => outEdges io t I n).foldlM (fun p e => do
    let (status, grown) ← grow p.1 e
    pure (status, if grown then p.2 ++ [e] else p.2)) (s.status, [])

/-- One fusion, decoders/unionfind/algos.py:166-176; `none` is an error (a node without a root or a missing boundary). -/
def fuse (io : IterOrder SNode) (t : ℕ) (I : Input) (s : St) (e : SNode × SNode) : Option St := do
  let (h1, r0) ← findRoot s.heap e.1
  let (h2, r1) ← findRoot h1 e.2
  let r0 ← r0
  let r1 ← r1
  match union h2 r0 r1 with
  | (h3, none) => pure ⟨h3, s.status, s.bnd⟩
  | (h3, some (big, small)) => do
    let bb ← s.bnd big
    let bs ← s.bnd small
    let pruned ← prune io t I s.status (bb ++ bs.filter fun x => decide (x ∉ bb))
    pure ⟨h3, s.status, Function.update s.bnd big (some pruned)⟩

/-- Updating the roots, decoders/unionfind/algos.py:178-182. -/
def newRoots (h : Heap SNode) (odd : List SNode) : Option (Heap SNode × List SNode) :=
  odd.foldlM (fun p c => do
    let (h, r) ← findRoot p.1 c
    let r ← r
    pure (h, if r ∈ p.2 then p.2 else p.2 ++ [r])) (h, [])

/-- One round of the while loop, decoders/unionfind/algos.py:155-190. -/
def round (io : IterOrder SNode) (t : ℕ) (I : Input) (s : St) (odd : List SNode) : Option (St × List SNode) := do
  let (status, fl) ← growAll io t I s odd
  let s ← fl.foldlM (fuse io t I) ⟨s.heap, status, s.bnd⟩
  let (h, roots) ← newRoots s.heap (io.ord t odd)
  pure (⟨h, s.status, s.bnd⟩, roots.filter fun r => h.parity r && decide (h.boundary r = none))

/-- `union_find`, decoders/unionfind/algos.py:135-190; `none` is an error or running out of `fuel` (C38 shows that neither
happens). -/
def unionFind (io : IterOrder SNode) (I : Input) : ℕ → ℕ → St → List SNode → Option St
  | _, _, s, [] => some s
  | 0, _, _, _ :: _ => none
  | fuel + 1, t, s, c :: odd => do
    let (s', odd') ← round io t I s (c :: odd)
    unionFind io I fuel (t + 1) s' odd'

/-- The grown edges as `span_forest` adds them, decoders/unionfind/uf_classes.py:145-169 (`popitem` takes the last entry first; the order of
the two ends is that of the node list; node indices are identified with the nodes); `none` is an
error for an edge with one end or without data. -/
def grownEdges (I : Input) (cv : List (Sym2 SNode × Option V)) (status : List (Sym2 SNode × Status)) :
    Option (List (SNode × SNode × Option V)) :=
  (status.reverse.filter fun x => decide (x.2 = .grown)).mapM fun x =>
    match I.nodes.filter fun n => decide (n ∈ x.1) with
    | [a, b] => (PyDict.get? cv s(a, b)).map fun q => (a, b, q)
    | _ => none

/-- The nodes of the graph made by `span_forest` (in the order of the node list). -/
def forestNodes (I : Input) (es : List (SNode × SNode × Option V)) : List SNode :=
  I.nodes.filter fun n => es.any fun e => decide (e.1 = n ∨ e.2.1 = n)

/-- The parities of one tree, decoders/unionfind/algos.py:210-224.  (`parity_dict[None] = 1` for an odd tree without boundary
point is not modelled: the entry is never read.) -/
def treeParity (I : Input) (par : SNode → Bool) (tree : List SNode) : SNode → Bool :=
  let st := tree.foldl (fun (st : (SNode → Bool) × ℕ × Option SNode) n => match n with
    | .stab k => (Function.update st.1 n (I.odd k), if I.odd k then st.2.1 + 1 else st.2.1, st.2.2)
    | _ => (Function.update st.1 n false, st.2.1, some n)) (par, 0, none)
  if st.2.1 % 2 = 1 then match st.2.2 with
    | some b => Function.update st.1 b true
    | none => st.1
  else st.1

/-- `obtain_spanning_forest`, decoders/unionfind/algos.py:193-225: the nodes, the edges of the forest and the parities. -/
def spanningForest (cl : CompLib SNode) (sl : SpanLib SNode (Option V)) (I : Input) (cv : List (Sym2 SNode × Option V))
    (status : List (Sym2 SNode × Status)) :
    Option (List SNode × List (SNode × SNode × Option V) × (SNode → Bool)) := do
  let es ← grownEdges I cv status
  let ns := forestNodes I es
  let fs := sl.find es
  pure (ns, fs, (cl.find ns (fs.map fun e => s(e.1, e.2.1))).foldl (treeParity I) fun _ => false)

/-- `uf_decode`, decoders/unionfind/algos.py:228-251 up to the call of `union_find`: the initial state and the odd clusters. -/
def initState (cl : CompLib SNode) (io : IterOrder SNode) (I : Input) : Option (St × List SNode) := do
  let (h, roots, odd) := initClusters cl I
  let status := supportInit I.E
  let bs ← roots.mapM fun r => (boundaryInit io 0 I h status r).map fun b => (r, b)
  pure (⟨h, status, fun r => PyDict.get? (PyDict.ofPairs bs) r⟩, odd)

/-- The input of the decoder for node weights `w` and bit values `bits`. -/
def ufInput (SG : StabGraph) (w : V → ℚ) (bits : V → Bool) : Input :=
  ⟨SG.nodes, weightedEdges SG w, fun k => parity bits (SG.coords k)⟩

/-- `uf_decoder`, decoders/unionfind/algos.py:314-334 (drawing omitted): the recovery set. -/
def ufDecoder (cl : CompLib SNode) (sl : SpanLib SNode (Option V)) (io : IterOrder SNode) (fuel : ℕ) (SG : StabGraph)
    (w : V → ℚ) (bits : V → Bool) : Option (List (Option V)) := do
  let I := ufInput SG w bits
  let (s, odd) ← initState cl io I
  let s ← unionFind io I fuel 0 s odd
  let (ns, fs, par) ← spanningForest cl sl I SG.edges s.status
  pure (peeling ns fs par).2.2

end Flamingpy.UnionFind
