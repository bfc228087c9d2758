# Formal model of XanaduAI/flamingpy in Lean 4

## 1. Method

`lean/Verif/Model/*.lean` transcribes the Python, function by function (each
definition cites `file:lines` in /repo and names every simplification).
`lean/Verif/Props/*.lean` holds the property theorems only, each stated over the
model's public functions plus elementary notions (membership, counting, sums,
matrices), with `example`s showing the hypotheses are met by concrete non-trivial
inputs. `lean/Verif/Proofs/*.lean` holds helper lemmas.

Where the code is wrong, the model follows the code. The property is then
refuted by a concrete witness (`..._false` / `..._counterexample` theorem) and the
largest true part is kept as a `..._partial` theorem (section 5 lists these).

## 2. Trusted base

* Lean 4.33.0's kernel; Mathlib as installed. Every theorem in MANIFEST.json depends on
  `propext`, `Classical.choice` and `Quot.sound` at most (checked with `#print axioms`
  on all of them). No axioms of our own, no `native_decide`/`bv_decide`.
* The transcription Python -> Lean (read by eye; the code was not run).
* Exceptions are values: a Python function that may raise returns `Except PyErr _` or an
  `Option`; one that mutates and then may raise returns the new state *and* the outcome,
  so partially applied updates are visible.
* Python/NumPy semantics assumed: `divmod` floors; `%` by a positive number is
  non-negative; dicts keep insertion order (`Model/PyDict`); `set` iteration and `pop`
  order is arbitrary (`SetOrder`, `SetPop`, `IterOrder` are parameters, so the theorems
  hold for every order, also one that changes from call to call).
* Floating point is modelled by exact reals (cv, gkp, noise, weights) or rationals
  (decoders, EGraph coordinates). `FloatLib` (Model/Correct) maps the real weights to the
  rationals the decoders use; it must keep non-negative numbers non-negative and integers exact. Rounding error, NaN, inf,
  int8/float32 overflow are *not* modelled (except the rounding of
  weights to 24 bits in the lemon backend, C66). LC matrices are over ZMod 2.
* External libraries are parameters constrained by a contract, and each contract is shown
  to be satisfiable (`Proofs/Libs`, `Proofs/RxPaths`, `Proofs/UfLibs`, `Proofs/Trial.floatLib_exists`):
  - `PathLib` (Dijkstra of networkx/rustworkx): for every reachable target a walk of the graph
    whose weight is minimal among all walks; no entry for unreachable targets.
  - `MatchLib` (max_weight_matching with maxcardinality): a matching of maximum size and, among those, of minimum
    total weight.
  - `RxPathLib`, `RxMatchLib` (Model/Rx): the same for rustworkx's routines over integers; assumed only for graphs without parallel
    edges. `PyGraph` (Model/Rx) transcribes rustworkx's documented add_node, add_edge, remove_nodes_from, neighbors, ... .
  - `LemonLib` (LEMON's MaxWeightedPerfectMatching, Model/Lemon): on a complete graph with an even number of nodes a
    perfect matching of maximum weight for the given (already rounded) weights; its internal single-precision arithmetic is
    taken to be exact.
  - `CompLib`, `SpanLib`: connected components; a spanning forest.
  - scipy's erf is the mathematical error function (an integral; not a parameter).
  - numpy Generator: an arbitrary stream (random(); choice without replacement = any list of
    indices in range; normal = mean + deviation * arbitrary real). Where
    laws are claimed: random() uniform, normal standard normal, binomial binomial, choice uniform on arrangements (`SwapRng`, shown
    satisfiable in `Proofs/SwapExists`), all calls independent.
  - thewalrus beam_splitter/expand: the standard definitions, transcribed.
  - the file system: `open("x")` is atomic, writes through `"a"` go to the end of the file atomically (POSIX `O_APPEND`), kills lose only what
    was not flushed.
  - networkx Graph: insertion-ordered node and adjacency dictionaries.

## 3. Modelled / not modelled

| file in /repo/flamingpy | model |
|---|---|
| cv/gkp.py | Model/Gkp, Model/GkpArray (arrays and zero denominators in Z_err_cond) |
| cv/ops.py | Model/CvOps |
| utils/linalg.py | Model/Linalg (over F2), Model/LinalgInt (over the integers) |
| utils/graph_states.py | Model/GraphStates |
| codes/graphs/egraph.py (class EGraph) | Model/EGraph, Model/Copies (several objects) |
| codes/graphs/egraph.py (macronize) | Model/Macronize, Model/MacroAttrs |
| codes/stabilizer.py, codes/surface_code.py | Model/SurfaceCode, Model/RhgArgs (arguments of RHG_graph) |
| codes/graphs/stabilizer_graph.py | Model/StabGraph (both backends) |
| decoders/decoder.py | Model/Decoder, Model/Weights, Model/WeightHist, Model/Correct |
| decoders/mwpm/* | Model/Mwpm |
| RxStabilizerGraph, RxMatchingGraph with their node indices | Model/Rx |
| Stabilizer limits and midpoint, real_nodes, real_edges, bound_points, to_nx, total_weight_of | Model/Readouts |
| decoders/mwpm/lemon.py, cpp/lemonpy.cpp | Model/Lemon |
| decoders/unionfind/* | Model/UnionFind, Model/Recursion (recursion limit) |
| noise/iid.py, noise/cv.py (CVLayer) | Model/Noise, Model/CvDirect |
| noise/cv.py (CVMacroLayer) | Model/Macro, Model/MacroCode |
| simulations.py: seeds, several calls in one process, decoder names of the script | Model/Seeds |
| (no new code) trails of qubits | Proofs/Trails, Proofs/HeavyTrail, Proofs/TrailSum |
| (no new code) tails of sums of squares | Proofs/GaussTail |
| (no new code) flips of sets of macronodes | Proofs/MacroTail |
| (no new code) flips next to and away from squeezed modes | Props/SwapThreshold |
| utils/viz.py (data handed to matplotlib and plotly; effect of drawing on the graphs) | Model/Viz, Model/DrawRecovery |
| simulations.py | Model/Simulations, Model/Correct, Model/Concurrent (several processes, one file) |

Independent specifications used in statements: `Spec/Rhg` (lattice), `Spec/Code` (what a
constructed code is), `Spec/UnionFind`, `Spec/Macro`.

Not modelled: matplotlib, plotly and what the drawing functions of utils/viz.py hand to them (except Model/Viz, Model/DrawRecovery), printing, `about()`, benchmarks,
examples, argument parsing and timing in simulations.py's `__main__`, LEMON itself, probability distributions
of the samplers (except `IidNoise`, C61, `CVLayer` in the initial order, C62-C65, C67, C68, and the deviates of `CVMacroLayer`, C69, C74), performance,
Python's recursion limit outside `trim_forest` (C93), memory, `None` weights left on syndrome qubits.

## 4. How each property is modelled and proved

| id | model | proof |
|----|-------|-------|
| C01-C03 | `Model/Gkp` over the reals, divmod = floor | floor lemmas; C03 refuted by the edge -sqrt(pi)/2, partial: exact behaviour on every edge |
| C04 | same; Real.exp sums | injection of numerator terms into denominator terms; refuted for use_hom_val by an explicit value |
| C05 | same; erf the integral | telescoping of disjoint increments |
| C06, C07, C09 | `Model/CvOps`: block matrices (`Matrix.fromBlocks`) over a commutative ring / reals | block multiplication |
| C08 | arrays as functions on Fin n | bijectivity |
| C10, C11 | `Model/Linalg`: matrices over ZMod 2, loop over columns with a pivot counter | loop invariant: span equal + echelon |
| C12, C14 | same | unfold constraint system into the matrix equation |
| C13 | same | refuted: 5-ring; two isolated nodes; partial: exact criterion of the code |
| C15-C19, C21 | `Model/EGraph`: dictionaries as association lists, operations returning state + outcome | invariants by induction over operation lists |
| C20 | `Model/Macronize` | rounding arithmetic, closed form of the fold |
| C22-C24 | `Model/SurfaceCode`: RHG_graph as the fold the code performs, vertex order arbitrary | closed-form characterisation of the fold, parity arithmetic |
| C25-C29, C31-C33 | stabilizer identification, boundary, connect_nodes as written | reduction to a product of three axes (`Proofs/Complex`), telescoping mod 2 |
| C30, C52 | `Model/Decoder` | sums mod 2 |
| C34-C37 | `Model/Mwpm`: matching graph construction, toggling along paths; paths/matching are contract parameters | walk parity; T-join induction; distance argument |
| C38-C41 | `Model/UnionFind`: heap of nodes with parents/children/roots, support table, boundaries, spanning forest, trimming | ghost partition invariant; growth measure; leaf argument |
| C42, C43 | `Model/Weights`, `Model/Mwpm` | real log bounds; witness |
| C44-C47, C53 | `Model/Noise` | induction over calls (`Hist`); parity |
| C48, C55 (`Props/MacroPolar` for the failing case), C56 | `Model/Macro`, `Model/MacroCode` | mode permutation as a bijection; parity of the beamsplitter outputs; induction over calls (`MacroHist`) |
| C49, C50 | `Model/Simulations` | counting residues; induction over runs |
| C51 | `Model/GraphStates` | injectivity of the rounded positions |
| C54 | direct | case analysis |
| C57 | `Model/Decoder` on codes | contracting homotopy of the RHG complex (`Proofs/Homotopy`) |
| C58 | `Model/Correct`: weights, decoder, recovery and check composed | composition of C34/C39, C30, C42, C57 |
| C59 | `Model/Correct` + `Model/Simulations` | invariant of the state carried between trials |
| C60 | `Model/UnionFind`, `Model/Correct` | exact growth of a round; arcs along an axis that contain the clusters, paid by erasures and error edges; an untouched plane has even parity |
| C61 | `Model/Correct`, `Model/Simulations`; the random stream as independent uniform variables of a probability space | joint law of the sets of hit qubits in all trials, finite sums; C36/C60 for the upper, C33/C57 for the lower bound |
| C62, C63 | `Model/Gkp`; noise as Mathlib's `gaussianReal` | splitting integrals into bins; geometric tail bounds |
| C64 | `Model/Noise`; the deviates as independent standard normal variables of a probability space | outcomes as linear combinations of the deviates; sums of independent normal variables; C63 |
| C65 | `Model/Correct`, `Model/Simulations` | induction over trials with the history of the layer (C45); identically distributed noisy trials |
| C67 | `Model/Noise` | C45's history invariant; independent random sets; closed form of a recursion |
| C68 | `Model/Correct`, `Model/Simulations` | conditioning on the sets of indices, C67 and C64's representation of outcomes |
| C69 | `Model/Macro`, `Model/Gkp`; the deviates as independent standard normal variables | the noise of a reduced outcome as a linear combination of deviates (orthogonality of the four-splitter gives independence), parity of independent bits, C63 |
| C70 | `Model/Rx` | simulation: a graph with indices stores a graph without (position in the list of nodes); the routines over integers induce routines over nodes; computations that fail together |
| C71 | `Model/Readouts`, `Model/SurfaceCode` | the six points around a centre; C25's cells |
| C72 | `Model/Readouts`, `Model/Rx` | the representation of C70; invariant of the conversion loop over prefixes of the edges |
| C73 | `Model/Concurrent`: transition system of processes (open x / open a, flush, close, kill) | invariants of all reachable states; an explicit schedule |
| C74 | `Model/Macro`, `Model/Correct`, `Model/Simulations` | the outcome mod 2 of a site is the outcome of zero bits plus a bit of the stabilizer group (`Proofs/MacroFlip`); verdicts are functions of flips up to that (C61's `Fails`); binomial law of i.i.d. events; Markov and union bound with the laws of C69 |
| C75 | `Model/Seeds`: decimals of the time, seeds, calls in one process, decoder names | arithmetic of decimals; C49, C61 with seeds as indices; induction over calls |
| C76 | codes, decoder, noise and simulation as in C58, C61 | residual errors split into trails without boundary, one of them crosses the checked plane an odd number of times; minimality gives half of it flipped; counting of trails, union bound, geometric series |
| C77 | layer, decoder and simulation as in C64, C65 | quadratic bound for the outcomes, exponential moment of squares of normal numbers, Chernoff bound; trails of C76 |
| C78 | layer, decoder and simulation as in C74, generator of C67 | a flip next to GKP states needs large noise; every micronode has at most one partner, so that swap-outs of different qubits are independent; Chernoff bound of C77, trails of C76 |
| C79 | layer, decoder and simulation as in C68, generator of C67 | for every pattern of squeezed modes, the flips of qubits without squeezed neighbours obey the Chernoff bound of C77; a squeezed mode is next to at most four qubits, so that m qubits have squeezed neighbours with probability at most 4^m p^(m/4); trails of C76 |
| C80 | `Model/Viz`: `decodeCall`, `runCalls` thread the decoder graph through a sequence of calls; drawing removes the connectors with networkx | the matching and the clusters depend on the graph only through what drawing keeps; induction over the calls; refutation for open networkx graphs |
| C81 | `Model/Viz`: remainder, rounding and truncation over the reals; decimal formatting a parameter | rounding lemmas; digits of integers are injective and contain no backslash |
| C82 | `Model/Viz` on the readouts of the code (`physical`, `lims`) | limits of every stabilizer from C70; midpoints of different stabilizers differ by at least 2 in some coordinate |
| C83 | `Model/Viz`: `drawnNx`, `drawnRx`, `stabLabels`, `virtualLabels` | node and edge lists from C28 and C72; positions in lists without repetitions |
| C84 | `Model/Viz`: `getTitle`, `getNodeInfo`, `plotNodes`, `getNodeColor`, `getEdgeColor`, values as texts | case analysis against the documentation (`docTitle`), exact conditions of the errors |
| C85 | codes, Union-Find decoder and simulation as in C60, C61 | bad edges are decomposed into islands of scales that grow faster than the clusters of the decoder (`Proofs/Sparse`); islands are neutralised before clusters of different islands meet (`Proofs/SparseGrow`, `Proofs/UfSparse`), so clusters and corrections stay local (`Proofs/UfLocal`); what is left at scale k contains 2^k separated bad edges, counted by binary trees (`Proofs/UfCount`); union bound, limit |
| C86 | layers as in C77, C78, C79, decoder of C85 | the laws of flips of C77, C78, C79 also bound sets of qubits that are flipped or next to squeezed modes, in particular flipped or erased; then C85 |
| C87 | `Model/GkpArray`: NumPy broadcasting, index assignment and errors; `np.exp` an arbitrary function | closed form of assignments to complementary index lists (the statement includes where the documentation is refuted) |
| C88 | `Model/RhgArgs` | case analysis of the arguments, C22, congruence of the fold in the sizes of primal axes |
| C89 | `Model/CvDirect` (on `Model/EGraph`, `Model/Noise`) | C16, C18 for the constructor, C53 for measuring, case analysis for the rest |
| C90 | `Model/DrawRecovery`, `Spec/DrawRecovery` (`Joins`, `OnPiece`) | paths of the matching graph are chains of code edges, each of which stands for a qubit next to both its ends; the toggled qubits are those passed an odd number of times; with positive weights a simple shortest path passes no connector; `C90_zero` constructs the exceptional case |
| C91 | `Model/DrawRecovery`, `Spec/DrawRecovery` (`gapSegs`, `coordNamed`) | induction over the traces, floor and ceiling of minima and maxima; two refutations about the syndrome plot (`C91_qubit_off_voxel`, `C91_limits_dual`) |
| C92 | utils/linalg.py once more, with integer matrices, truncating division and remainders (Model/LinalgInt) | the invariant "entries in {-1,0,1}" through every step, and commutation of every step with reduction modulo 2 to the F2 model of C10-C12 |
| C93 | Model/Recursion: `trim_forest`, `peeling`, `uf_decoder` with a bound on nested calls and RecursionError | the calls follow a trail; a forest has fewer edges than nodes; induction on the length of a path for the converse |
| C94 | Model/Copies: a store of dictionaries and objects with references; copy, constructor, methods of Model/EGraph | frame property of one step under the invariant that no two objects share a dictionary; induction over the history |
| C95 | `Model/MacroAttrs` | invariant of both loops: the attributes of a point are those of the one macronode it is listed under; distinctness from C20 |
| C96 | `Model/Correct` | lines span the classes; the recovery is a function of the syndrome; counting fibres of the residual class |
| C97 | Union-Find as in C38, C60; `Model/Correct` | an odd cluster is left by an unerased edge of the error, so no cluster is odd, nothing grows and the recovery is erased (`CInv.leaves`); C57; an injection from the patterns corrected by any decoder into those corrected by Union-Find; for open codes the first round joins the two halves of the line and boundary points of even trees are not used by peeling |
| C98 | as C97 | the recovery depends on the parities only, so adding an erased trivial pattern shifts the class of the residual error: all fibres have the same size; an erased logical operator contains a trail of d qubits (`Trails.odd_trail`), union bound over the at most 2n*5^k trails |
| C99 | `NoiselessOff` (bits of some node values except on erased qubits); `swapErased` from `squeezedNeighbors`; outcomes of the `CVLayer` as in C68 | adding the outcomes of node values changes neither the parities of stabilizers nor the verdict, the rest lies on erased qubits and C97 applies; a wide normal variable is rarely close to the edge of a bin, since its law changes little under shifts by less than a bin (`nearEdge_prob`); a trail of erased qubits needs two squeezed neighbours each, and every mode is shared by at most four |
| C100 | `swapFailure` as in C79, `swapErased` as in C99 | adding the bits of the nearest grid points of the squeezed modes does not change the verdict (C58), so a failure needs half of a long trail (or a tree set of C85) whose qubits each have two squeezed neighbours, much other noise, or one squeezed neighbour near the edge of a bin; union bound over the choice per qubit, independence (`mix_le`), and every mode is shared by at most four qubits |
| C101 | `analogFailure`: `Fails` with `outcomeAttrs` (all modes GKP, their outcomes as `hom_val_p`) and `cvFlips`; `centrality` | Z_err_cond is within a factor 20 of exp(-centrality/var) (`zErrCond_bounds`), so rounded weights are within 4 multipliers of it; a failure has a long trail whose flipped qubits outweigh the others (`heavy_trail_w`), where the squares of the outcomes are then large on average (`outcome_sq`, `analog_trail`); Chernoff for sums of squares (`mix_le_sum`); union bound over trails; the failure set is measurable because the weights take countably many values |
| C102 | `zErrCond`, `gkpBinner` | the fraction is that of the bin (`integerFractional_unique`); reflected numerator is the same sum, the reflected denominator swaps the term -N for N (`num_reflect`, `den_reflect`) |
| C103 | `Model/WeightHist`: `assign_weights` with what it leaves behind when it raises | loop lemmas (old or new weight); induction over calls; agreement with `assignWeights` of C42 (`C103_agrees`) |
| C104 | `correctAll`, `gkpBinner` on given outcomes | C102 for bits and weights; the recovery depends on the stabilizer parities only (`recovery_fun`); C57 for the verdicts |
| C66 | `Model/Lemon` | index translation and row-major layout; error bound of rounding to 24 bits; a non-edge outweighs every cheap matching; a `MatchLib` that agrees with lemon |

## 5. Findings (code vs. property)

Theorems are named where the finding is proved of the model; the others were seen while transcribing.

* C03: `GKP_binner` sends the edge -sqrt(pi)/2 to bit 1, against the docstring (`C03_boundary_to_zero_false`).
* C04: `Z_err_cond(use_hom_val=True)` exceeds 1 for outcomes outside the summation window (`C04_use_hom_val_false`).
* C13: only sums of two basis vectors of the kernel are tried, so `lc_equivalent` answers False for
  `ring_graph(5)` against itself and for graphs with two isolated nodes (`C13_complete_false`, `C13_two_isolated_false`).
* C17: `add_qubit` on a graph that has index dictionaries but no qubits raises after the node was added
  (`C17_false`); the new qubit's own index as neighbour makes a self-loop.
* C18: `adj_generator` after removals raises or is stale (`C18_false_remove`, `C18_false_stale`).
* C20: displacements near 1/2, or near 0.05 with padding, merge or misplace micronodes (`C20_false_disp`,
  `C20_false_pad`); `disp=0` overflows in log10.
* C35: MWPM is minimal only if no two stabilizers share two qubits (`C35_counterexample`, size-2 periodic axes).
* C38: Union-Find loops forever on a graph with an odd component without boundary point (`C38_hangs`); impossible on codes.
* C60: `initialize_cluster_trees` also lists odd clusters that touch the boundary, so these grow in the first round; erased boundary
  qubits therefore count twice in C60 (`b`).
* C43: rustworkx matching truncates fractional weights (`C43_truncated`).
* C45: repeated `populate_states` alternates between GKP indices found and lost, so noise vanishes every
  second call (`C45_alternates`, `C45_later_calls`, `C45_noiseless`).
* C50: tuple-valued arguments break the result line with a TypeError (`C50_tuple_breaks`) and the header can be lost
  (`C50_header_lost`).
* C51: the rounded ring positions collide for large n (`C51_ring_large`).
* C53: `apply_noise` in the two-step order always raises (`C53_two_step_fails`); a supplied single-mode choice uses wrong
  entries (`C53_single_mode_wrong`); `delta=0` divides by zero in the initial order; perfect-qubit lookups fail for lists and ranges.
* Macronodes: edge weights -1 are ignored in `outcome -= Z`. `C55_polarity` proves that with swap-outs this violates stabilizers without any displacement; C55 and C69 are about codes whose weights are all 1, or any weights 1 and -1 without swap-outs; C56, C59_macro, C74, C78 and C86 hold for every polarity with values 1 and -1;
  a custom `bs_network` is never stored; the public `measure_syndrome`/`inner_decoder` fail on a CVMacroLayer.
* C65: because of C45, a simulation with a `CVLayer` without swap-outs in one process reports half of the failure probability
  (`C65_half`, `C65_mean`).
* C67, C68: with swap-outs, too, modes labelled GKP get no noise from the second call on, asymptotically a fraction
  (1-p)^2/(2-p) of all modes (`C67_lost`).
* C66: the lemon backend converts the weights to single precision, so that integers beyond 2^24 are rounded and the result
  need not be a minimum-weight matching (`C66_rounding`).
* C62: what `Z_err` calls a variance is sqrt(2) times a standard deviation; this contradicts its docstring and `Z_err_cond`
  (`C62_not_variance`).
* C63: with a fixed number of terms `Z_err_cond` tends to 1, not 1/2, as the variance grows (`C63_large_variance`).
* C69: `_reduce_jth_macronode` adds `Z_err_cond(2 delta, ...)` for GKP neighbours that are stars, too, although what a star contributes
  carries no noise: `p_phase_cond` over-estimates the conditional flip probability (`C69_bound` is not tight). It also passes whole outcomes
  (`use_hom_val=True`) while the sums run around 0: the value degrades when an outcome approaches 10 sqrt(pi) (`C63_truncation_hom`).
* C72: `to_nx` of an `RxStabilizerGraph` returns a graph without stabilizers and boundary points (so `odd_parity_stabilizers` and
  `has_bound_points` of the result are empty), and `to_nx` of an `RxMatchingGraph` one without virtual points (`C72_code`, `C72_matching_to_nx`).
* C73: the results file is created with mode `"x"`, which does not append: what other simulations write before the creator flushes is
  overwritten (`C73_lost`).
* C74: unlike `CVLayer` (C45, C65, C68), `CVMacroLayer` resets its states in each `apply_noise`, so that simulations with it are unbiased.
* C75: `int_time` is computed once per process, so that repeated simulations repeat their results (`C75_repeat`); and it is computed by each
  MPI rank on its own, so that two ranks may get the same seed (`C75_even`).
* C80: `draw_dec_graph` removes 'low' and 'high' from the networkx graph it is given, which is the decoder's own: after one drawing, MWPM with open boundaries raises for every non-trivial syndrome (`C80_networkx_open`).
* C83: after a drawing with networkx the label dictionary, which skips the first two nodes of the graph, skips two stabilizers instead of the connectors (`C83_second`).
* C84: `_get_title` ignores a string title with several labels; `_get_node_info` raises for `None`, and for `"all"` without indices; `_plot_EGraph_nodes` raises without a title if a node has no value (`C84_title_cases`, `C84_info_cases`, `C84_message_fails`).
* C87: `Z_err_cond(..., replace_undefined="bin_location")` returns the string for scalars, raises ValueError for arrays where some denominators underflow, and with `use_hom_val=True` returns |hom_val|/sqrt(pi), which exceeds 1. One variance with an array of outcomes raises.
* C88: a list of boundary types, as documented for `RHG_graph`, always raises AttributeError (`C88_list`); an array with one type gives a different lattice (`C88_single`); NumPy integers are rejected (`C88_rejects`).
* C89: the methods `apply_noise`, `measure_syndrome` and `inner_decoder` of a `CVLayer` made for an `EGraph`, as its docstring offers, always raise AttributeError (`C89_no_code`).
* C90: with zero weights a shortest path from 'low' may run through 'high'; `add_recovery_drawing` then tries to unpack the name of the connector and raises (`C90_raises`, `C90_zero`), although decoding succeeds.
* C91: in `syndrome_plot` voxels, paths and labels are drawn at (x, y, z), but the axes are labelled x, z, y and, with `show_nodes`, the qubits are drawn at (x, z, y): a qubit appears off the voxels of its stabilizers unless y = z. For dual codes the extra room is made on the second axis, but the voxels at x = 0 and z = 0 are the ones outside the limits.
* C07: `SCZ_apply(..., one_shot=False)` writes into an array of the type of `quads`: for an integer vector and fractional weights the new momenta are truncated towards zero (`C07_integers`).
* C92: with weights outside {-1,0,1} (for instance 3, which is the same controlled-Z gate as 1) `R[p, :] / R[p, j]` is cut off when assigned to an array of integers, and `are_lc_equivalent` can return True with operations that do not map one graph state to the other (C92_other_weights_false).
* C93: `trim_forest` recurses once per edge, so with Python's default limit of 1000 a cluster whose spanning tree has a stalk of about a thousand edges makes `uf_decoder` raise RecursionError; codes with at most that many stabilizers and boundary points are safe.
* C94: `EGraph(egraph, macronodes=True)` takes the dictionary `macro_dict` of the other graph by reference: `remove_qubit` (or `add_qubit(..., add_to_macronode=True)`) on one object makes `index_generator` (`adj_generator`) of the other fail with IndexError (NetworkXError); `copy()` silently drops the macronodes (C94_shared_false, C94_copy).
* C97: because odd clusters that touch the boundary grow in the first round, Union-Find is not optimal for erasures on open codes: two clusters on opposite boundaries that are one edge apart are joined, and a correctable erasure pattern becomes a logical error.
* C98: with erasures only, Union-Find has a threshold of at least 1/5 on codes without open boundaries (compare 2^-65 for flips, C85); its failure probability is the smallest possible (C97_optimal).
* C99: a qubit next to exactly one p-squeezed mode is decoded as if that mode were perfect: all qubits around the mode share the same bit flip, which is a stabilizer of the cluster state. This is why `assign_weights` may treat one p-squeezed neighbour like none for Union-Find.
* C100 improves C79 and C86 from p <= 10^-11 (2^-280) to any p < 1/360000 ((6*2^65)^-2), at a noise level that depends on p but not on the code, because single squeezed neighbours only act through values near the edges of the bins.
* C101 covers rounded integer weights with either graph library, and float weights with NetworkX provided the float of a logarithm up to pi/d0 + 3 is accurate up to 1 (true of doubles); the mean of simulations needs the rounding to be measurable. The decoder's noise parameter may differ from the layer's, as long as it is below pi/40.
* C102: the denominator of Z_err_cond has the terms -N..N-1, so the value is not symmetric around the centre of a bin (for the default N = 10 the factor is at most 1 + exp(-90 pi/var)).
* C103: an unknown method is silently ignored (weights of an earlier call stay in use), and after a failing call node and edge weights may disagree.
* C104 is about exact real outcomes: in floating point the fractional part, and so a non-integer weight, may change in the last digits when an outcome moves.
* C70: a node that is added a second time to an `RxStabilizerGraph` gets a new index, and its edges can no longer be found
  (`C70_readd`); `edge_weight` and `edge_path` of `RxMatchingGraph` add the nodes they are asked about if these are missing.
* simulations: non-root MPI ranks return `trials` as their error count.

## 6. Tests against wrong programs

`seeded/LOG.jsonl`: one line per edited copy of the model, rebuilt against the theorems (`theorems_failed` are the
manifest theorems whose proofs use a declaration that no longer compiles). Entries whose edit survived name the
theorems added afterwards.
