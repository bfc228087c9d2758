{"id": "C01", "title": "integer_fractional decomposes every real", "statement": "integer_fractional(x, alpha) returns (n, f) with n an integer, x = n*alpha + f and |f| <= alpha/2; when |f| < alpha/2 that pair is the only one.", "quantifier": "all real x and all alpha > 0", "why_tests_cant": "uncountable input domain; tests sample random floats away from bin edges", "anchors": ["flamingpy/cv/gkp.py:integer_fractional"]}
{"id": "C02", "title": "GKP_binner is the parity of the nearest multiple of sqrt(pi)", "statement": "GKP_binner returns 0 on every open bin ((2k-1/2)sqrt(pi),(2k+1/2)sqrt(pi)) and 1 on every open bin ((2k+1/2)sqrt(pi),(2k+3/2)sqrt(pi)), always returns 0 or 1, is 2sqrt(pi)-periodic and flips under a shift by sqrt(pi).", "quantifier": "all real outcomes, all bin numbers k", "why_tests_cant": "unbounded periodic domain", "anchors": ["flamingpy/cv/gkp.py:GKP_binner"]}
{"id": "C03", "title": "GKP_binner on bin edges", "statement": "The docstring says 'Values on the boundary are binned to 0'. (False of the code: the edge above bin n is binned to n mod 2, so half the edges go to 1.)", "quantifier": "all bin edges (k+1/2)sqrt(pi)", "why_tests_cant": "measure-zero inputs that random tests never hit", "anchors": ["flamingpy/cv/gkp.py:GKP_binner"]}
{"id": "C04", "title": "Z_err_cond returns a probability", "statement": "Z_err_cond(var, hom_val) lies in [0, 1] for every homodyne value and every positive variance, whatever the number of summation terms.", "quantifier": "all real hom_val, var > 0, var_num >= 1, both values of use_hom_val", "why_tests_cant": "real-valued inequality over an unbounded domain; tests only look at limits", "anchors": ["flamingpy/cv/gkp.py:Z_err_cond"]}
{"id": "C05", "title": "Z_err returns a probability", "statement": "Each entry of Z_err(var) lies in [0, 1], and what is subtracted from 1 is exactly the Gaussian mass of a symmetric set of 0-bins.", "quantifier": "all non-empty lists of positive variances, all var_num >= 0", "why_tests_cant": "real-valued inequality over an unbounded domain", "anchors": ["flamingpy/cv/gkp.py:Z_err"]}
{"id": "C06", "title": "SCZ_mat is symplectic", "statement": "For a symmetric adjacency matrix the matrix returned by SCZ_mat preserves the canonical symplectic form, SCZ_mat(-adj) undoes it, and CZ applications compose additively.", "quantifier": "all mode numbers N, all symmetric N x N matrices", "why_tests_cant": "all sizes and all matrices", "anchors": ["flamingpy/cv/ops.py:SCZ_mat"]}
{"id": "C07", "title": "SCZ_apply one_shot is an optimisation only", "statement": "SCZ_apply(adj, quads, one_shot=True) and one_shot=False give the same result, for vectors of quadratures and for 2N x 2N matrices; positions are unchanged and momenta are shifted by adj @ q. Exception: for a vector stored as integers, one_shot=False drops the fractional part of new momenta, so the two agree exactly when all shifts are integers.", "quantifier": "all N, all adjacency matrices (symmetric or not), all quadrature vectors and matrices", "why_tests_cant": "all sizes and entries", "anchors": ["flamingpy/cv/ops.py:SCZ_apply"]}
{"id": "C08", "title": "invert_permutation inverts", "statement": "Indexing by p and then by invert_permutation(p) gives back the original array, and conversely.", "quantifier": "all permutations of range(n), all n", "why_tests_cant": "n! permutations", "anchors": ["flamingpy/cv/ops.py:invert_permutation"]}
{"id": "C09", "title": "splitter_symp is a passive symplectic four-splitter", "statement": "The 8x8 matrix returned by splitter_symp() is orthogonal and symplectic and acts identically on positions and momenta; for n = 4m > 4 the result is m diagonal copies, orthogonal and symplectic in the q1p1...qnpn ordering.", "quantifier": "all multiples of four n", "why_tests_cant": "all sizes n", "anchors": ["flamingpy/cv/ops.py:splitter_symp"]}
{"id": "C10", "title": "reduce_RREform_mod2 is Gaussian elimination", "statement": "The returned matrix has the same row space as the input, its first p rows are in reduced echelon form on the reduced columns, and all later rows vanish there.", "quantifier": "all binary matrices of any shape, all max_cols", "why_tests_cant": "exponentially many matrices per shape, unbounded shapes", "anchors": ["flamingpy/utils/linalg.py:reduce_RREform_mod2"]}
{"id": "C11", "title": "nullspace_basis returns a basis", "statement": "The rows of nullspace_basis(M) are linearly independent and span exactly {v : M v = 0 mod 2}.", "quantifier": "all binary matrices of any shape", "why_tests_cant": "unbounded shapes", "anchors": ["flamingpy/utils/linalg.py:nullspace_basis"]}
{"id": "C12", "title": "is_lc_equivalent is sound", "statement": "Whenever is_lc_equivalent returns True, the returned per-qubit 2x2 matrices are invertible mod 2 and the local Clifford they form maps the stabilizer space of the first graph state onto that of the second.", "quantifier": "all pairs of simple graphs on the same number of nodes", "why_tests_cant": "exponentially many graph pairs", "anchors": ["flamingpy/utils/linalg.py:are_lc_equivalent", "flamingpy/utils/linalg.py:search_nullspace", "flamingpy/codes/graphs/egraph.py:EGraph.is_lc_equivalent"]}
{"id": "C13", "title": "is_lc_equivalent is complete", "statement": "Whenever some local Clifford maps the first graph state to the second, is_lc_equivalent returns True; in particular a graph is LC-equivalent to itself. (False of the code: the 5-ring and any graph with two isolated nodes are reported not equivalent to themselves.)", "quantifier": "all pairs of simple graphs on the same number of nodes", "why_tests_cant": "exponentially many graph pairs; the existing tests happen to use graphs with large solution spaces", "anchors": ["flamingpy/utils/linalg.py:search_nullspace", "flamingpy/utils/linalg.py:are_lc_equivalent"]}
{"id": "C14", "title": "The two output forms of is_lc_equivalent agree", "statement": "clifford_form='tensor' and 'global' describe the same operation: the global 2n x 2n matrix acts on qubit k's (z,x) pair as the k-th 2x2 tensor factor and does not mix qubits.", "quantifier": "all solution vectors of length 4n, all n", "why_tests_cant": "all sizes", "anchors": ["flamingpy/utils/linalg.py:clifford_vec_to_tensors", "flamingpy/utils/linalg.py:clifford_vec_to_global"]}
{"id": "C15", "title": "index_generator gives a sorted bijection", "statement": "After index_generator() on a non-macronode EGraph, to_indices maps the nodes bijectively onto 0..N-1 in sorted order and to_points is its inverse; calling it again changes nothing.", "quantifier": "all finite EGraphs", "why_tests_cant": "all graphs and sizes", "anchors": ["flamingpy/codes/graphs/egraph.py:EGraph.index_generator"]}
{"id": "C16", "title": "adj_generator is aligned with the indices", "statement": "adj_generator() returns the symmetric matrix whose (i,j) entry is the weight of the edge between to_points[i] and to_points[j] (0 when absent).", "quantifier": "all finite EGraphs with indices just generated", "why_tests_cant": "all graphs and sizes", "anchors": ["flamingpy/codes/graphs/egraph.py:EGraph.adj_generator"]}
{"id": "C17", "title": "Index dictionaries stay coherent under edits", "statement": "After any sequence of add_qubit / remove_qubit / index_generator / adj_generator calls, to_indices and to_points are inverse to each other, cover exactly the nodes, and a qubit's index never changes while it stays in the graph.", "quantifier": "all histories of operations with neighbours taken from the graph", "why_tests_cant": "unbounded histories", "anchors": ["flamingpy/codes/graphs/egraph.py:EGraph.add_qubit", "flamingpy/codes/graphs/egraph.py:EGraph.remove_qubit", "flamingpy/codes/graphs/egraph.py:EGraph._update_attributes_add_qubit"]}
{"id": "C18", "title": "The cached adjacency matrix is never stale", "statement": "After any history of add_qubit / remove_qubit / adj_generator calls, adj_generator() returns the adjacency matrix of the current graph. (False of the code: after removing any qubit but the last-indexed one it raises KeyError, and a rejected add_qubit leaves a stale cached matrix.)", "quantifier": "all histories of operations", "why_tests_cant": "unbounded histories", "anchors": ["flamingpy/codes/graphs/egraph.py:EGraph.adj_generator", "flamingpy/codes/graphs/egraph.py:EGraph.add_qubit", "flamingpy/codes/graphs/egraph.py:EGraph.remove_qubit"]}
{"id": "C19", "title": "add_qubit() with no position always finds a fresh one", "statement": "On a non-empty graph add_qubit() adds exactly one new node, with x-coordinate one more than the maximum, leaves all other nodes and edges alone and never collides; remove_qubit undoes it; a position already occupied or not of length 3 is rejected with no change.", "quantifier": "all non-empty EGraphs", "why_tests_cant": "all graphs", "anchors": ["flamingpy/codes/graphs/egraph.py:EGraph.add_qubit", "flamingpy/codes/graphs/egraph.py:EGraph.remove_qubit"]}
{"id": "C20", "title": "macronize replaces every edge by a disjoint dumbbell", "statement": "In the macronized graph every micronode has exactly one neighbour (none if it is padding), macronode v holds deg(v) micronodes (exactly 4 when padding a graph with degrees 1..4), micronodes of different macronodes are distinct, and each rounds back to its macronode. (Holds for displacements up to 0.49, and with padding outside 0.04..0.06; the code accepts others, for which micronodes coincide.)", "quantifier": "all lattice graphs with axis-parallel edges (unit or flagged periodic), any number of nodes", "why_tests_cant": "all graphs", "anchors": ["flamingpy/codes/graphs/egraph.py:macronize"]}
{"id": "C21", "title": "macro_to_micro is maintained by edits", "statement": "After any sequence of add_qubit(..., add_to_macronode=True) / remove_qubit on a macronized graph the lists in macro_to_micro partition the micronodes and no list is empty.", "quantifier": "all histories of operations", "why_tests_cant": "unbounded histories", "anchors": ["flamingpy/codes/graphs/egraph.py:EGraph._update_attributes_add_qubit", "flamingpy/codes/graphs/egraph.py:EGraph.remove_qubit"]}
{"id": "C22", "title": "RHG_graph is exactly the RHG lattice", "statement": "For every choice of dimensions and per-axis boundaries, the nodes of RHG_graph are the lattice points with one or two even coordinates inside the per-axis ranges, labelled primal/dual by parity; edges join exactly the primal/dual pairs at unit distance (or opposite ends of a periodic axis); no node has more than four neighbours.", "quantifier": "all dims (every open axis at least 2), all 27 boundary triples", "why_tests_cant": "unbounded sizes", "anchors": ["flamingpy/codes/surface_code.py:RHG_graph", "flamingpy/codes/surface_code.py:dual_neighbours"]}
{"id": "C23", "title": "The all-periodic lattice is 4-regular and bipartite", "statement": "With periodic boundaries and all dims >= 2 every node has exactly four neighbours, all of the other type.", "quantifier": "all dims >= 2", "why_tests_cant": "unbounded sizes", "anchors": ["flamingpy/codes/surface_code.py:RHG_graph"]}
{"id": "C24", "title": "alternating_polarity balances every four-valent vertex", "statement": "With polarity=alternating_polarity, every vertex with four neighbours has exactly two +1 and two -1 edges.", "quantifier": "all dims, all boundaries, all four-valent vertices", "why_tests_cant": "unbounded sizes", "anchors": ["flamingpy/codes/surface_code.py:alternating_polarity", "flamingpy/codes/surface_code.py:RHG_graph"]}
{"id": "C25", "title": "Every syndrome qubit is checked twice or sits on the boundary", "statement": "Each coordinate in {ec}_syndrome_coords belongs to exactly two stabilizers, or is listed in {ec}_bound_points and belongs to exactly one.", "quantifier": "all dims >= 2, both error complexes, open/toric/periodic boundaries", "why_tests_cant": "unbounded sizes", "anchors": ["flamingpy/codes/surface_code.py:SurfaceCode.set_ec_stabilizers_and_syndrome", "flamingpy/codes/surface_code.py:SurfaceCode.periodic_boundary_stabilizers", "flamingpy/codes/surface_code.py:SurfaceCode.six_body_dual_stabilizers"]}
{"id": "C26", "title": "Stabilizers are symmetries of the cluster state", "statement": "Every node of the code graph is adjacent to an even number of qubits of each stabilizer, so noiseless outcomes (each the parity of arbitrary neighbour values) give even parity on every stabilizer.", "quantifier": "all dims >= 2, both error complexes, all boundaries, all neighbour bit values", "why_tests_cant": "unbounded sizes and 2^N neighbour values", "anchors": ["flamingpy/codes/surface_code.py:SurfaceCode.identify_stabilizers", "flamingpy/codes/stabilizer.py:Stabilizer.parity"]}
{"id": "C27", "title": "Boundary points split correctly into low and high", "statement": "For open boundaries the first half of {ec}_bound_points is exactly the low boundary slice and the second half exactly the high one, so 'low' and 'high' connect to opposite sides; periodic/toric codes have none.", "quantifier": "all dims >= 2, both error complexes, any set iteration order", "why_tests_cant": "unbounded sizes; set order", "anchors": ["flamingpy/codes/surface_code.py:SurfaceCode.identify_boundary", "flamingpy/codes/surface_code.py:SurfaceCode._get_ec_bounds", "flamingpy/codes/graphs/stabilizer_graph.py:StabilizerGraph.__init__"]}
{"id": "C28", "title": "The stabilizer graph has the code's qubits as edges", "statement": "Each non-connector edge of the stabilizer graph carries a qubit whose flip toggles exactly the stabilizers at its ends, different edges carry different qubits, and every syndrome qubit's action is available on some edge.", "quantifier": "all dims >= 2, both error complexes, all boundaries, any choice among several common vertices", "why_tests_cant": "unbounded sizes; nondeterministic set.pop", "anchors": ["flamingpy/codes/graphs/stabilizer_graph.py:StabilizerGraph.connect_nodes"]}
{"id": "C29", "title": "The stabilizer graph is connected", "statement": "Every stabilizer is reachable from every other without using the 'low'/'high' connectors, and with open boundaries also from both connectors, so the decoder's path lookups never fail.", "quantifier": "all dims >= 2, both error complexes, all boundaries", "why_tests_cant": "unbounded sizes", "anchors": ["flamingpy/codes/graphs/stabilizer_graph.py:StabilizerGraph.connect_nodes", "flamingpy/decoders/mwpm/matching.py:MatchingGraph._with_edges_between_real_odd_nodes"]}
{"id": "C30", "title": "recovery flips exactly the given qubits", "statement": "recovery toggles bit_val on each listed qubit and nothing else, applying it twice restores the state, the order of the set is irrelevant, and a stabilizer's parity changes by the number of its qubits in the set.", "quantifier": "all codes, bit assignments and recovery sets", "why_tests_cant": "2^N states and sets", "anchors": ["flamingpy/decoders/decoder.py:recovery", "flamingpy/codes/stabilizer.py:Stabilizer.parity"]}
{"id": "C31", "title": "Parallel correlation surfaces agree once the syndrome is trivial", "statement": "If no stabilizer is odd then all parallel planes inspected by check_correction(sanity_check=True) have equal parity, so inspecting only the first plane loses nothing.", "quantifier": "all dims >= 2, both error complexes, all boundaries, all bit assignments", "why_tests_cant": "2^N assignments, unbounded sizes", "anchors": ["flamingpy/decoders/decoder.py:check_correction"]}
{"id": "C32", "title": "check_correction ignores trivial errors", "statement": "Flipping all syndrome qubits adjacent to a node of the other type changes no stabilizer parity and no plane parity, hence not the verdict.", "quantifier": "all dims >= 2, both error complexes, all boundaries, all nodes, all bit assignments", "why_tests_cant": "2^N assignments, unbounded sizes", "anchors": ["flamingpy/decoders/decoder.py:check_correction"]}
{"id": "C33", "title": "SurfaceCode(d) has code distance d", "statement": "Any bit pattern with trivial syndrome that check_correction rejects has at least d ones along the checked direction, and such a pattern with exactly d ones exists.", "quantifier": "all dims >= 2, both error complexes, all boundaries, all bit assignments", "why_tests_cant": "2^N assignments, unbounded sizes", "anchors": ["flamingpy/decoders/decoder.py:check_correction", "flamingpy/codes/surface_code.py:SurfaceCode"]}
{"id": "C34", "title": "The MWPM decoder clears every syndrome", "statement": "After mwpm_decoder and recovery no stabilizer is odd, whichever shortest paths and perfect matching the graph library returns; the recovery set contains only qubits of the code.", "quantifier": "all codes, all bit assignments, all valid paths, all perfect matchings", "why_tests_cant": "2^N syndromes, library tie-breaking", "anchors": ["flamingpy/decoders/mwpm/algos.py:mwpm_decoder", "flamingpy/decoders/mwpm/matching.py:MatchingGraph.with_edges_from", "flamingpy/decoders/decoder.py:recovery"]}
{"id": "C35", "title": "The MWPM recovery is a minimum-weight explanation", "statement": "The total weight of the returned recovery set is at most that of any set of qubits with the same syndrome, provided path lengths are exact (networkx stabilizer graph, or integer weights) and qubits shared by the same two stabilizers have equal weights (automatic unless a periodic axis has size 2). (Without the second proviso false: set.pop keeps only one of the shared qubits, possibly the dearer one.)", "quantifier": "all codes, non-negative weights, all bit assignments, all optimal matchings", "why_tests_cant": "2^N competitors", "anchors": ["flamingpy/decoders/mwpm/algos.py:mwpm_decoder", "flamingpy/decoders/mwpm/matching.py:MatchingGraph.with_edges_from"]}
{"id": "C36", "title": "MWPM corrects every error of weight below d/2", "statement": "With uniform weights, if fewer than d/2 syndrome qubits carry bit value 1 then correct(code, 'MWPM') returns True.", "quantifier": "all dims >= 2, both error complexes, all boundaries, all such patterns, all tie-breaking", "why_tests_cant": "combinatorially many patterns, unbounded sizes", "anchors": ["flamingpy/decoders/decoder.py:correct"]}
{"id": "C37", "title": "A perfect matching always exists and is found", "statement": "For any syndrome of a SurfaceCode the matching graph admits a perfect matching (with open boundaries every odd stabilizer has its private boundary partner; otherwise the number of odd stabilizers is even).", "quantifier": "all dims >= 2, both error complexes, all boundaries, all bit assignments", "why_tests_cant": "2^N syndromes", "anchors": ["flamingpy/decoders/mwpm/matching.py:MatchingGraph._with_edges_from_low_or_high_connector"]}
{"id": "C38", "title": "Union-Find growth terminates", "statement": "The growth loop stops after a bounded number of rounds for every syndrome and erasure pattern on a graph each of whose components has even parity or touches a boundary point.", "quantifier": "all graphs, syndromes, erasures, iteration orders", "why_tests_cant": "unbounded executions; a hang is not a test failure", "anchors": ["flamingpy/decoders/unionfind/algos.py:union_find"]}
{"id": "C39", "title": "The Union-Find decoder clears every syndrome", "statement": "After uf_decoder and recovery no stabilizer is odd, for every syndrome, erasure pattern and iteration order.", "quantifier": "all codes, all bit assignments, all erasures, all iteration orders and spanning forests", "why_tests_cant": "2^N syndromes, nondeterministic set order", "anchors": ["flamingpy/decoders/unionfind/algos.py:uf_decoder", "flamingpy/decoders/unionfind/algos.py:peeling", "flamingpy/decoders/unionfind/algos.py:obtain_spanning_forest"]}
{"id": "C40", "title": "Cluster trees behave as a partition", "statement": "Under any sequence of Root, add_child, union, parity and find_root (with its path compression), two nodes have the same root iff they were connected by unions or add_child; size, parity and boundary of the root are the totals of its cluster, and parity() returns the root's parity (None for a node outside every cluster).", "quantifier": "all histories of Root/add_child/union/parity/find_root", "why_tests_cant": "unbounded histories, aliasing", "anchors": ["flamingpy/decoders/unionfind/algos.py:union", "flamingpy/decoders/unionfind/uf_classes.py:Node.find_root", "flamingpy/decoders/unionfind/uf_classes.py:Root", "flamingpy/decoders/unionfind/uf_classes.py:Node.add_child", "flamingpy/decoders/unionfind/uf_classes.py:Node.parity"]}
{"id": "C41", "title": "peeling empties the forest", "statement": "peeling removes every edge of any forest, returns a subset of its qubits, and leaves zero parity on every node whenever each tree started with even total parity.", "quantifier": "all finite forests, all leaf orders, all parity assignments", "why_tests_cant": "unbounded trees", "anchors": ["flamingpy/decoders/unionfind/algos.py:peeling", "flamingpy/decoders/unionfind/algos.py:trim_forest"]}
{"id": "C42", "title": "Decoding weights are well formed", "statement": "assign_weights gives every syndrome qubit a weight: 1 (uniform MWPM), 2 or -1 (UF; -1 iff at least two p-squeezed neighbours), and at least log 2 (blueprint, any stored probability), never a negative MWPM weight and never an unknown p-count on an RHG lattice.", "quantifier": "all label assignments, homodyne values, stored probabilities", "why_tests_cant": "continuous inputs", "anchors": ["flamingpy/decoders/decoder.py:assign_weights"]}
{"id": "C43", "title": "Matching weights are the path weights", "statement": "The weight put on a matching-graph edge is the total weight of the stored path, for a networkx stabilizer graph or integer weights. (False of the default rustworkx stabilizer graph for non-integer weights: each edge weight is truncated to an int first, so weights below one count as zero.)", "quantifier": "all weights", "why_tests_cant": "real-valued weights", "anchors": ["flamingpy/codes/graphs/stabilizer_graph.py:RxStabilizerGraph._path_weight", "flamingpy/decoders/mwpm/matching.py:MatchingGraph._with_edges_between_real_odd_nodes"]}
{"id": "C44", "title": "IidNoise writes a bit on every node", "statement": "apply_noise sets every node's bit_val to 0 or 1 and touches nothing else; probability 0 gives all zeros and 1 all ones; a probability outside [0,1] is rejected at construction.", "quantifier": "all graphs, probabilities and random streams", "why_tests_cant": "random streams", "anchors": ["flamingpy/noise/iid.py:IidNoise"]}
{"id": "C45", "title": "p and GKP indices after every apply_noise", "statement": "After any history of calls p_inds and gkp_inds are disjoint lists of existing modes; after the first populate_states of a layer they cover all modes; with p_swap=1 every mode is squeezed at every call. A later call covers all modes exactly if every mode that was GKP before is squeezed now. (The expected 'partition after every call' is therefore false of the code: without swap-out and p-squeezed modes every second apply_noise on a surface code in the initial order is noiseless, all outcomes and bits 0.)", "quantifier": "all histories of calls on one CVLayer, all random choices", "why_tests_cant": "histories; a silent statistical error", "anchors": ["flamingpy/noise/cv.py:CVLayer._generate_gkp_indices", "flamingpy/noise/cv.py:CVLayer.populate_states", "flamingpy/simulations.py:ec_monte_carlo"]}
{"id": "C46", "title": "State labels are right after every apply_noise", "statement": "After any number of populate_states calls every node carries a state label, 'p' exactly on the current p_inds.", "quantifier": "all histories of calls, all random choices", "why_tests_cant": "histories", "anchors": ["flamingpy/noise/cv.py:CVLayer.populate_states", "flamingpy/noise/cv.py:CVLayer._apply_state_labels"]}
{"id": "C47", "title": "Noiseless all-GKP sampling has trivial syndrome", "statement": "For an all-GKP layer (q values any multiples of sqrt(pi), p values 0) on a surface code with +-1 edge weights, CZ propagation, homodyne measurement with errors below half a bin, and GKP binning give even parity on every stabilizer.", "quantifier": "all dims >= 2, all boundaries, all q samples, all polarities", "why_tests_cant": "2^N samples", "anchors": ["flamingpy/noise/cv.py:CVLayer.measure_hom", "flamingpy/noise/cv.py:CVLayer.inner_decoder", "flamingpy/cv/ops.py:SCZ_apply"]}
{"id": "C48", "title": "Macronode permutation puts a GKP state in the star slot", "statement": "permuted_inds is a permutation of range(N) that keeps every macronode's four indices together, puts its GKP micronodes first in order, and so the reduced node is labelled 'GKP' iff the macronode contains a GKP state.", "quantifier": "all N divisible by 4, all labellings", "why_tests_cant": "2^N labellings", "anchors": ["flamingpy/noise/cv.py:CVMacroLayer._permute_star_inds", "flamingpy/noise/cv.py:CVMacroLayer._apply_macro_and_reduced_labels"]}
{"id": "C49", "title": "Monte Carlo trials are split exactly", "statement": "Over all MPI ranks each trial index is run exactly once, and the number of errors the root rank reports is the number of failed trials, between 0 and trials; it is 0 exactly when no trial fails. (Non-root ranks return the number of trials, not the number of errors.)", "quantifier": "all numbers of trials and ranks, all outcomes", "why_tests_cant": "unbounded trials and ranks", "anchors": ["flamingpy/simulations.py:ec_monte_carlo"]}
{"id": "C50", "title": "Result files are append-only with one header", "statement": "Any sequence of completed runs writing to one new file leaves exactly one header line followed by one line per run in order; whatever happens, including a run killed or raising half-way, bytes already in the file are never changed. Each line has as many fields as the header as long as no value other than weight_opts prints with a comma. A run whose value is a tuple of length other than 1 raises TypeError after the simulation is finished and leaves an unfinished line; a run killed right after creating the file leaves a file that never gets its header.", "quantifier": "all sequences of runs, all argument dictionaries, all crash points between writes", "why_tests_cant": "histories of runs", "anchors": ["flamingpy/simulations.py:run_ec_simulation"]}
{"id": "C51", "title": "Standard graph states have the right shape", "statement": "linear_cluster(n) is the n-vertex path and star_graph(n) the star for every n; ring_graph(n) is the cycle and complete_graph(n) the complete graph for n up to 400000 (coordinates are rounded to five digits: from 1.3 million vertices on, ring_graph has a self-loop); bell is one edge; an n that is not an integer or is < 1 is rejected.", "quantifier": "all n", "why_tests_cant": "unbounded n", "anchors": ["flamingpy/utils/graph_states.py"]}
{"id": "C52", "title": "correct reports the truth about the residual error", "statement": "correct returns True iff, after recovery, the parity on every inspected plane is even, and for a SurfaceCode that holds iff the residual pattern (which has trivial syndrome) crosses every parallel plane an even number of times.", "quantifier": "all codes, decoders, bit assignments", "why_tests_cant": "2^N assignments", "anchors": ["flamingpy/decoders/decoder.py:correct", "flamingpy/decoders/decoder.py:check_correction"]}
{"id": "C53", "title": "Homodyne sampling records the requested modes", "statement": "measure_hom in the initial order records for every requested mode, and no other, its own noise plus (for p) the weighted q noise of its neighbours, so that apply_noise on a surface code never fails for delta > 0; in the two-step order with supplied means it records the mode's own mean plus noise. (Without supplied means the two-step order is broken: it raises unless the number of requested modes is 1, when the mean of mode 0 is used, or 2N; apply_noise on a surface code always raises.) The constructor rejects p_swap together with non-empty p indices.", "quantifier": "all N, index lists and sampling orders", "why_tests_cant": "configuration space", "anchors": ["flamingpy/noise/cv.py:CVLayer.measure_hom", "flamingpy/noise/cv.py:CVLayer._covs_sampler"]}
{"id": "C54", "title": "str_to_bound names", "statement": "The seven documented boundary names give the documented triples, non-strings raise TypeError; SurfaceCode accepts exactly ec in {primal,dual} with boundaries in {open,toric,periodic}.", "quantifier": "all strings", "why_tests_cant": "infinitely many strings", "anchors": ["flamingpy/codes/surface_code.py:str_to_bound", "flamingpy/codes/surface_code.py:SurfaceCode.__init__"]}
{"id": "C55", "title": "Small macronode noise has trivial syndrome", "statement": "If every sampled displacement of a homodyne outcome in CVMacroLayer.apply_noise is below sqrt(pi)/20, then the bit of every reduced node whose neighbouring macronodes all contain a GKP state is the parity of one integer per neighbouring macronode; on a surface code without swap-outs, for every polarity with values 1 and -1, no stabilizer is violated, for every random beamsplitter input and call history. With swap-outs and an edge of weight -1 this fails: apply_noise ignores the sign when it subtracts the outcome of a neighbour, so there is a displacement-free call with a GKP state in every macronode, and one satellite swapped, whose bits violate a stabilizer.", "quantifier": "all dims >= 2, boundaries, polarities with values 1 and -1, samples, edge orders and call histories", "why_tests_cant": "uncountably many samples, unbounded lattices", "anchors": ["flamingpy/noise/cv.py:CVMacroLayer.apply_noise", "flamingpy/noise/cv.py:CVMacroLayer._reduce_macronode_graph", "flamingpy/noise/cv.py:CVMacroLayer._hom_outcomes", "flamingpy/cv/macro_reduce.py:BS_network"]}
{"id": "C56", "title": "CVMacroLayer.apply_noise is total and labels every reduced node", "statement": "CVMacroLayer can be constructed on every surface code, for every polarity with values 1 and -1, and apply_noise never raises, however often it was called before; every reduced node then carries a state label, a bit 0 or 1 and a phase error probability in [0, 1/2], which is 0 for delta = 0.", "quantifier": "all codes and polarities with values 1 and -1, all delta >= 0, p_swap, random draws and histories", "why_tests_cant": "histories and random draws", "anchors": ["flamingpy/noise/cv.py:CVMacroLayer.__init__", "flamingpy/noise/cv.py:CVMacroLayer.apply_noise"]}
{"id": "C57", "title": "The verdict is true exactly for trivial errors", "statement": "A bit pattern on the syndrome qubits with no violated stabilizer passes check_correction exactly when it is a product of trivial errors: there is a choice of flips of cluster-state nodes whose stabilizers (neighbourhoods) sum to it on every syndrome qubit. Consequently correct returns true exactly when the recovered pattern is of this form; no logical error is missed and no harmless pattern is reported.", "quantifier": "all codes (dims >= 2, all boundaries, primal and dual), all bit patterns, all decoders", "why_tests_cant": "exponentially many patterns, unboundedly many code sizes", "anchors": ["flamingpy/decoders/decoder.py:check_correction", "flamingpy/decoders/decoder.py:correct", "flamingpy/codes/surface_code.py:SurfaceCode"]}
{"id": "C58", "title": "correct works end to end for every valid option", "statement": "correct(code, decoder, weight_opts) returns for MWPM and UF with uniform weights, and for MWPM with blueprint weights when the noise attributes they need exist, whatever the bits and earlier weights. It changes bits of syndrome qubits only, leaves no violated stabilizer, leaves bits with no violated stabilizer alone, and returns True exactly if what is left is a noiseless pattern. Bits that differ by a noiseless pattern get the same recovery and the same verdict. Unknown decoder names and UF with blueprint weights are refused.", "quantifier": "all codes, bit patterns, options, noise attributes, and all tie-breaking choices of the libraries used", "why_tests_cant": "exponentially many bit patterns, unbounded code sizes, arbitrary library tie-breaking", "anchors": ["flamingpy/decoders/decoder.py:correct", "flamingpy/decoders/decoder.py:assign_weights", "flamingpy/decoders/mwpm/algos.py:mwpm_decoder", "flamingpy/decoders/unionfind/algos.py:union_find"]}
{"id": "C59", "title": "Whole simulations never raise, and count no errors when there is nothing to count", "statement": "ec_monte_carlo with IidNoise, CVLayer (initial order) or CVMacroLayer and valid decoder options never raises, for any number of trials and ranks, and its result lies between 0 and trials. It is 0 for IidNoise with p = 0, for IidNoise with MWPM if every trial hits fewer syndrome qubits than half the code size in each checked direction, and for CVMacroLayer without swap-outs and with small noise. After every trial the bits stored on the graph are the corrected ones: a bit on each syndrome qubit, no odd stabilizer, a noiseless pattern exactly if the trial's verdict is True, and (IidNoise) the drawn values outside the syndrome.", "quantifier": "all codes, numbers of trials and ranks, random draws, library tie-breaking", "why_tests_cant": "unbounded trials and random draws; state is carried from trial to trial", "anchors": ["flamingpy/simulations.py:ec_monte_carlo", "flamingpy/decoders/decoder.py:correct", "flamingpy/noise/iid.py:IidNoise.apply_noise", "flamingpy/noise/cv.py:CVLayer.apply_noise", "flamingpy/noise/cv.py:CVMacroLayer.apply_noise"]}
{"id": "C60", "title": "Union-Find corrects few flips and erasures", "statement": "For every code whose periodic axes have size at least three: if t syndrome qubits that are not erased are flipped, s qubits are erased (two or more p-squeezed neighbours) and flipped or not, b of these on the boundary, and 2t + s + b is smaller than the code size in each checked direction, then correct with the Union-Find decoder returns True. Without erasures 2t smaller than the size suffices for every code, and simulations whose trials all meet it count no errors. On codes without open boundaries the condition is 2t + s < size.", "quantifier": "all codes, error patterns, erasures, iteration orders, library choices, weights", "why_tests_cant": "exponentially many error patterns and erasures, unbounded code size, arbitrary iteration order of sets", "anchors": ["flamingpy/decoders/unionfind/algos.py:uf_decoder", "flamingpy/decoders/unionfind/algos.py:union_find", "flamingpy/decoders/unionfind/algos.py:initialize_cluster_trees", "flamingpy/decoders/decoder.py:correct", "flamingpy/simulations.py:ec_monte_carlo"]}
{"id": "C61", "title": "Reported error rates are unbiased and bounded", "statement": "If the random numbers are independent and uniform, the bits set by IidNoise are independent and 1 with the given probability p; the number of errors returned by ec_monte_carlo (any number of MPI ranks, either decoder, uniform weights) is binomially distributed with the decoder's failure probability, so errors/trials is unbiased. That failure probability is at most the probability of flipping at least d/2 qubits (hence at most C(n, m) p^m with m = ceil(d/2), n syndrome qubits, d the shortest checked direction) and at least p^m (1-p)^(n-m).", "quantifier": "all codes, decoders, library choices, error probabilities, numbers of trials and ranks; all probability spaces with independent uniform numbers", "why_tests_cant": "a statement about a distribution over all error patterns; sampling can only estimate it", "anchors": ["flamingpy/simulations.py:ec_monte_carlo", "flamingpy/noise/iid.py:IidNoise.apply_noise", "flamingpy/decoders/decoder.py:correct"]}
{"id": "C62", "title": "Z_err is a flip probability", "statement": "Every entry v of the array given to Z_err yields the probability that centred Gaussian noise of standard deviation v/sqrt(2) falls outside the zero bins number -m..m, m = ceil(var_num*max)//2; so it lies between the probability that the noise flips the binned bit and that plus the weight beyond the last counted bin, and tends to the flip probability as var_num grows. It is not the flip probability for noise of variance v, nor for the convention of Z_err_cond (variance v/2): there are entries for which it is smaller than both.", "quantifier": "all arrays of positive reals, all var_num >= 0", "why_tests_cant": "an integral over all noise values, a limit, all real parameters", "anchors": ["flamingpy/cv/gkp.py:Z_err", "flamingpy/cv/gkp.py:GKP_binner"]}
{"id": "C63", "title": "Z_err_cond is the conditional flip probability", "statement": "As var_num grows, Z_err_cond(var, hom_val) tends to the conditional probability that the binned bit is wrong given the fractional part of the outcome, for noise of variance var/2 added to any multiple of sqrt(pi); with n terms it differs from that by at most 2 exp(-n(n-1) pi/var)/(1-exp(-2 n pi/var)). With a fixed number of terms it tends to 1 as var grows (so it is not a probability of error below 1/2 for large var). With use_hom_val=True the sums run around 0 instead of the outcome, so the error is that of K terms when the outcome is at most (n-K) sqrt(pi).", "quantifier": "all positive var, all outcomes, all numbers of terms", "why_tests_cant": "a statement about conditional distributions, limits and all reals", "anchors": ["flamingpy/cv/gkp.py:Z_err_cond", "flamingpy/cv/gkp.py:GKP_binner"]}
{"id": "C64", "title": "CV outcomes have the stated Gaussian law", "statement": "If rng's normal deviates are independent, the homodyne outcomes recorded by the first CVLayer.apply_noise (initial sampling order) are jointly normal with mean zero: momentum noise of variance delta/2 on every qubit plus position noise of its neighbours (delta/2 for GKP, 1/(2 delta) for p-squeezed) carried by the edge weights; the bits are the binned outcomes. Without p-squeezed states and with weights 1 and -1 each outcome has variance (neighbours+1) delta/2, and the blueprint weight of a qubit is computed from the probability, given the fractional part of its outcome, that its bit is wrong, up to an explicit truncation error.", "quantifier": "all codes, numberings of the modes, noise parameters, squeezed modes, linear combinations of outcomes; all probability spaces with independent normal deviates", "why_tests_cant": "a statement about joint distributions; sampling can only estimate it", "anchors": ["flamingpy/noise/cv.py:CVLayer.apply_noise", "flamingpy/noise/cv.py:CVLayer._covs_sampler", "flamingpy/noise/cv.py:CVLayer.measure_hom", "flamingpy/decoders/decoder.py:assign_weights"]}
{"id": "C65", "title": "Error counts of CV simulations without swap-outs", "statement": "In ec_monte_carlo with a CVLayer (initial order, no p_swap), the second, fourth, ... trial of every process succeeds whatever the noise, so a single process counts at most ceil(trials/2) errors; with independent normal deviates and uniform weights the number of errors is binomially distributed with the failure probability of one noisy trial and the number of trials that are first, third, ... of their process. (The reported rate is thus half of the failure probability.)", "quantifier": "all codes, libraries, numbers of trials and processes, random numbers, weight options", "why_tests_cant": "a history property over unboundedly many trials and a statement about expectations", "anchors": ["flamingpy/simulations.py:ec_monte_carlo", "flamingpy/noise/cv.py:CVLayer._generate_gkp_indices"]}
{"id": "C66", "title": "The lemon matching backend", "statement": "min_weight_matching (backend='lemon') returns a perfect matching made of edges of the graph whenever the graph has a perfect matching of total weight below 2^62, and no perfect matching is lighter by more than the relative precision of single-precision numbers; for integer weights, if some perfect matching weighs less than 2^24, it has least weight. Hence mwpm_decoder(backend='lemon') clears every syndrome, returns (almost) a least-weight recovery, and for integer weights with (largest weight) x (number of qubits) < 2^24 behaves like the other backends, so that it corrects every error below half the distance. (Beyond 2^24 integer weights are rounded and the matching need not have least weight.)", "quantifier": "all weighted graphs and node orders, all codes, boundaries, stabilizer-graph backends, weights and errors; any implementation of LEMON's maximum-weight perfect matching", "why_tests_cant": "all graphs and weights; rounding to 24 bits only shows for large or close weights", "anchors": ["flamingpy/decoders/mwpm/lemon.py:min_weight_matching", "flamingpy/cpp/lemonpy.cpp:mwpm", "flamingpy/cpp/lemonpy.cpp:py_mwpm", "flamingpy/decoders/mwpm/matching.py:LemonMatchingGraph", "flamingpy/decoders/mwpm/algos.py:mwpm_decoder"]}
{"id": "C67", "title": "The law of swap-outs", "statement": "With swap-out probability p (and a generator that behaves as documented), every call of CVLayer.populate_states labels every node 'p' with probability p and 'GKP' otherwise, independently of the other nodes and whatever happened before. The index lists that noise generation uses deviate from these labels: after the n-th call a node is labelled GKP and yet in neither list (so that it gets no noise) with probability (1-p)((1-p)+(p-1)^n)/(2-p), independently of the others; this is 0 at the first call, (1-p)^2 at the second and tends to (1-p)^2/(2-p).", "quantifier": "all graphs, swap-out probabilities, numbers of populate_states calls with any measurements and inner decodings between them", "why_tests_cant": "a statement about probability distributions and unboundedly long histories", "anchors": ["flamingpy/noise/cv.py:CVLayer.populate_states", "flamingpy/noise/cv.py:CVLayer._generate_squeezed_indices", "flamingpy/noise/cv.py:CVLayer._generate_gkp_indices"]}
{"id": "C68", "title": "Error counts of CV simulations with swap-outs", "statement": "In ec_monte_carlo with a CVLayer (initial order, swap-out probability p) and uniform weights, the expected number of errors is the sum over the trials of the failure probability of a trial in which every mode is, independently, squeezed with probability p, a noisy GKP state with probability g = (1-p)(1-(p-1)^k)/(2-p) for the k-th trial of a process, and noiseless otherwise. (Only for the first trial of every process g = 1-p, as intended.)", "quantifier": "all codes, libraries, decoders, numbers of trials and processes, swap-out probabilities, squeezing", "why_tests_cant": "a statement about expectations over unboundedly many trials with a history", "anchors": ["flamingpy/simulations.py:ec_monte_carlo", "flamingpy/noise/cv.py:CVLayer.apply_noise", "flamingpy/noise/cv.py:CVLayer.populate_states"]}
{"id": "C69", "title": "How often macronode noise flips a bit, and what p_phase_cond says about it", "statement": "For CVMacroLayer on a surface code, compare apply_noise with the run with the same states and means and no displacements (whose bits violate no stabilizer): with independent standard normal deviates, the reduced bit of a macronode whose neighbours all contain a GKP state differs from the noiseless one with probability (1-(1-2f((2+m)delta))(1-2f(delta))^g)/2, where m is the number of neighbouring micronodes in momentum states, g the number of neighbouring GKP micronodes that are not stars, f(v) the probability that Gaussian noise of variance v changes a bin. The conditional probability given the fractional parts of the outcome and of the GKP neighbours' contributions is the analogous product of conditional probabilities, p_phase_cond reports the sum of the conditional probabilities over the outcome and all GKP neighbours (clipped at 1/2, up to truncation), and that sum is an upper bound of the conditional flip probability. Without swap-outs the conditions hold by themselves with m=0.", "quantifier": "all codes, lattice sizes, squeezing, states, swap-outs, earlier calls, macronodes, measurable sets of fractional parts", "why_tests_cant": "a statement about probabilities and conditional distributions for all sizes and histories", "anchors": ["flamingpy/noise/cv.py:CVMacroLayer.apply_noise", "flamingpy/noise/cv.py:CVMacroLayer._reduce_jth_macronode", "flamingpy/cv/gkp.py:Z_err_cond"]}
{"id": "C70", "title": "The integer indices behind the rustworkx graph classes are invisible", "statement": "RxStabilizerGraph (the default of SurfaceCode) and RxMatchingGraph (the default of mwpm_decoder) store nodes as integers and translate at every call. On a surface code the constructor succeeds and nodes, edges, edge_data, neighbors and out_edges are those of the graph itself, every edge once; after any number of assign_weights calls the shortest-path methods return, for every node, a shortest path (in the graph without nodes 0 and 1, i.e. without the connectors, for shortest_paths_without_high_low) and the sum of its truncated weights, and nothing for unreachable nodes; mwpm_decoder computes what it would compute without indices, so that its recovery leaves no stabilizer odd. More generally, for any sequence of add_node and add_edge calls that adds no node twice and joins only nodes already there, all calls succeed and the queries return nodes and edges in the order they were added; an edge to an unknown node is a KeyError; adding a node a second time hides its edges.", "quantifier": "all codes, choices of common vertices, earlier and last weights (non-negative at the end), bit patterns, shortest-path and matching routines over integers that meet their documentation; all sequences of add_node and add_edge", "why_tests_cant": "an agreement of two data representations over all graphs, histories and library tie-breaks", "anchors": ["flamingpy/codes/graphs/stabilizer_graph.py:RxStabilizerGraph", "flamingpy/decoders/mwpm/matching.py:RxMatchingGraph", "flamingpy/decoders/mwpm/algos.py:mwpm_decoder"]}
{"id": "C71", "title": "Geometry of stabilizers", "statement": "Every stabilizer of a surface code has xlims, ylims, zlims reaching exactly one step to either side of its midpoint; the midpoint is an integer point, odd in all coordinates for primal and even for dual codes; the qubits of the stabilizer are exactly the nodes of the code graph next to the midpoint (across the seam for periodic axes); different stabilizers have different midpoints.", "quantifier": "all codes (distances, boundaries, primal and dual), all stabilizers", "why_tests_cant": "holds for every distance and every stabilizer", "anchors": ["flamingpy/codes/stabilizer.py:Stabilizer.midpoint", "flamingpy/codes/stabilizer.py:Stabilizer.xlims", "flamingpy/codes/surface_code.py:SurfaceCode.identify_stabilizers"]}
{"id": "C72", "title": "Parts, conversions and totals of decoder graphs", "statement": "For the stabilizer graph of a code, bound_points are the boundary points, has_bound_points holds exactly for open boundaries, real_nodes are all nodes but the connectors, real_edges are exactly the edges standing for a qubit. to_nx of an RxStabilizerGraph has the same edges with the same common vertices and weights (after any calls of add_node, add_edge, assign_weights); for the graph of a code also the same nodes; it never has stabilizers or boundary points. to_nx of an RxMatchingGraph has the same edges with the weight and path last given; virtual points are lost. total_weight_of is the sum of the weights last given, equal in both classes, an error for pairs never joined; no matching as large as the one min_weight_perfect_matching returns has a smaller total.", "quantifier": "all codes; all sequences of add_node, add_edge and assign_weights calls; all lists of pairs; all matching routines", "why_tests_cant": "histories of calls of any length and codes of any size", "anchors": ["flamingpy/codes/graphs/stabilizer_graph.py:SurfaceCodeStabilizerGraph.to_nx", "flamingpy/codes/graphs/stabilizer_graph.py:real_nodes, real_edges, bound_points, has_bound_points", "flamingpy/decoders/mwpm/matching.py:RxMatchingGraph.to_nx", "flamingpy/decoders/mwpm/matching.py:MatchingGraph.total_weight_of"]}
{"id": "C73", "title": "Simulations running at the same time with the same results file", "statement": "Several run_ec_simulation calls in different processes write to the same file. If the file exists beforehand, then under every schedule, with processes killed anywhere and buffers flushed in any pieces, the old text stays in place and is followed by the pieces, one after the other; each simulation that closed the file has written its whole row. If every text is flushed at once (less than Python's buffer) the new text consists of whole rows, each once, so that the lines of the file are the header, the old rows and the new rows. If the file does not exist beforehand, one simulation creates it and the final file starts with that simulation's header and row, followed by the rows flushed later; of rows flushed earlier only what is longer than the creator's text survives, so a row can vanish without trace (mode 'x' does not append).", "quantifier": "all schedules of any number of processes, all crash points, all splittings of the text, all arguments", "why_tests_cant": "interleavings and crash points of separate processes cannot be enumerated or reproduced by tests", "anchors": ["flamingpy/simulations.py:run_ec_simulation"]}
{"id": "C74", "title": "Simulations with a CVMacroLayer are independent of history and unbiased", "statement": "For a CVMacroLayer on any code, both decoders (MWPM, UF) and weights method 'uniform': (1) the verdict of a trial equals the verdict which the same random numbers give with a freshly constructed layer, however often the layer was used before, and does not depend on the bits drawn for the GKP states. (2) The number of errors which a Monte-Carlo simulation with any number of ranks reports is the number of its trials that would fail in a simulation of one trial with a new layer. (3) If the random numbers of different apply_noise calls are independent and identically distributed, the number of errors is binomial with the failure probability of a single trial; if they are only identically distributed, the rate is still unbiased. (4) Without swap-outs, if d is the shortest checked direction, n the number of syndrome qubits and m=ceil(d/2), the failure probability p satisfies m p <= n (2 exp(-pi/(16 delta)) + 8 exp(-pi/(8 delta))).", "quantifier": "all codes, delta, swap-out probabilities, histories of the layer, numbers of trials and ranks, laws of the random numbers", "why_tests_cant": "a test sees a sample of random numbers and a few histories; a law of outcomes and independence of an unbounded history cannot be sampled", "anchors": ["flamingpy/noise/cv.py:CVMacroLayer", "flamingpy/simulations.py:ec_monte_carlo", "flamingpy/decoders/decoder.py:correct"]}
{"id": "C75", "title": "Seeds of simulations and repeated simulations", "statement": "(1) int_time is different for processes importing the module at different microseconds. (2) The seeds of the MPI ranks are different if all ranks have the same int_time; in general ranks r, r' have the same seed exactly if their int_times differ by r'-r, and then their k-th trials have the same verdict. (3) If all seeds differ (and differently seeded generators are independent), the number of errors with IidNoise is binomial; if the second of two ranks has an int_time smaller by one, it is twice a binomial number of half the trials, hence even. (4) Calls of run_ec_simulation with the same arguments in one process write rows with the same number of errors: they are not independent samples. (5) The script accepts the documented decoder names in any case and passes on a name that correct accepts.", "quantifier": "all start times, ranks, arguments, sequences of calls, generators", "why_tests_cant": "start times of processes cannot be controlled by tests, and laws of counts cannot be sampled exactly", "anchors": ["flamingpy/simulations.py:int_time", "flamingpy/simulations.py:ec_monte_carlo", "flamingpy/simulations.py:run_ec_simulation", "flamingpy/simulations.py:__main__"]}
{"id": "C76", "title": "Below a threshold, larger codes fail less often", "statement": "With the MWPM decoder and unit weights: (1) if correct returns False there is a chain of distinct syndrome qubits, consecutive ones in a common stabilizer, at least as long as the code in a checked direction, of which at least half are flipped. (2) With IidNoise of probability p < 1/100 the failure probability of a code of size d with n syndrome qubits is at most (2n/5) (10 sqrt p)^d / (1 - 10 sqrt p). (3) Hence for p < 1/100 the failure probability, and the expected error rate of a simulation, go to zero as the code grows. (4) For p = 1/2 both decoders fail at least half of the time at any size, so that a threshold lies between.", "quantifier": "all codes, sizes, error probabilities, sets of flipped qubits, earlier weights, numbers of trials and ranks, optimal matchings and shortest paths", "why_tests_cant": "simulations estimate error rates of a few sizes; the limit ranges over all sizes and small failure probabilities cannot be sampled", "anchors": ["flamingpy/decoders/decoder.py:correct", "flamingpy/decoders/mwpm/algos.py:mwpm_decoder", "flamingpy/codes/surface_code.py:SurfaceCode", "flamingpy/noise/iid.py:IidNoise.apply_noise", "flamingpy/simulations.py:ec_monte_carlo"]}
{"id": "C77", "title": "A threshold for the noise of a CVLayer", "statement": "For a CVLayer without swap-outs on a code with edge weights 1 and -1, in the initial sampling order: (1) the bits of m given syndrome qubits are all flipped by the first apply_noise with a probability of at most (4 sqrt 2 exp(-pi / (136 delta)))^m, although bits of nearby qubits are correlated. (2) Hence, if this rate c is below 1/100 (e.g. delta <= 1/310), the failure probability of the MWPM decoder with unit weights is at most (2n/5) (10 sqrt c)^d / (1 - 10 sqrt c) for a code of size d with n syndrome qubits, and goes to zero as the code grows; so does the expected error rate of simulations, for any number of trials and ranks.", "quantifier": "all codes, sizes, sets of qubits, noise parameters, numbers of trials and ranks, matchings", "why_tests_cant": "laws of correlated normal numbers and limits over all sizes cannot be sampled", "anchors": ["flamingpy/noise/cv.py:CVLayer.apply_noise", "flamingpy/noise/cv.py:CVLayer.measure_hom", "flamingpy/cv/gkp.py:GKP_binner", "flamingpy/decoders/decoder.py:correct", "flamingpy/simulations.py:ec_monte_carlo"]}
{"id": "C78", "title": "A threshold for the noise and the swap-outs of a CVMacroLayer", "statement": "For a CVMacroLayer with swap-out probability p on any code, with any polarity of values 1 and -1, with a generator that behaves as documented (binomial and choice for the squeezed modes, normal deviates independent of them; any values for the positions of the states): with c = 64 sqrt 2 exp(-pi / (64 delta)) + 4 p, if c is below 1/100 (e.g. delta <= 1/205 and p <= 1/1000), the failure probability of a trial with the MWPM decoder and unit weights is at most (2n/5) (10 sqrt c)^d / (1 - 10 sqrt c) for a code of size d with n syndrome qubits. Hence it goes to zero as the code grows, and so does the expected error rate of simulations, for any number of trials and ranks.", "quantifier": "all codes, sizes, noise parameters, swap-out probabilities, laws of the unused random numbers, numbers of trials and ranks, matchings", "why_tests_cant": "laws of correlated bits and limits over all sizes cannot be sampled", "anchors": ["flamingpy/noise/cv.py:CVMacroLayer.apply_noise", "flamingpy/noise/cv.py:CVMacroLayer._reduce_macronode", "flamingpy/noise/cv.py:CVLayer.populate_states", "flamingpy/decoders/decoder.py:correct", "flamingpy/simulations.py:ec_monte_carlo"]}
{"id": "C79", "title": "A threshold for the noise and the swap-outs of a CVLayer", "statement": "For a CVLayer in the initial sampling order with swap-out probability p on any code with edge weights 1 or -1, with a generator that behaves as documented: with c = 4 sqrt 2 exp(-pi / (136 delta)) + 4 p^(1/4), if c is below 1/100 (e.g. delta <= 1/360 and p <= 10^-11), the failure probability of a trial with the MWPM decoder and unit weights is at most (2n/5) (10 sqrt c)^d / (1 - 10 sqrt c) for a code of size d with n syndrome qubits, at every trial of a simulation (also where earlier swap-outs leave modes without noise). Hence it goes to zero as the code grows, and so does the expected error rate of simulations, for any number of trials and ranks.", "quantifier": "all codes, sizes, noise parameters, swap-out probabilities, numbers of trials and ranks, matchings", "why_tests_cant": "laws of correlated bits and limits over all sizes cannot be sampled", "anchors": ["flamingpy/noise/cv.py:CVLayer.apply_noise", "flamingpy/noise/cv.py:CVLayer.populate_states", "flamingpy/decoders/decoder.py:correct", "flamingpy/simulations.py:ec_monte_carlo"]}
{"id": "C80", "title": "Drawing does not interfere with decoding", "statement": "Drawing the decoder graphs (the draw option of correct) is an observation: any sequence of decoder calls on one code, some of them drawn, returns what each call returns alone without drawing. This holds with the rustworkx backend, without open boundaries, and for Union-Find; with the networkx backend and open boundaries the drawing removes the connectors from the decoder's own graph, and every later MWPM call with a non-trivial syndrome raises.", "quantifier": "all codes, backends, sequences of calls of any length with any weights and outcomes, any subset of them drawn", "why_tests_cant": "tests draw at most once and never decode again on the same graph; the property is about histories", "anchors": ["flamingpy/utils/viz.py:draw_dec_graph", "flamingpy/utils/viz.py:draw_decoding", "flamingpy/decoders/mwpm/algos.py:mwpm_decoder", "flamingpy/decoders/unionfind/algos.py:uf_decoder", "flamingpy/decoders/decoder.py:correct"]}
{"id": "C81", "title": "Axis ticks and labels", "statement": "to_pi_string labels every number within 1e-8 of an integer multiple n of sqrt(pi)/2 with that multiple, written as a reduced fraction (0, \\sqrt{\\pi}, -\\sqrt{\\pi}, 3\\sqrt{\\pi}/2, ...), and prints every other number as a decimal; labels of different multiples differ. The ticks of the GKP plots are the consecutive multiples of alpha from the last one at or below the first value to the first one above the last value, so all values lie between the outer ticks, and with alpha = sqrt(pi) all ticks have different, exact labels.", "quantifier": "all real numbers, all ranges of values, all multiples, with and without LaTeX", "why_tests_cant": "unboundedly many multiples and ranges; boundary cases are measure-zero sets", "anchors": ["flamingpy/utils/viz.py:to_pi_string", "flamingpy/utils/viz.py:plot_integer_part", "flamingpy/utils/viz.py:plot_fractional_part", "flamingpy/utils/viz.py:plot_GKP_bins"]}
{"id": "C82", "title": "The syndrome plot", "statement": "syndrome_plot shows one voxel for each stabilizer of any code: the box of half side 0.85 around its midpoint, red if the parity of the stabilizer is odd and green if it is even; voxels of different stabilizers never overlap. The polygons of a voxel are the six faces of the box, each exactly once and traversed along its sides, and all six have the colour of the voxel.", "quantifier": "all codes (sizes, boundaries, error complexes), all bit values", "why_tests_cant": "all sizes and all syndromes; wrap-around stabilizers", "anchors": ["flamingpy/utils/viz.py:syndrome_plot", "flamingpy/utils/viz.py:_cuboid_data", "flamingpy/utils/viz.py:_plot_cubes_at"]}
{"id": "C83", "title": "The drawn decoder graphs and their labels", "statement": "The drawing of the stabilizer graph shows each stabilizer and each boundary point once and exactly the edges that stand for a qubit, each once with the weight of its qubit, for both backends. The node labels are the positions of the stabilizers continued by the boundary points, and virtual nodes of the matching graph carry the label of their boundary point. The labels only hold for the first drawing with the networkx backend: afterwards the first two stabilizers have no label and all others are off by two.", "quantifier": "all codes, both backends, all weights and outcomes, first and later drawings", "why_tests_cant": "tests only check that the drawing functions run", "anchors": ["flamingpy/utils/viz.py:draw_dec_graph", "flamingpy/utils/viz.py:draw_decoding", "flamingpy/decoders/mwpm/algos.py:mwpm_decoder"]}
{"id": "C84", "title": "Titles, hover texts, colours and messages of graph drawings", "statement": "The title of a graph drawing is the given string, or for True the plain-English name of the label (the labels joined by commas if there are several), and otherwise there is none. The hover text of a node lists the node and the requested attributes that have a value, in order. Nodes and edges get the colour named by the argument, the dictionary or their own attribute, or the default. All nodes are drawn, those with a value are labelled, and the message counts the others. Exceptions in the code: a string title is ignored with several labels, an empty label list and other true titles raise; information=None raises; without index dictionaries 'all' and every name containing 'index' raise; without a title a missing value raises; an edge value outside the dictionary gets no colour.", "quantifier": "all titles, labels, attributes, attribute values and colour arguments", "why_tests_cant": "tests use a handful of argument combinations and do not look at texts", "anchors": ["flamingpy/utils/viz.py:_get_title", "flamingpy/utils/viz.py:_get_node_info", "flamingpy/utils/viz.py:_plot_EGraph_nodes", "flamingpy/utils/viz.py:_get_node_color", "flamingpy/utils/viz.py:_get_edge_color"]}
{"id": "C85", "title": "A threshold for the Union-Find decoder", "statement": "Call a syndrome qubit bad if it is flipped or erased (two or more p-squeezed neighbours). For a code with n syndrome qubits whose size in the checked directions is at least 2^((k^2+15k)/2+1) + 8 there are at most n 2^(65 2^k) sets of 2^k syndrome qubits such that correct with the UF decoder makes a logical error only if all qubits of one of the sets are bad, whatever the states, weights and iteration orders are. So under every noise for which any m given qubits are all bad with a probability of at most r^m, the failure probability is at most n (2^65 r)^(2^k); if qubits are flipped independently with a probability below 2^-65 it goes to zero as the code grows, and so does the expected error rate of simulations.", "quantifier": "all codes, sizes, error patterns, erasures, noise laws with the stated property, iteration orders, numbers of trials and ranks", "why_tests_cant": "a limit over all sizes of the code and a bound for all error patterns", "anchors": ["flamingpy/decoders/unionfind/algos.py:uf_decoder", "flamingpy/decoders/unionfind/algos.py:union_find", "flamingpy/decoders/decoder.py:correct", "flamingpy/simulations.py:ec_monte_carlo"]}
{"id": "C86", "title": "Thresholds of Union-Find for the noise and the swap-outs of CV layers", "statement": "For the UF decoder with unit weights on a code as in C85: with a CVLayer without swap-outs the failure probability of a trial is at most n (2^65 c)^(2^k) with c = 4 sqrt 2 exp(-pi / (136 delta)); with swap-out probability p the same holds with c = 4 sqrt 2 exp(-pi / (136 delta)) + 4 p^(1/4); with a CVMacroLayer the same holds with c = 64 sqrt 2 exp(-pi / (64 delta)) + 4 p (p < 1). If 2^65 c < 1 (e.g. delta <= 1/2200 and p <= 2^-280, or delta <= 1/1100 and p <= 2^-68 for macronodes) the failure probability and the expected error rate of simulations go to zero as the code grows, for any number of trials and ranks.", "quantifier": "all codes, sizes, noise parameters, swap-out probabilities, numbers of trials and ranks, iteration orders", "why_tests_cant": "laws of correlated bits and erasures, and limits over all sizes, cannot be sampled", "anchors": ["flamingpy/noise/cv.py:CVLayer.apply_noise", "flamingpy/noise/cv.py:CVMacroLayer.apply_noise", "flamingpy/decoders/unionfind/algos.py:uf_decoder", "flamingpy/simulations.py:ec_monte_carlo"]}
{"id": "C87", "title": "Z_err_cond on arrays and undefined probabilities", "statement": "Z_err_cond applied to arrays of variances and outcomes returns the array of the values for their entries; a value that is undefined because every term of the denominator underflows is replaced by replace_undefined or, for 'bin_location', by a number between 0 in the centre of a bin and 1/2 between bins. This holds for arrays of the same size and for one outcome with many variances, when replace_undefined is a number, and whenever no denominator vanishes. It fails otherwise: for scalars 'bin_location' returns the string; for two arrays of which some but not all denominators vanish it raises; with use_hom_val the replacement is unbounded; one variance with many outcomes always raises or returns a single number.", "quantifier": "all variances and outcomes, array sizes, numbers of terms, exponential functions that may vanish, contents of uninitialised memory", "why_tests_cant": "all array sizes and all patterns of underflow", "anchors": ["flamingpy/cv/gkp.py:Z_err_cond"]}
{"id": "C88", "title": "Which arguments RHG_graph accepts", "statement": "RHG_graph returns the RHG lattice of the requested sizes and boundaries for every size argument that is an int or a sequence of three integers and every boundary argument that is a documented name or a NumPy array of three types, and otherwise raises (TypeError, ValueError or KeyError as the case may be), with these exceptions: a Python list or tuple of three types, which the docstring offers, always raises AttributeError; an array with a single type is accepted, but 'dual' and 'periodic' then apply to the first axis only and the other two axes are primal and one unit longer; and sizes of at most 0 (1 on a primal axis) give an empty graph instead of an error.", "quantifier": "all size and boundary arguments, polarities and iteration orders of sets", "why_tests_cant": "unboundedly many argument values and lattices", "anchors": ["flamingpy/codes/surface_code.py:RHG_graph", "flamingpy/codes/surface_code.py:str_to_bound"]}
{"id": "C89", "title": "CVLayer on an EGraph given directly", "statement": "CVLayer(egraph, delta=...), offered by the docstring, accepts every non-empty graph whose adjacency matrix can be generated (rejecting only a swap-out probability together with p-squeezed indices); its modes are the nodes in sorted order, SCZ() is the CZ matrix of the edge weights, and populate_states followed by measure_hom records SCZ() times independent noise (none in ideal modes), which hom_outcomes() returns in index order, leaving the other quadrature and bit_values() alone. apply_noise, measure_syndrome and inner_decoder, however, always raise on such a layer, the first after labelling every node. Qubits added to the graph later are ignored by the layer; after a removal the first populate_states and everything touching the removed mode raises; a layer made from a graph with a matrix of another size (left by a rejected add_qubit) cannot measure.", "quantifier": "all graphs and histories of edits, ideal points, parameters, random numbers and requested modes", "why_tests_cant": "unboundedly many graphs, edit histories and samples", "anchors": ["flamingpy/noise/cv.py:CVLayer.__init__", "flamingpy/noise/cv.py:CVLayer.apply_noise", "flamingpy/noise/cv.py:CVLayer.measure_hom", "flamingpy/noise/cv.py:CVLayer.hom_outcomes", "flamingpy/noise/cv.py:CVLayer.SCZ"]}
{"id": "C90", "title": "The recovery drawing shows the recovery", "statement": "With show_recovery, the drawing of an MWPM recovery has exactly one line for each matched pair that is not virtual-virtual, from the place of one node of the pair (the midpoint of a stabilizer, the boundary point of a virtual node) to the place of the other; a marker for each boundary point on the lines; each straight piece of a line stands for one qubit on it, and the recovery returned by the decoder flips exactly the qubits passed an odd number of times. The drawing of a union-find recovery marks exactly the qubits of the recovery, once each. For open codes this needs positive weights: with zero weights a shortest path may pass a connector ('low' or 'high'), and the drawing then raises although decoding succeeds.", "quantifier": "all codes (sizes, boundaries, error complexes), both backends, all outcomes, all non-negative weights (positive for open codes, integer for rustworkx), all correct shortest-path and matching routines", "why_tests_cant": "all sizes, syndromes, weights and library choices; the exceptional case depends on how the library breaks ties", "anchors": ["flamingpy/utils/viz.py:add_recovery_drawing", "flamingpy/utils/viz.py:draw_decoding", "flamingpy/decoders/mwpm/algos.py:mwpm_decoder", "flamingpy/decoders/unionfind/algos.py:uf_decoder"]}
{"id": "C91", "title": "Positions, ticks and limits of graph drawings", "statement": "A plotly drawing of an EGraph shows each node, in order, at its coordinates, and its edge trace has exactly the edges as straight pieces; a matplotlib drawing shows nodes and both ends of edges at the coordinates that the labels of the axes say; by default its ticks on each axis are exactly the integers from the largest one below all nodes to the smallest one above all nodes, and its limits are those (one more on each side when they coincide), so that all nodes are inside; given dimensions are used as they are. A graph without nodes raises. The syndrome plot should show qubits on the voxels of their stabilizers and all voxels within its limits: the second holds for primal codes and fails for every dual code, the first fails (refuted).", "quantifier": "all lists of nodes and edges with rational coordinates, all dimensions; all codes", "why_tests_cant": "all graphs and sizes", "anchors": ["flamingpy/utils/viz.py:draw_EGraph_matplotlib", "flamingpy/utils/viz.py:draw_EGraph_plotly", "flamingpy/utils/viz.py:_plot_EGraph_edges", "flamingpy/utils/viz.py:_plot_EGraph_nodes", "flamingpy/utils/viz.py:syndrome_plot"]}
{"id": "C92", "title": "Local-Clifford equivalence of signed graphs", "statement": "are_lc_equivalent works on the integers of the adjacency matrices with an integer-truncated division, yet for graphs whose edge weights are +1 or -1 (and 0 for no edge) its answer, and the operations it returns reduced modulo two, are exactly those for the binary graphs of the weights modulo two; the returned operations have entries 0 and 1, have determinant one and map the stabilizer group of the first graph state onto that of the second. For other odd weights (for instance 3, the same gate as 1) a positive answer can be wrong.", "quantifier": "all symmetric adjacency matrices of any size with entries in {-1,0,1}, both forms of the output", "why_tests_cant": "the row reduction runs over the integers with division and Python remainders; the agreement with the field of two elements has to hold at every step of every reduction, for graphs of any size.", "anchors": ["flamingpy/utils/linalg.py:reduce_RREform_mod2", "flamingpy/utils/linalg.py:lc_constraint_system", "flamingpy/utils/linalg.py:nullspace_basis", "flamingpy/utils/linalg.py:search_nullspace", "flamingpy/utils/linalg.py:are_lc_equivalent"]}
{"id": "C93", "title": "Peeling and Python's recursion limit", "statement": "trim_forest calls itself once per edge of a stalk. With L nested calls possible, peeling returns its result on every forest none of whose trails is longer than L, and uf_decoder does so on every code whose stabilizer graph has at most L+1 nodes, for all weights and syndromes; on a path of more than L edges peeling raises RecursionError whatever the parities.", "quantifier": "all limits, forests, parities, stabilizer graphs, weights, bit values, and choices of the graph library", "why_tests_cant": "the depth of the recursion depends on the shape of the forest that the random syndrome and erasures produce; tests run small codes, far from the limit.", "anchors": ["flamingpy/decoders/unionfind/algos.py:trim_forest", "flamingpy/decoders/unionfind/algos.py:peeling", "flamingpy/decoders/unionfind/algos.py:uf_decoder"]}
{"id": "C94", "title": "Copies of graphs are independent", "statement": "In a program with any number of EGraph objects, whose macronode dictionaries are distinct objects and which makes copies with copy() or EGraph(egraph), every object is at every time in the state it would be in if the methods called on it had been called on it alone. A copy has the nodes and edges of the original, no macronodes and no indices. EGraph(egraph, macronodes=True), however, shares the dictionary of macronodes with the original: editing one breaks the indices and the adjacency matrix of the other.", "quantifier": "all programs: any interleaving of add_qubit, remove_qubit, index_generator and adj_generator with all arguments on all objects, and of making copies", "why_tests_cant": "interference between objects shows only in particular interleavings of edits and getters on several objects; the number of histories is infinite.", "anchors": ["flamingpy/codes/graphs/egraph.py:EGraph.__init__", "flamingpy/codes/graphs/egraph.py:EGraph.add_qubit", "flamingpy/codes/graphs/egraph.py:EGraph.remove_qubit", "flamingpy/codes/graphs/egraph.py:EGraph.index_generator", "flamingpy/codes/graphs/egraph.py:EGraph.adj_generator"]}
{"id": "C95", "title": "macronize preserves node and edge attributes", "statement": "macronize gives every micronode, those of the padding included, exactly the attributes of the node of the canonical graph whose macronode it belongs to, and every edge of the result exactly the attributes of the edge of the canonical graph it comes from (so weight, polarity, periodic, type survive); attributes never change which graph is made.", "quantifier": "all lattice graphs, displacements in (0, 0.49], padded or not, and arbitrary attribute dictionaries on nodes and edges", "why_tests_cant": "node and edge sets and attribute dictionaries are unbounded; attributes are merged on repeated add_node calls, so preservation depends on all micronodes being distinct", "anchors": ["flamingpy/codes/graphs/egraph.py: macronize"]}
{"id": "C96", "title": "Logical classes, and noise that carries no information", "statement": "For every code with k checked directions there are 2^k patterns with trivial syndrome such that, for any errors, any valid decoder and weights and whatever the libraries choose, correct accepts the errors plus exactly one of the patterns: decoders cannot tell the classes apart and never accept two. Hence with error probability 1/2 correct returns False with probability exactly 1 - 2^-k (open boundaries 1/2, toric 3/4, periodic 7/8) for codes of every size, and simulations with IidNoise(code, 0.5) report trials * (1 - 2^-k) errors on average.", "quantifier": "all codes, sizes, boundaries, decoders, weights, library choices, error patterns, numbers of trials and ranks", "why_tests_cant": "a statement about all 2^N patterns of codes of every size; sampling only estimates it", "anchors": ["flamingpy/decoders/decoder.py: correct", "flamingpy/decoders/decoder.py: check_correction", "flamingpy/noise/iid.py: IidNoise", "flamingpy/simulations.py: ec_monte_carlo"]}
{"id": "C97", "title": "Union-Find on pure erasures", "statement": "If every flipped qubit is erased (at least two of its neighbours are p-squeezed) and no boundary qubit is erased, which always holds for codes without open boundaries, then correct with the Union-Find decoder flips erased qubits only. It succeeds on every pattern of flipped erased qubits exactly when no pattern of erased qubits is a logical operator, in particular whenever each checked direction has a plane without erased qubits, however many qubits are erased. No decoder that sees only the stabilizer parities corrects more patterns of erased qubits (Union-Find is a maximum-likelihood decoder for erasures). On codes with open boundaries this can fail: flipping a line of qubits across the code except one qubit in its interior, with exactly the flipped qubits erased, is not corrected although no pattern of erased qubits is a logical operator.", "quantifier": "all codes whose periodic axes have size at least three, all sets of erased qubits, all error patterns on them, all decoders of the syndrome, all orders of iteration and choices of the libraries; for the failure all codes with open boundaries and size at least three along the checked axis", "why_tests_cant": "the number of erasure patterns and of error patterns on them is exponential in the size of the code, the comparison is with all possible decoders, and the result must not depend on set iteration orders", "anchors": ["flamingpy/decoders/unionfind/algos.py: initialize_cluster_trees, union_find, obtain_spanning_forest, peeling, uf_decode", "flamingpy/decoders/decoder.py: correct, check_correction, assign_weights"]}
{"id": "C98", "title": "Erasure noise: exact success rate of Union-Find and a threshold", "statement": "On codes without open boundaries, among the 2^n flip patterns of n erased qubits correct with the Union-Find decoder accepts exactly one in c, where c counts the logical classes (the sets of checked directions crossed oddly) of trivial-syndrome patterns of erased qubits; c is 1 exactly when no pattern of erased qubits is a logical operator, always a power of two, and 2^k when everything is erased (k the number of checked directions). If every qubit is erased independently with probability q and erased qubits are flipped with probability 1/2, the failure probability is therefore at least half the probability that a logical operator is erased and at most 1 - 1/2^k times it. If q < 1/5, the failure probability, and even the probability that some flip pattern of the erased qubits is not corrected, goes to zero as the code grows.", "quantifier": "all codes without open boundaries whose periodic axes have size at least three, all sets of erased qubits, all q, all sizes d <= size <= m*d, all orders of iteration and choices of the libraries", "why_tests_cant": "a count over exponentially many patterns, exact probabilities, and a limit of infinitely many code sizes", "anchors": ["flamingpy/decoders/unionfind/algos.py: uf_decode, initialize_cluster_trees, peeling", "flamingpy/decoders/decoder.py: correct, check_correction"]}
{"id": "C99", "title": "Union-Find and the swap-outs of a CVLayer", "statement": "With the UF decoder and uniform weights on a code without open boundaries (periodic lengths at least 3): bits that equal the noiseless outcomes of arbitrary values of the nodes on every qubit with fewer than two p-squeezed neighbours, and are arbitrary on the others, are always corrected if and only if no logical operator is supported on the qubits with two or more p-squeezed neighbours; so a qubit with exactly one p-squeezed neighbour costs nothing. For a CVLayer with edge weights 1 or -1 and swap-out probability p, at every trial of a simulation, the failure probability is at most the probability that such a logical operator exists plus 14 N delta^(1/4) (N the number of modes). If p < 1/900 the former is at most (2n/5) (30 sqrt p)^d / (1 - 30 sqrt p) for a code of size d with n syndrome qubits; hence the failure probability and the mean error rate of simulations are as small as desired for large enough codes and small enough delta.", "quantifier": "all codes without open boundaries, sizes, patterns of swap-outs, node values, noise parameters, swap-out probabilities, trials, ranks, iteration orders", "why_tests_cant": "laws of correlated bits and erasures, and limits over all sizes and noise parameters, cannot be sampled", "anchors": ["flamingpy/decoders/unionfind/algos.py:uf_decoder", "flamingpy/decoders/decoder.py:assign_weights", "flamingpy/decoders/decoder.py:correct", "flamingpy/noise/cv.py:CVLayer.apply_noise", "flamingpy/simulations.py:ec_monte_carlo"]}
{"id": "C100", "title": "Thresholds for swap-outs at a noise level that does not depend on the code", "statement": "For a CVLayer with edge weights 1 or -1, swap-out probability p and delta below 10^-4 on any code (all boundaries), uniform weights, and every trial of a simulation: let c = 4 sqrt2 exp(-25/(68 sqrt delta)) + 4 (14 p delta^(1/4))^(1/4) + 6 sqrt p. If c < 1/100, MWPM fails with probability at most (2n/5) (10 sqrt c)^d / (1 - 10 sqrt c) on codes of size d with n syndrome qubits; UF fails with probability at most n (2^65 c)^(2^k) on codes of size 2^((k^2+15k)/2+1)+8. Since c tends to 6 sqrt p for small delta, for every p < 1/360000 (UF: p < (6*2^65)^-2) there is a noise level, the same for all codes, below which large codes, and simulations on them, have failure probability and mean error rate as small as desired.", "quantifier": "all codes, sizes, boundaries, noise parameters, swap-out probabilities, trials, ranks, library choices", "why_tests_cant": "limits over all sizes with correlated continuous noise cannot be sampled", "anchors": ["flamingpy/decoders/mwpm/algos.py:mwpm_decoder", "flamingpy/decoders/unionfind/algos.py:uf_decoder", "flamingpy/decoders/decoder.py:correct", "flamingpy/noise/cv.py:CVLayer.apply_noise", "flamingpy/simulations.py:ec_monte_carlo"]}
{"id": "C101", "title": "Threshold of MWPM with weights computed from the homodyne outcomes", "statement": "For a CVLayer without swap-outs (noise delta, edge weights 1 or -1) on any code whose periodic sizes are at least 3, MWPM with method 'blueprint', weights computed from the outcomes, either rounded to integers with a multiplier at least 1, or (with NetworkX) floats accurate up to 1, and any noise parameter d0 passed to the decoder (it need not be delta): each weight is within 4*multiplier of multiplier*c/((neighbours+1)*d0), where c is pi - 2 sqrt(pi)*|fractional part of the outcome|. If neighbours+1 is at least m for all syndrome qubits and q = 4 sqrt2 exp(-m(pi/20 - 2 d0)/(34 delta)) < 1/5, MWPM fails with probability at most (2n/5)(5q)^d/(1-5q) on codes of size d with n syndrome qubits. For every c < pi/40 there is a noise level of the layer, the same for all codes, multipliers and d0 <= c, below which large codes fail as rarely as desired. The mean number of errors of a simulation in the initial sampling order is the failure probability times the number of first, third, ... trials of the processes.", "quantifier": "all codes, sizes, boundaries, noise parameters of layer and decoder, multipliers, library choices, trials, ranks", "why_tests_cant": "limits over all sizes with continuous noise and weights that depend on it cannot be sampled", "anchors": ["flamingpy/decoders/decoder.py:assign_weights", "flamingpy/cv/gkp.py:Z_err_cond", "flamingpy/decoders/mwpm/algos.py:mwpm_decoder", "flamingpy/noise/cv.py:CVLayer.apply_noise", "flamingpy/simulations.py:ec_monte_carlo"]}
{"id": "C102", "title": "Shifts and reflections of homodyne outcomes", "statement": "Z_err_cond with the fractional part (the default, as used for weights) does not change if a homodyne outcome moves by any multiple of sqrt(pi). GKP_binner gives x and -x the same bit except on bin edges, where it gives them opposite bits. Z_err_cond is not symmetric: an outcome with fractional part in (0, sqrt(pi)/2) gets a strictly larger value than its negative, by a factor of at most 1 + exp(-(N^2-N) pi/var) for N = var_num; at bin centres and bin edges the two values are equal. A shift by n sqrt(pi) changes the bit by n mod 2, and shifts of the stored outcomes by multiples of sqrt(pi) (a different one for each qubit) change neither the weights that assign_weights computes nor whether it raises.", "quantifier": "all outcomes, variances, positive numbers of terms and replacement values", "why_tests_cant": "an identity and a strict inequality over all real outcomes and variances; the asymmetry is below double precision for the default number of terms and small variances", "anchors": ["flamingpy/cv/gkp.py:Z_err_cond", "flamingpy/cv/gkp.py:GKP_binner", "flamingpy/cv/gkp.py:integer_fractional", "flamingpy/decoders/decoder.py:assign_weights"]}
{"id": "C103", "title": "Histories of weight assignments", "statement": "For any history of assign_weights calls on a code, including calls that raise: only syndrome qubits get weights. The weights of all syndrome qubits and of all decoder-graph edges are those of the last effective call (uniform weights, or blueprint weights with MWPM) if it returned, as if it had been the only one, whatever ineffective calls follow. An ineffective call (unknown method, or blueprint with another decoder) keeps all weights; it raises only for Union-Find and is silent otherwise, so a misspelt method leaves old weights in use. After a call that raises, the edges keep their old weights while each node has its old weight or the one of that call. Calling correct with an unknown method after a call with valid options decodes with the weights of that call, as correct with the earlier options and node attributes would.", "quantifier": "all codes, sequences of calls, options, node attributes, traversal orders of the qubit set", "why_tests_cant": "histories of calls and the orders in which a set is traversed are unbounded", "anchors": ["flamingpy/decoders/decoder.py:assign_weights", "flamingpy/codes/graphs/stabilizer_graph.py:StabilizerGraph.assign_weights", "flamingpy/decoders/decoder.py:correct"]}
{"id": "C104", "title": "Lattice shifts of homodyne outcomes and the result of decoding", "statement": "Bin outcomes to bits and decode with correct, with blueprint weights from the outcomes (MWPM) or uniform weights (either decoder). If the outcomes of the qubits move by multiples of sqrt(pi), each by its own, such that every stabilizer contains an even number of qubits moved by an odd multiple, then the same weights are assigned and the same qubits are flipped: the final bits differ exactly on the qubits moved by an odd multiple. The verdict is the same if these qubits are a product of cluster-state symmetries (neighbour sums of vertex values); otherwise the two verdicts are not both True, and with open boundaries they are opposite. Shifts by even multiples change nothing.", "quantifier": "all codes, sizes, boundaries, outcomes, shifts, valid options, library choices, earlier weights", "why_tests_cant": "a symmetry over all real outcomes, all shift patterns and all codes", "anchors": ["flamingpy/decoders/decoder.py:correct", "flamingpy/decoders/decoder.py:assign_weights", "flamingpy/cv/gkp.py:GKP_binner", "flamingpy/cv/gkp.py:Z_err_cond"]}
