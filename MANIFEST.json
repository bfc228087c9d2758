{
 "claims": [
  {
   "property": "C01",
   "status": "proved",
   "theorems": [
    "Flamingpy.Gkp.C01_integer_fractional",
    "Flamingpy.Gkp.C01_integer_fractional_tie"
   ],
   "note": "All reals x, all alpha > 0, exact real arithmetic."
  },
  {
   "property": "C02",
   "status": "proved",
   "theorems": [
    "Flamingpy.Gkp.C02_bins",
    "Flamingpy.Gkp.C02_bit_periodic_flip",
    "Flamingpy.Gkp.C02_return_fraction"
   ],
   "note": "All reals."
  },
  {
   "property": "C03",
   "status": "partial",
   "theorems": [
    "Flamingpy.Gkp.C03_boundary_to_zero_false",
    "Flamingpy.Gkp.C03_boundary_partial"
   ],
   "note": "The docstring claim is false of the code (refuted); the theorem _partial says what the code does on every edge."
  },
  {
   "property": "C04",
   "status": "partial",
   "theorems": [
    "Flamingpy.Gkp.C04_probability",
    "Flamingpy.Gkp.C04_use_hom_val_partial",
    "Flamingpy.Gkp.C04_use_hom_val_false",
    "Flamingpy.Gkp.C04_value",
    "Flamingpy.Gkp.C04_value_use_hom_val"
   ],
   "note": "Proved for the default use_hom_val=False; for use_hom_val=True proved while the bin number is inside the summation window and refuted outside it (15 sqrt(pi), 10 terms)."
  },
  {
   "property": "C05",
   "status": "proved",
   "theorems": [
    "Flamingpy.Gkp.C05_mass",
    "Flamingpy.Gkp.C05_probability",
    "Flamingpy.Gkp.C05_entries"
   ],
   "note": "erf is the mathematical error function (2/sqrt(pi) * integral of exp(-t^2)); exact reals."
  },
  {
   "property": "C06",
   "status": "proved",
   "theorems": [
    "Flamingpy.CvOps.C06_symplectic",
    "Flamingpy.CvOps.C06_symplectic_only_if",
    "Flamingpy.CvOps.C06_compose"
   ],
   "note": "Any commutative ring of weights; necessity of symmetry also proved."
  },
  {
   "property": "C07",
   "status": "proved",
   "theorems": [
    "Flamingpy.CvOps.C07_apply_vector",
    "Flamingpy.CvOps.C07_apply_matrix",
    "Flamingpy.CvOps.C07_one_shot_irrelevant",
    "Flamingpy.CvOps.C07_integers"
   ],
   "note": "Vectors of length 2N and 2N x 2N arrays, any N, any ring; C07_integers: the exception for vectors stored as integers."
  },
  {
   "property": "C08",
   "status": "proved",
   "theorems": [
    "Flamingpy.CvOps.C08_invert_permutation"
   ],
   "note": ""
  },
  {
   "property": "C09",
   "status": "proved",
   "theorems": [
    "Flamingpy.CvOps.C09_four_splitter",
    "Flamingpy.CvOps.C09_many_splitters"
   ],
   "note": "Exact reals instead of single precision; thewalrus beam_splitter/expand transcribed."
  },
  {
   "property": "C10",
   "status": "proved",
   "theorems": [
    "Flamingpy.Linalg.C10_row_reduction"
   ],
   "note": "Matrices over ZMod 2 of any size; any list of columns to reduce."
  },
  {
   "property": "C100",
   "status": "proved",
   "theorems": [
    "Flamingpy.Trial.C100_bound",
    "Flamingpy.Trial.C100_threshold",
    "Flamingpy.Trial.C100_simulation",
    "Flamingpy.Trial.C100_uf_bound",
    "Flamingpy.Trial.C100_uf_threshold",
    "Flamingpy.Trial.C100_uf_simulation"
   ],
   "note": "MWPM and UF with uniform weights; edge weights 1 or -1; initial sampling order for simulations"
  },
  {
   "property": "C101",
   "status": "proved",
   "theorems": [
    "Flamingpy.Trial.C101_weight",
    "Flamingpy.Trial.C101_bound",
    "Flamingpy.Trial.C101_threshold",
    "Flamingpy.Trial.C101_mean",
    "Flamingpy.Trial.C101_simulation",
    "Flamingpy.Weights.zErrCond_bounds"
   ],
   "note": "MWPM with blueprint weights (integers, or floats with NetworkX) computed from the outcomes of a CVLayer without swap-outs: weights, failure bound, threshold, mean of simulations"
  },
  {
   "property": "C102",
   "status": "proved",
   "theorems": [
    "Flamingpy.Gkp.C102_shift",
    "Flamingpy.Gkp.C102_bit",
    "Flamingpy.Gkp.C102_reflect",
    "Flamingpy.Gkp.C102_symmetric",
    "Flamingpy.Weights.C102_shift_bit",
    "Flamingpy.Weights.C102_shift_weights"
   ],
   "note": "All real outcomes and variances (positive variance for the strict inequality)."
  },
  {
   "property": "C103",
   "status": "proved",
   "theorems": [
    "Flamingpy.Weights.C103_others",
    "Flamingpy.Weights.C103_ineffective",
    "Flamingpy.Weights.C103_agrees",
    "Flamingpy.Weights.C103_failed",
    "Flamingpy.Weights.C103_last",
    "Flamingpy.Weights.C103_stale",
    "Flamingpy.Trial.C103_decode"
   ],
   "note": "Histories include calls that raise; C103_last and C103_decode need a code built by the constructor."
  },
  {
   "property": "C104",
   "status": "proved",
   "theorems": [
    "Flamingpy.Trial.C104_shift",
    "Flamingpy.Trial.C104_open",
    "Flamingpy.Trial.C104_even",
    "Flamingpy.Trial.outcomeBits_shift"
   ],
   "note": "Real outcomes; the libraries' choices are arbitrary but the same for both runs."
  },
  {
   "property": "C11",
   "status": "proved",
   "theorems": [
    "Flamingpy.Linalg.C11_nullspace_basis"
   ],
   "note": ""
  },
  {
   "property": "C12",
   "status": "proved",
   "theorems": [
    "Flamingpy.Linalg.C12_sound",
    "Flamingpy.Linalg.C12_verdict_independent_of_form"
   ],
   "note": "Symmetric binary adjacency matrices of any size; stabilizer spaces in the binary symplectic picture (signs/phases are not part of the code)."
  },
  {
   "property": "C13",
   "status": "partial",
   "theorems": [
    "Flamingpy.Linalg.C13_complete_false",
    "Flamingpy.Linalg.C13_two_isolated_false",
    "Flamingpy.Linalg.C13_complete_partial"
   ],
   "note": "False of the code: refuted for ring_graph(5) against itself and for every graph with two isolated nodes. The _partial theorem is the exact criterion the code decides."
  },
  {
   "property": "C14",
   "status": "proved",
   "theorems": [
    "Flamingpy.Linalg.C14_forms_agree",
    "Flamingpy.Linalg.C14_api"
   ],
   "note": ""
  },
  {
   "property": "C15",
   "status": "proved",
   "theorems": [
    "Flamingpy.EGraph.C15_index_generator"
   ],
   "note": "all fresh non-macronode graphs"
  },
  {
   "property": "C16",
   "status": "proved",
   "theorems": [
    "Flamingpy.EGraph.C16_adj_generator"
   ],
   "note": "all fresh non-macronode graphs"
  },
  {
   "property": "C17",
   "status": "partial",
   "theorems": [
    "Flamingpy.EGraph.C17_coherent_partial",
    "Flamingpy.EGraph.C17_index_stable_partial",
    "Flamingpy.EGraph.C17_add_qubit_effect",
    "Flamingpy.EGraph.C17_false",
    "Flamingpy.EGraph.C17_remove_qubit_effect"
   ],
   "note": "Refuted as stated: adding to a graph that has index dictionaries but no qubits raises after adding the node (C17_false). Proved for all histories without that case."
  },
  {
   "property": "C18",
   "status": "partial",
   "theorems": [
    "Flamingpy.EGraph.C18_adjacency_partial",
    "Flamingpy.EGraph.C18_false_remove",
    "Flamingpy.EGraph.C18_false_stale"
   ],
   "note": "Refuted (C18_false_remove, C18_false_stale). Proved: whenever a matrix is returned after a history without half-done additions it is the adjacency matrix of the current graph, and when it is returned."
  },
  {
   "property": "C19",
   "status": "proved",
   "theorems": [
    "Flamingpy.EGraph.C19_default_position",
    "Flamingpy.EGraph.C19_rejections"
   ],
   "note": "all reachable non-empty graphs"
  },
  {
   "property": "C20",
   "status": "proved",
   "theorems": [
    "Flamingpy.Macronize.C20_macronize",
    "Flamingpy.Macronize.C20_perfect_points",
    "Flamingpy.Macronize.C20_false_disp",
    "Flamingpy.Macronize.C20_false_pad",
    "Flamingpy.Macronize.C20_rejects"
   ],
   "note": "all lattice graphs, displacements 0<disp<=0.49 (padding: not between 0.04 and 0.06; the default 0.1 is covered). C20_false_disp / C20_false_pad show the claim fails for other displacements the code accepts."
  },
  {
   "property": "C21",
   "status": "proved",
   "theorems": [
    "Flamingpy.EGraph.C21_macro_partition",
    "Flamingpy.EGraph.C21_macro_nearest"
   ],
   "note": "all admissible histories (neighbours exist, no addition to an emptied indexed graph)"
  },
  {
   "property": "C22",
   "status": "proved",
   "theorems": [
    "Flamingpy.SurfaceCode.C22_nodes",
    "Flamingpy.SurfaceCode.C22_types",
    "Flamingpy.SurfaceCode.C22_edges",
    "Flamingpy.SurfaceCode.C22_bipartite",
    "Flamingpy.SurfaceCode.C22_degree",
    "Flamingpy.SurfaceCode.C22_attributes",
    "Flamingpy.SurfaceCode.C22_polarity"
   ],
   "note": "RHG_graph for every dims/boundaries/polarity"
  },
  {
   "property": "C23",
   "status": "proved",
   "theorems": [
    "Flamingpy.SurfaceCode.C23_four_regular"
   ],
   "note": "all-periodic, dims >= 2"
  },
  {
   "property": "C24",
   "status": "proved",
   "theorems": [
    "Flamingpy.SurfaceCode.C24_alternating_polarity"
   ],
   "note": ""
  },
  {
   "property": "C25",
   "status": "proved",
   "theorems": [
    "Flamingpy.SurfaceCode.C25_checked_twice",
    "Flamingpy.SurfaceCode.C25_only_syndrome",
    "Flamingpy.SurfaceCode.C25_all",
    "Flamingpy.SurfaceCode.C25_cells",
    "Flamingpy.SurfaceCode.C25_boundaries"
   ],
   "note": "every constructed code with sizes >= 2"
  },
  {
   "property": "C26",
   "status": "proved",
   "theorems": [
    "Flamingpy.SurfaceCode.C26_even_overlap",
    "Flamingpy.SurfaceCode.C26_noiseless"
   ],
   "note": ""
  },
  {
   "property": "C27",
   "status": "proved",
   "theorems": [
    "Flamingpy.SurfaceCode.C27_low_high",
    "Flamingpy.SurfaceCode.C27_periodic"
   ],
   "note": ""
  },
  {
   "property": "C28",
   "status": "proved",
   "theorems": [
    "Flamingpy.SurfaceCode.C28_backends",
    "Flamingpy.SurfaceCode.C28_connectors",
    "Flamingpy.SurfaceCode.C28_toggles",
    "Flamingpy.SurfaceCode.C28_distinct",
    "Flamingpy.SurfaceCode.C28_complete",
    "Flamingpy.SurfaceCode.C28_nodes",
    "Flamingpy.SurfaceCode.C28_edges"
   ],
   "note": "both backends, any set.pop choice"
  },
  {
   "property": "C29",
   "status": "proved",
   "theorems": [
    "Flamingpy.SurfaceCode.C29_connected",
    "Flamingpy.SurfaceCode.C29_connectors"
   ],
   "note": ""
  },
  {
   "property": "C30",
   "status": "proved",
   "theorems": [
    "Flamingpy.SurfaceCode.C30_recovery",
    "Flamingpy.SurfaceCode.C30_order",
    "Flamingpy.SurfaceCode.C30_twice",
    "Flamingpy.SurfaceCode.C30_parity",
    "Flamingpy.SurfaceCode.C30_keyerror"
   ],
   "note": ""
  },
  {
   "property": "C31",
   "status": "proved",
   "theorems": [
    "Flamingpy.SurfaceCode.C31_parallel_planes",
    "Flamingpy.SurfaceCode.C31_entry",
    "Flamingpy.SurfaceCode.C31_verdict"
   ],
   "note": ""
  },
  {
   "property": "C32",
   "status": "proved",
   "theorems": [
    "Flamingpy.SurfaceCode.C32_trivial_error"
   ],
   "note": ""
  },
  {
   "property": "C33",
   "status": "proved",
   "theorems": [
    "Flamingpy.SurfaceCode.C33_lower",
    "Flamingpy.SurfaceCode.C33_exists",
    "Flamingpy.SurfaceCode.C33_distance"
   ],
   "note": ""
  },
  {
   "property": "C34",
   "status": "proved",
   "theorems": [
    "Flamingpy.SurfaceCode.C34_clears"
   ],
   "note": "Any PathLib/MatchLib (assumed correct libraries, shown to exist), any set.pop, both backends, nonnegative weights."
  },
  {
   "property": "C35",
   "status": "proved",
   "theorems": [
    "Flamingpy.SurfaceCode.C35_minimal",
    "Flamingpy.SurfaceCode.C35_condition",
    "Flamingpy.SurfaceCode.C35_counterexample"
   ],
   "note": "Under the two provisos of the statement; counterexample without the second one."
  },
  {
   "property": "C36",
   "status": "proved",
   "theorems": [
    "Flamingpy.SurfaceCode.C36_corrects",
    "Flamingpy.SurfaceCode.C36_distance"
   ],
   "note": "Also for unequal dims: below half of every checked dimension."
  },
  {
   "property": "C37",
   "status": "proved",
   "theorems": [
    "Flamingpy.SurfaceCode.C37_perfect"
   ],
   "note": ""
  },
  {
   "property": "C38",
   "status": "proved",
   "theorems": [
    "Flamingpy.UnionFind.C38_terminates",
    "Flamingpy.UnionFind.C38_hangs",
    "Flamingpy.UnionFind.C38_code"
   ],
   "note": "Termination with an explicit bound on any graph whose odd components are even or touch a boundary point; infinite execution otherwise; the condition holds on every code."
  },
  {
   "property": "C39",
   "status": "proved",
   "theorems": [
    "Flamingpy.UnionFind.C39_clears"
   ],
   "note": "All weights (erasures), bit values, iteration orders, component and spanning-forest choices."
  },
  {
   "property": "C40",
   "status": "proved",
   "theorems": [
    "Flamingpy.UnionFind.C40_partition",
    "Flamingpy.UnionFind.C40_history"
   ],
   "note": "for every history of Root, add_child, find_root, parity and union; errors (KeyError, None root) shown impossible; nodes outside every cluster have no root and no parity"
  },
  {
   "property": "C41",
   "status": "proved",
   "theorems": [
    "Flamingpy.UnionFind.C41_peeling"
   ],
   "note": "parities as Bool; forest as edge list"
  },
  {
   "property": "C42",
   "status": "proved",
   "theorems": [
    "Flamingpy.Weights.C42_uniform",
    "Flamingpy.Weights.C42_union_find",
    "Flamingpy.Weights.C42_incompatible",
    "Flamingpy.Weights.C42_blueprint_values",
    "Flamingpy.Weights.C42_blueprint_bound",
    "Flamingpy.Weights.C42_integer",
    "Flamingpy.Weights.C42_monotone",
    "Flamingpy.Weights.C42_edges",
    "Flamingpy.Weights.C42_edges_nonneg"
   ],
   "note": "assign_weights over exact reals; node and stabilizer-graph edge weights; option values other than uniform/blueprint leave weights unchanged"
  },
  {
   "property": "C43",
   "status": "proved",
   "theorems": [
    "Flamingpy.SurfaceCode.C43_exact",
    "Flamingpy.SurfaceCode.C43_truncated"
   ],
   "note": "Exact case and the failure for rustworkx with fractional weights."
  },
  {
   "property": "C44",
   "status": "proved",
   "theorems": [
    "Flamingpy.Noise.C44_construction",
    "Flamingpy.Noise.C44_apply",
    "Flamingpy.Noise.C44_extremes"
   ],
   "note": "nodes in iteration order, random numbers as inputs; uniform numbers in [0,1) for the extreme probabilities"
  },
  {
   "property": "C45",
   "status": "proved",
   "theorems": [
    "Flamingpy.Noise.C45_total",
    "Flamingpy.Noise.C45_disjoint",
    "Flamingpy.Noise.C45_first_call",
    "Flamingpy.Noise.C45_later_calls",
    "Flamingpy.Noise.C45_all_squeezed",
    "Flamingpy.Noise.C45_alternates",
    "Flamingpy.Noise.C45_noiseless"
   ],
   "note": "quantified over all histories of populate_states, measure_hom and inner_decoder; the plain 'partition after every call' is refuted by C45_later_calls / C45_alternates / C45_noiseless"
  },
  {
   "property": "C46",
   "status": "proved",
   "theorems": [
    "Flamingpy.Noise.C46_labels"
   ],
   "note": "all histories"
  },
  {
   "property": "C47",
   "status": "proved",
   "theorems": [
    "Flamingpy.Noise.C47_any_values",
    "Flamingpy.Noise.C47_noiseless"
   ],
   "note": "exact reals; all codes, sizes >= 2, numberings of the nodes, sampled bits and errors below half a bin"
  },
  {
   "property": "C48",
   "status": "proved",
   "theorems": [
    "Flamingpy.Noise.C48_defined",
    "Flamingpy.Noise.C48_permutation",
    "Flamingpy.Noise.C48_reduced_label",
    "Flamingpy.Noise.C48_stored"
   ],
   "note": "any macronode layer and any call history; on surface codes through OnMacroCode.ok"
  },
  {
   "property": "C49",
   "status": "proved",
   "theorems": [
    "Flamingpy.Sim.C49_split",
    "Flamingpy.Sim.C49_defined",
    "Flamingpy.Sim.C49_errors",
    "Flamingpy.Sim.C49_zero"
   ],
   "note": "Split of trials over ranks; errors = number of failed trials; zero iff none fails"
  },
  {
   "property": "C50",
   "status": "proved",
   "theorems": [
    "Flamingpy.Sim.C50_raises",
    "Flamingpy.Sim.C50_history",
    "Flamingpy.Sim.C50_append_only",
    "Flamingpy.Sim.C50_append_only_history",
    "Flamingpy.Sim.C50_lines",
    "Flamingpy.Sim.C50_columns",
    "Flamingpy.Sim.C50_tuple_breaks",
    "Flamingpy.Sim.C50_header_lost"
   ],
   "note": "Histories of runs incl. raising and killed runs"
  },
  {
   "property": "C51",
   "status": "proved",
   "theorems": [
    "Flamingpy.GraphStates.C51_rejects",
    "Flamingpy.GraphStates.C51_linear",
    "Flamingpy.GraphStates.C51_bell",
    "Flamingpy.GraphStates.C51_star",
    "Flamingpy.GraphStates.C51_complete",
    "Flamingpy.GraphStates.C51_ring",
    "Flamingpy.GraphStates.C51_ring_large"
   ],
   "note": "All n for path/star; n<=400000 for ring/complete as stated, and the failure for n>=1300000"
  },
  {
   "property": "C52",
   "status": "proved",
   "theorems": [
    "Flamingpy.SurfaceCode.C52_correct",
    "Flamingpy.SurfaceCode.C52_total"
   ],
   "note": ""
  },
  {
   "property": "C53",
   "status": "proved",
   "theorems": [
    "Flamingpy.Noise.C53_constructor",
    "Flamingpy.Noise.C53_apply_noise_initial",
    "Flamingpy.Noise.C53_apply_noise_two_step",
    "Flamingpy.Noise.C53_initial",
    "Flamingpy.Noise.C53_supplied_means",
    "Flamingpy.Noise.C53_two_step_fails",
    "Flamingpy.Noise.C53_single_mode_wrong",
    "Flamingpy.Noise.C53_means",
    "Flamingpy.Noise.C53_supplied_covs"
   ],
   "note": "includes the failure theorems for the two-step order"
  },
  {
   "property": "C54",
   "status": "proved",
   "theorems": [
    "Flamingpy.SurfaceCode.C54_constructor_total",
    "Flamingpy.SurfaceCode.C54_str_to_bound",
    "Flamingpy.SurfaceCode.C54_arguments",
    "Flamingpy.SurfaceCode.C54_graph"
   ],
   "note": ""
  },
  {
   "property": "C55",
   "status": "proved",
   "theorems": [
    "Flamingpy.Noise.C55_parity",
    "Flamingpy.Noise.C55_trivial_syndrome",
    "Flamingpy.Noise.C55_no_swap",
    "Flamingpy.Noise.C55_polarity"
   ],
   "note": "every polarity with values 1 and -1 without swap-outs, or unit weights with swap-outs; C55_polarity refutes the remaining case; noise bound a twentieth of sqrt(pi) per sampled displacement"
  },
  {
   "property": "C56",
   "status": "proved",
   "theorems": [
    "Flamingpy.Noise.C56_apply",
    "Flamingpy.Noise.C56_constructor",
    "Flamingpy.Noise.C56_code",
    "Flamingpy.Noise.C56_value"
   ],
   "note": "polarities with values 1 and -1, default beamsplitter network"
  },
  {
   "property": "C57",
   "status": "proved",
   "theorems": [
    "Flamingpy.SurfaceCode.C57_verdict",
    "Flamingpy.SurfaceCode.C57_correct"
   ],
   "note": "exact characterisation of the verdict; proved by a contracting homotopy of the RHG complex"
  },
  {
   "property": "C58",
   "status": "proved",
   "theorems": [
    "Flamingpy.Trial.C58_correct",
    "Flamingpy.Trial.C58_noiseless",
    "Flamingpy.Trial.C58_class",
    "Flamingpy.Trial.C58_invalid",
    "Flamingpy.Trial.C58_logical"
   ],
   "note": "Verif/Props/Trial.lean; assign_weights, decoder, recovery and check composed; libraries under contract (shown inhabited by libs_exist)."
  },
  {
   "property": "C59",
   "status": "proved",
   "theorems": [
    "Flamingpy.Trial.C59_iid",
    "Flamingpy.Trial.C59_iid_low",
    "Flamingpy.Trial.C59_cv",
    "Flamingpy.Trial.C59_macro",
    "Flamingpy.Trial.C59_iid_state",
    "Flamingpy.Trial.C59_cv_state",
    "Flamingpy.Trial.C59_macro_state"
   ],
   "note": "Verif/Props/EndToEnd.lean; state carried from trial to trial; what a trial leaves behind."
  },
  {
   "property": "C60",
   "status": "proved",
   "theorems": [
    "Flamingpy.Trial.C60_corrects",
    "Flamingpy.Trial.C60_flips",
    "Flamingpy.Trial.C60_periodic",
    "Flamingpy.Trial.C60_total",
    "Flamingpy.Trial.C60_total_flips",
    "Flamingpy.Trial.C60_iid"
   ],
   "note": "Growth accounting: every cluster lies in an arc along each checked axis, paid by erasures and by error edges that leave growing clusters; an untouched plane then exists. b is needed because odd clusters touching the boundary still grow once."
  },
  {
   "property": "C61",
   "status": "proved",
   "theorems": [
    "Flamingpy.Trial.C61_bits",
    "Flamingpy.Trial.C61_binomial",
    "Flamingpy.Trial.C61_mean",
    "Flamingpy.Trial.C61_bound",
    "Flamingpy.Trial.C61_lower"
   ],
   "note": "joint law of the hit sets over all trials and ranks; failure on one half of a logical operator for the lower bound"
  },
  {
   "property": "C62",
   "status": "proved",
   "theorems": [
    "Flamingpy.Gkp.C62_value",
    "Flamingpy.Gkp.C62_bounds",
    "Flamingpy.Gkp.C62_limit",
    "Flamingpy.Gkp.C62_not_variance"
   ],
   "note": "C62_not_variance: the docstring's reading of the argument as a variance is false"
  },
  {
   "property": "C63",
   "status": "proved",
   "theorems": [
    "Flamingpy.Gkp.C63_limit",
    "Flamingpy.Gkp.C63_conditional",
    "Flamingpy.Gkp.C63_truncation",
    "Flamingpy.Gkp.C63_large_variance",
    "Flamingpy.Gkp.C63_truncation_hom"
   ],
   "note": "over the reals; C63_large_variance shows the limit of the truncation; C63_truncation_hom is the use_hom_val=True variant"
  },
  {
   "property": "C64",
   "status": "proved",
   "theorems": [
    "Flamingpy.Noise.C64_normal",
    "Flamingpy.Noise.C64_gkp",
    "Flamingpy.Noise.C64_blueprint"
   ],
   "note": "every linear combination of outcomes (hence the joint law); C64_blueprint uses C63"
  },
  {
   "property": "C65",
   "status": "proved",
   "theorems": [
    "Flamingpy.Trial.C65_half",
    "Flamingpy.Trial.C65_mean",
    "Flamingpy.Trial.C65_binomial"
   ],
   "note": "the property records what the code does; users would expect every trial to be noisy"
  },
  {
   "property": "C66",
   "status": "proved",
   "theorems": [
    "Flamingpy.SurfaceCode.C66_perfect",
    "Flamingpy.SurfaceCode.C66_least",
    "Flamingpy.SurfaceCode.C66_clears",
    "Flamingpy.SurfaceCode.C66_near",
    "Flamingpy.SurfaceCode.C66_exact",
    "Flamingpy.SurfaceCode.C66_corrects",
    "Flamingpy.SurfaceCode.C66_rounding"
   ],
   "note": "LEMON's solver is a parameter with a contract; the glue code and the rounding of the weights are modelled"
  },
  {
   "property": "C67",
   "status": "proved",
   "theorems": [
    "Flamingpy.Noise.C67_labels",
    "Flamingpy.Noise.C67_pattern",
    "Flamingpy.Noise.C67_lost",
    "Flamingpy.Noise.C67_lost_values"
   ],
   "note": "SwapRng states that binomial and choice are as documented and independent."
  },
  {
   "property": "C68",
   "status": "proved",
   "theorems": [
    "Flamingpy.Trial.C68_mean",
    "Flamingpy.Trial.swapFailure_weights"
   ],
   "note": "swapFailure is the specification: an explicit sum over index sets of Gaussian probabilities; its weights sum to 1."
  },
  {
   "property": "C69",
   "status": "proved",
   "theorems": [
    "Flamingpy.Noise.C69_flip",
    "Flamingpy.Noise.C69_given",
    "Flamingpy.Noise.C69_bound",
    "Flamingpy.Noise.C69_reported",
    "Flamingpy.Noise.C69_no_swap"
   ],
   "note": "relative to the noiseless run with the same states and means; GKP states in all neighbouring macronodes is a hypothesis, discharged without swap-outs (C69_no_swap); weights 1, or 1 and -1 without swap-outs"
  },
  {
   "property": "C70",
   "status": "proved",
   "theorems": [
    "C70_graph",
    "C70_paths",
    "C70_decoder",
    "C70_clears",
    "C70_history",
    "C70_unknown",
    "C70_readd"
   ],
   "note": "PyGraph and the two routines of rustworkx are contracts; neighbors/out_edges up to order"
  },
  {
   "property": "C71",
   "status": "proved",
   "theorems": [
    "C71_midpoint"
   ],
   "note": "Limits, midpoint, qubits and distinctness for every stabilizer of every code."
  },
  {
   "property": "C72",
   "status": "proved",
   "theorems": [
    "C72_real",
    "C72_to_nx",
    "C72_code",
    "C72_matching_to_nx",
    "C72_total",
    "C72_total_unknown",
    "C72_minimal"
   ],
   "note": "to_nx keeps edges, common vertices and weights but returns graphs without stabilizers, boundary points and virtual points: stated as such."
  },
  {
   "property": "C73",
   "status": "proved",
   "theorems": [
    "C73_existing",
    "C73_rows",
    "C73_header",
    "C73_fresh",
    "C73_lost",
    "C73_lines"
   ],
   "note": "All interleavings, kill points and splittings; the loss of rows when the file is being created is part of the statement and exhibited."
  },
  {
   "property": "C74",
   "status": "proved",
   "theorems": [
    "C74_history",
    "C74_errors",
    "C74_binomial",
    "C74_mean",
    "C74_bound",
    "C74_small_noise"
   ],
   "note": "CVMacroLayer, any code; method 'uniform' for the weights. C74_bound/C74_small_noise are for p_swap without swap-outs Polarities with values 1 and -1."
  },
  {
   "property": "C75",
   "status": "proved",
   "theorems": [
    "C75_time",
    "C75_distinct",
    "C75_collision",
    "C75_repeat",
    "C75_same",
    "C75_double",
    "C75_binomial",
    "C75_even",
    "C75_decoder"
   ],
   "note": "laws for IidNoise; verdict equality for every noise model"
  },
  {
   "property": "C76",
   "status": "proved",
   "theorems": [
    "C76_trail",
    "C76_bound",
    "C76_threshold",
    "C76_simulation",
    "C76_half"
   ],
   "note": "trails, exponential bound, threshold 1/100 for the failure probability and for the mean error rate of simulations, at least 1/2 at p = 1/2"
  },
  {
   "property": "C77",
   "status": "proved",
   "theorems": [
    "C77_flips",
    "C77_bound",
    "C77_threshold",
    "C77_simulation"
   ],
   "note": "flips of a set of qubits, failure probability, threshold, simulations"
  },
  {
   "property": "C78",
   "status": "proved",
   "theorems": [
    "C78_bound",
    "C78_threshold",
    "C78_simulation"
   ],
   "note": "Failure probability bound, threshold over code size, and expected error rate of simulations, with swap-outs. Polarities with values 1 and -1."
  },
  {
   "property": "C79",
   "status": "proved",
   "theorems": [
    "C79_bound",
    "C79_threshold",
    "C79_simulation"
   ],
   "note": "Failure probability bound for every pattern law of the simulation, threshold over code size, and expected error rate of simulations, with swap-outs."
  },
  {
   "property": "C80",
   "status": "partial",
   "theorems": [
    "C80_sequence_partial",
    "C80_first_call",
    "C80_networkx_open"
   ],
   "note": "Proved for rustworkx, for codes without open boundaries and for Union-Find; false in the code for MWPM with networkx and open boundaries (C80_networkx_open, exact condition), where only the first call is unaffected (C80_first_call)."
  },
  {
   "property": "C81",
   "status": "proved",
   "theorems": [
    "C81_label",
    "C81_other",
    "C81_injective",
    "C81_ticks",
    "C81_tick_labels"
   ],
   "note": "Floats are reals; the decimal format is a parameter."
  },
  {
   "property": "C82",
   "status": "proved",
   "theorems": [
    "C82_voxels",
    "C82_faces",
    "C82_polygons"
   ],
   "note": "Up to the data handed to matplotlib."
  },
  {
   "property": "C83",
   "status": "partial",
   "theorems": [
    "C83_networkx",
    "C83_rustworkx",
    "C83_labels",
    "C83_virtual",
    "C83_second"
   ],
   "note": "Graphs: proved for both backends and all drawings. Labels: proved for the first drawing; after a networkx drawing the labels are wrong in the code (C83_second gives the exact labels)."
  },
  {
   "property": "C84",
   "status": "partial",
   "theorems": [
    "C84_title_partial",
    "C84_title_cases",
    "C84_info_partial",
    "C84_info_cases",
    "C84_message",
    "C84_message_fails",
    "C84_node_color",
    "C84_edge_color"
   ],
   "note": "Exact behaviour proved; the documented behaviour fails in the listed cases (C84_title_cases, C84_info_cases, C84_message_fails, third clause of C84_edge_color)."
  },
  {
   "property": "C85",
   "status": "proved",
   "theorems": [
    "C85_sets",
    "C85_noise",
    "C85_bound",
    "C85_threshold",
    "C85_simulation"
   ],
   "note": "Union-Find: sets of 2^k bad qubits behind every failure, bound for local stochastic noise, threshold 2^-65 for independent flips, and simulations."
  },
  {
   "property": "C86",
   "status": "proved",
   "theorems": [
    "C86_bound",
    "C86_threshold",
    "C86_simulation",
    "C86_swap_bound",
    "C86_swap_threshold",
    "C86_swap_simulation",
    "C86_macro_bound",
    "C86_macro_threshold",
    "C86_macro_simulation"
   ],
   "note": "CVLayer without and with swap-outs and CVMacroLayer. Polarities with values 1 and -1."
  },
  {
   "property": "C87",
   "status": "proved",
   "theorems": [
    "C87_entrywise",
    "C87_one_outcome",
    "C87_single",
    "C87_scalar_string",
    "C87_bin_location",
    "C87_sizes",
    "C87_one_variance",
    "C87_bin_value",
    "C87_bin_value_use_hom_val",
    "C87_exact"
   ],
   "note": "exact behaviour of every combination of sizes, replacement and underflow, as in the statement; the documentation of 'bin_location' is refuted by C87_scalar_string, C87_bin_location (third part), C87_bin_value_use_hom_val"
  },
  {
   "property": "C88",
   "status": "proved",
   "theorems": [
    "C88_lattice",
    "C88_accepts",
    "C88_list",
    "C88_rejects",
    "C88_single",
    "C88_empty"
   ],
   "note": "exact behaviour for every argument; the documented list form is proved to raise"
  },
  {
   "property": "C89",
   "status": "proved",
   "theorems": [
    "C89_constructor",
    "C89_sorted",
    "C89_no_code",
    "C89_apply_noise",
    "C89_scz",
    "C89_measure",
    "C89_added",
    "C89_removed",
    "C89_stale"
   ],
   "note": "complete; perfect points, histories of edits and stale matrices included; the growth of the shared points dictionary beyond the layer's modes is not modelled"
  },
  {
   "property": "C90",
   "status": "proved",
   "theorems": [
    "C90_matching",
    "C90_recovery_set",
    "C90_raises",
    "C90_zero"
   ],
   "note": "Model of add_recovery_drawing. For open codes under positive weights (integer for rustworkx) and simple shortest paths; the exceptional case with zero weights is exhibited (C90_zero)."
  },
  {
   "property": "C91",
   "status": "partial",
   "theorems": [
    "C91_plotly_nodes",
    "C91_plotly_edges",
    "C91_matplotlib",
    "C91_frame",
    "C91_frame_given",
    "C91_limits",
    "C91_limits_dual",
    "C91_syndrome_axes",
    "C91_qubit_off_voxel"
   ],
   "note": "Positions, ticks and limits of EGraph drawings proved for all graphs; the two claims about the syndrome plot are refuted by the code (C91_qubit_off_voxel; C91_limits_dual, exact), C91_limits holds for primal codes."
  },
  {
   "property": "C92",
   "status": "proved",
   "theorems": [
    "C92_signed",
    "C92_sound",
    "C92_other_weights_false"
   ],
   "note": "for weights in {-1,0,1}; counterexample proved for weight 3"
  },
  {
   "property": "C93",
   "status": "proved",
   "theorems": [
    "C93_enough",
    "C93_path",
    "C93_decoder"
   ],
   "note": "sharp bound on the depth"
  },
  {
   "property": "C94",
   "status": "proved",
   "theorems": [
    "C94_independent",
    "C94_copy",
    "C94_shared_false"
   ],
   "note": "sharing by EGraph(egraph, macronodes=True) proved to break the other object"
  },
  {
   "property": "C95",
   "status": "proved",
   "theorems": [
    "C95_graph",
    "C95_attributes"
   ],
   "note": "Graph attributes other than perfect_points and macro_dict are copied as a whole by nx.Graph(**...) and not modelled."
  },
  {
   "property": "C96",
   "status": "proved",
   "theorems": [
    "C96_classes",
    "C96_half",
    "C96_number",
    "C96_simulation"
   ],
   "note": ""
  },
  {
   "property": "C97",
   "status": "proved",
   "theorems": [
    "Flamingpy.Trial.C97_recovery",
    "Flamingpy.Trial.C97_iff",
    "Flamingpy.Trial.C97_planes",
    "Flamingpy.Trial.C97_total",
    "Flamingpy.Trial.C97_optimal",
    "Flamingpy.Trial.C97_boundary"
   ],
   "note": "C97_recovery: the recovery consists of erased qubits; C97_iff: success on all patterns of erased qubits iff no erased logical operator; C97_planes, C97_total: sufficient conditions; C97_optimal: no syndrome decoder corrects more erased patterns; C97_boundary: the failure on open codes"
  },
  {
   "property": "C98",
   "status": "proved",
   "theorems": [
    "Flamingpy.Trial.C98_count",
    "Flamingpy.Trial.C98_classes",
    "Flamingpy.Trial.C98_number",
    "Flamingpy.Trial.C98_failure",
    "Flamingpy.Trial.C98_bounds",
    "Flamingpy.Trial.C98_bound",
    "Flamingpy.Trial.C98_threshold"
   ],
   "note": "C98_count: accepted patterns times classes is 2^erased; C98_classes, C98_number: the number of classes; C98_failure, C98_bounds: the failure probability; C98_bound, C98_threshold: erasure threshold 1/5"
  },
  {
   "property": "C99",
   "status": "proved",
   "theorems": [
    "Flamingpy.Trial.C99_iff",
    "Flamingpy.Trial.C99_total",
    "Flamingpy.Trial.C99_correct",
    "Flamingpy.Trial.C99_bound",
    "Flamingpy.Trial.C99_logical",
    "Flamingpy.Trial.C99_threshold",
    "Flamingpy.Trial.C99_simulation"
   ],
   "note": "C99_iff, C99_total: exactly when one squeezed neighbour is harmless; C99_correct: the direction used for a CVLayer; C99_bound: failure probability at finite squeezing; C99_logical: probability of an erased logical operator below p = 1/900; C99_threshold, C99_simulation: limits"
  }
 ]
}