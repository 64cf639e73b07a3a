{
 "claims": [
  {
   "property": "C01",
   "status": "proved",
   "theorems": [
    "TN.Ncon.C01_ncon_is_einsum",
    "TN.Ncon.C01_value_or_valueError"
   ],
   "note": "Any commutative semiring, any rank; all set iteration orders. Open batch labels are assumed to have one dimension each, which the code does not check."
  },
  {
   "property": "C02",
   "status": "proved",
   "theorems": [
    "TN.Ncon.C02_con_order_independent"
   ],
   "note": ""
  },
  {
   "property": "C03",
   "status": "proved",
   "theorems": [
    "TN.Ncon.C03_ncon_total",
    "TN.Ncon.C03_ordinary_network"
   ],
   "note": "C03_ncon_total is stronger than the listed property: open batch labels and dangling closed labels on one tensor are allowed."
  },
  {
   "property": "C04",
   "status": "proved",
   "theorems": [
    "TN.Ncon.C04_axis_order",
    "TN.Ncon.C04_out_order_permutes",
    "TN.Ncon.OutputOrder.unique"
   ],
   "note": ""
  },
  {
   "property": "C05",
   "status": "proved",
   "theorems": [
    "TN.Ncon.C05_check_network_exact",
    "TN.Ncon.C05_ncon_ok_valid"
   ],
   "note": ""
  },
  {
   "property": "C06",
   "status": "partial",
   "theorems": [
    "TN.Ncon.C06_closed_repeat_false",
    "TN.Ncon.C06_open_repeat_false",
    "TN.Ncon.C06_private_repeat_partial"
   ],
   "note": "The full property is false in the code; negation proved with witnesses, and the true part proved."
  },
  {
   "property": "C07",
   "status": "partial",
   "theorems": [
    "TN.Graph.C07_history_partial",
    "TN.Graph.C07_reorder_duplicate_false",
    "TN.Graph.C07_outer_product_self_false",
    "TN.Graph.C07_stale_edge_false",
    "TN.Graph.C07_redirect_dimension_false",
    "TN.Graph.C72_trace_contract_false"
   ],
   "note": "Consistency is proved for every history of any length whose calls respect Op.Valid. The library does not check four things; for each the negation is proved with a witness. Axis names: the histories without the split of a trace edge are the same with names (C72_history_partial); after such a split a contraction can raise midway and leave an inconsistent graph (C72_trace_contract_false)."
  },
  {
   "property": "C08",
   "status": "proved",
   "theorems": [
    "TN.Graph.C08_contract",
    "TN.Graph.C08_contract_parallel"
   ],
   "note": "Entry formula of the new node and value of every surrounding network, any commutative semiring. The graph is modelled without axis names; Op.runN_sim shows that names change nothing as long as every axis has one, and C72_trace_split_false that contract raises if one is missing."
  },
  {
   "property": "C09",
   "status": "proved",
   "theorems": [
    "TN.Graph.C09_contract_between",
    "TN.Graph.C09_contract_between_rejects"
   ],
   "note": "A non-empty output_edge_order; the empty list is treated as None by the code."
  },
  {
   "property": "C11",
   "status": "proved",
   "theorems": [
    "TN.Graph.C11_reorder_edges",
    "TN.Graph.C11_reorder_axes",
    "TN.Graph.C11_rejects"
   ],
   "note": "The graph is modelled without axis names; for the names, and for nodes with a name missing, see C72."
  },
  {
   "property": "C13",
   "status": "proved",
   "theorems": [
    "TN.Graph.C13_outer_product",
    "TN.Graph.C13_outer_product_final_nodes"
   ],
   "note": ""
  },
  {
   "property": "C29",
   "status": "proved",
   "theorems": [
    "TN.Decomp.C29_svd_truncation",
    "TN.Decomp.C29_svd_exact"
   ],
   "note": "Over RCLike fields; the LAPACK kernel enters as any matrix factorisation satisfying IsSvd."
  },
  {
   "property": "C48",
   "status": "partial",
   "theorems": [
    "TN.Decomp.C48_qr_partial",
    "TN.Decomp.C48_rq_partial",
    "TN.Decomp.C48_qr_zero_diagonal_false"
   ],
   "note": "With non_negative_diagonal the property fails when the triangular factor has a zero on its diagonal; proved otherwise."
  },
  {
   "property": "C10",
   "status": "proved",
   "theorems": [
    "TN.Graph.C10_full_contraction",
    "TN.Graph.C10_path_independent",
    "TN.Graph.C10_same_tensor",
    "TN.Graph.C10_rejects"
   ],
   "note": "The body shared by the path based contractors, for every valid path and every iteration order; the path search itself is a parameter."
  },
  {
   "property": "C12",
   "status": "proved",
   "theorems": [
    "TN.Graph.C12_flatten",
    "TN.Graph.C12_flatten_rejects",
    "TN.Graph.C12_split",
    "TN.Graph.C12_round_trip"
   ],
   "note": "For the axis names of the nodes see C72."
  },
  {
   "property": "C16",
   "status": "proved",
   "theorems": [
    "TN.Graph.C16_disconnect",
    "TN.Graph.C16_remove_node",
    "TN.Graph.C16_remove_node_isolated"
   ],
   "note": "Modelled without axis names, the new edges being reported by axis number; C72_remove_node adds the names, and C72_trace_flatten_false shows that remove_node raises for nodes with more names than axes."
  },
  {
   "property": "C17",
   "status": "proved",
   "theorems": [
    "TN.Graph.C17_split_node",
    "TN.Graph.C17_rejects",
    "TN.Graph.C17_split_node_svd",
    "TN.Graph.C17_split_node_qr",
    "TN.Graph.C17_split_node_rq",
    "TN.Graph.C17_split_node_full_svd",
    "TN.Graph.C17_full_svd_rejects"
   ],
   "note": "The LAPACK kernels are parameters. C17_split_node_full_svd also covers truncation."
  },
  {
   "property": "C18",
   "status": "partial",
   "theorems": [
    "TN.Graph.C18_slice_edge_partial",
    "TN.Graph.C18_rejects",
    "TN.Graph.C18_negative_start_false"
   ],
   "note": "A negative start equal to minus the length selects the wrong slice; negation proved with a witness."
  },
  {
   "property": "C36",
   "status": "proved",
   "theorems": [
    "TN.Graph.C36_multi_remove"
   ],
   "note": ""
  },
  {
   "property": "C49",
   "status": "proved",
   "theorems": [
    "TN.Graph.C49_connect",
    "TN.Graph.C16_disconnect"
   ],
   "note": ""
  },
  {
   "property": "C14",
   "status": "partial",
   "theorems": [
    "TN.Graph.C14_copy_partial",
    "TN.Graph.C14_value",
    "TN.Graph.C14_separate",
    "TN.Graph.C14_connected",
    "TN.Graph.C14_edge_dict_trace_false",
    "TN.Graph.C14_copy_node_trace_false"
   ],
   "note": "The edge dictionary maps a trace edge to an unattached edge (negation proved). CopyNode.copy raises on some trace edges (negation proved)."
  },
  {
   "property": "C15",
   "status": "proved",
   "theorems": [
    "TN.Graph.C15_reachable",
    "TN.Graph.C15_reachable_empty",
    "TN.Graph.C15_check_connected",
    "TN.Graph.C15_get_neighbors"
   ],
   "note": "The while loop is modelled with fuel; the theorems show that enough fuel exists."
  },
  {
   "property": "C31",
   "status": "proved",
   "theorems": [
    "TN.Context.C31_default_backend",
    "TN.Context.C31_set_in_block"
   ],
   "note": "All programs with nested blocks, exceptions and try, against a specification without a stack."
  },
  {
   "property": "C32",
   "status": "proved",
   "theorems": [
    "TN.Context.C32_node_collection",
    "TN.Context.C32_once"
   ],
   "note": "All programs with nested blocks, failing constructors, exceptions and try."
  },
  {
   "property": "C33",
   "status": "proved",
   "theorems": [
    "TN.Context.C33_get_backend",
    "TN.Context.C33_other"
   ],
   "note": "All histories of calls; the constructor may raise for packages that are not installed."
  },
  {
   "property": "C34",
   "status": "proved",
   "theorems": [
    "TN.Solver.C34_ord_to_ncon",
    "TN.Solver.C34_accepted"
   ],
   "note": "All ordinary networks and all sequences; the order is fed to the model of ncon."
  },
  {
   "property": "C35",
   "status": "partial",
   "theorems": [
    "TN.Solver.C35_greedy_size",
    "TN.Solver.C35_greedy_cost_partial",
    "TN.Solver.C35_greedy_cost_false"
   ],
   "note": "greedy_size_solve: full claim, with the cost of the sequence. greedy_cost_solve: proved for networks that are connected or have an open leg; false otherwise (witness)."
  },
  {
   "property": "C45",
   "status": "partial",
   "theorems": [
    "TN.Solver.C45_optimal_partial",
    "TN.Solver.C45_optimal_false"
   ],
   "note": "Minimal among sequences of non-trivial contractions, in exact arithmetic. The flag is_optimal is wrong when an outer product is cheaper (witness)."
  },
  {
   "property": "C22",
   "status": "proved",
   "theorems": [
    "TN.Bs.C22_num_nonzero"
   ],
   "note": "All lists of legs, in both representations of charges, above and below the size where the code switches algorithm; np.argsort may be any sort."
  },
  {
   "property": "C24",
   "status": "proved",
   "theorems": [
    "TN.Bs.C24_block_decomposition"
   ],
   "note": "All orders of the legs, all partitions, including 0 and the number of legs; without the cache (see C27)."
  },
  {
   "property": "C46",
   "status": "proved",
   "theorems": [
    "TN.Bs.C46_partition_strides",
    "TN.Bs.C46_permuted_strides"
   ],
   "note": ""
  },
  {
   "property": "C23",
   "status": "proved",
   "theorems": [
    "TN.Bs.C23_fromdense_todense",
    "TN.Bs.C23_todense_fromdense"
   ],
   "note": "All legs in both representations, all pending orders."
  },
  {
   "property": "C25",
   "status": "partial",
   "theorems": [
    "TN.Bs.C25_tensordot",
    "TN.Bs.C25_accepts",
    "TN.Bs.C25_axes",
    "TN.Bs.C25_grouping_false",
    "TN.Bs.C25_scalar_false"
   ],
   "note": "Whenever both contractions are accepted the results agree; matching axes are accepted. The outer product of two tensors without axes raises, and axes of different sizes are accepted if their flattened legs match (negations proved)."
  },
  {
   "property": "C26",
   "status": "partial",
   "theorems": [
    "TN.Bs.C26_transpose",
    "TN.Bs.C26_reshape_partial",
    "TN.Bs.C26_reshape_accepts",
    "TN.Bs.C26_reshape_scalar_false",
    "TN.Bs.C26_contiguous",
    "TN.Bs.C26_history_partial"
   ],
   "note": "All histories of the lazy operations. reshape splits an axis only along its legs; reshaping to the empty shape breaks the tensor (negation proved)."
  },
  {
   "property": "C50",
   "status": "partial",
   "theorems": [
    "TN.Bs.C50_binop",
    "TN.Bs.C50_refused",
    "TN.Bs.C50_map",
    "TN.Bs.C50_conj",
    "TN.Bs.C50_pow_false"
   ],
   "note": "A power with exponent 0 is not elementwise (negation proved)."
  },
  {
   "property": "C27",
   "status": "partial",
   "theorems": [
    "TN.Bs.C27_cache_partial",
    "TN.Bs.C27_disabled",
    "TN.Bs.C27_types_false",
    "TN.Bs.C27_symmetries_false",
    "TN.Bs.findTransposed_rep"
   ],
   "note": "Transparent for every history whose tensors share their charge types. The key omits the charge types and the number of symmetries, so that lookups for other tensors can return wrong blocks (negations proved)."
  },
  {
   "property": "C21",
   "status": "partial",
   "theorems": [
    "TN.Bs.C21_values",
    "TN.Bs.C21_row_major",
    "TN.Bs.C21_group",
    "TN.Bs.C21_product",
    "TN.Bs.C21_fuse_charges",
    "TN.Bs.C21_representation",
    "TN.Bs.C21_overflow_false"
   ],
   "note": "All charges, lengths, numbers of symmetries and flows, for ZN with n <= 16384. For larger n the code accepts the charges but int16 sums overflow and fusion is not associative (negation proved)."
  },
  {
   "property": "C28",
   "status": "partial",
   "theorems": [
    "TN.Bs.C28_unique_partial",
    "TN.Bs.C28_reconstruct_partial",
    "TN.Bs.C28_one_column",
    "TN.Bs.C28_order",
    "TN.Bs.C28_labels_false",
    "TN.Bs.C28_intersect",
    "TN.Bs.C28_intersect_columns",
    "TN.Bs.C28_charge_unique",
    "TN.Bs.C28_sorted_false",
    "TN.Bs.C28_model"
   ],
   "note": "All arrays, entry sizes and numbers of columns; the labels are correct up to 32768 distinct charges and wrong between 32769 and 65535 (negation proved). BaseCharge.unique of a labelled charge is not sorted (negation proved)."
  },
  {
   "property": "C51",
   "status": "proved",
   "theorems": [
    "TN.Bs.C51_eye"
   ],
   "note": "The form with one index; np.empty may return any contents."
  },
  {
   "property": "C47",
   "status": "partial",
   "theorems": [
    "TN.Bs.C47_trace_partial",
    "TN.Bs.C47_condition",
    "TN.Bs.C47_default",
    "TN.Bs.C47_refused",
    "TN.Bs.C47_cyclic_false",
    "TN.Bs.C47_shape_false"
   ],
   "note": "Proved for all tensors and compatible axes whose legs satisfy the condition (at most two legs per axis, or the same order in both); the result has one axis per remaining leg. For three legs in cyclic order the result is a wrong number, and remaining fused axes are returned split (negations proved)."
  },
  {
   "property": "C30",
   "status": "partial",
   "theorems": [
    "TN.Trunc.C30_truncation_partial",
    "TN.Trunc.C30_padding_false",
    "TN.Trunc.C30_zero_false"
   ],
   "note": "Full claim (every truncation request cuts each block at a prefix, keeps the globally largest values, at most max_singular_values of them, and with an error bound discards a largest set within the bound) is proved for all blocks, both bounds, relative or not, provided the limit is not 0, the error bound is not negative and, without an error bound, the limit does not exceed the number of positive singular values; the two other theorems show that the code is wrong otherwise (padding zeros are kept, a limit of 0 keeps everything)."
  },
  {
   "property": "C52",
   "status": "proved",
   "theorems": [
    "TN.Bs.C52_qr",
    "TN.Bs.C52_svd",
    "TN.Bs.C52_svd_full"
   ],
   "note": "All valid matrices with any fused axes and pending orders, all factorisations of the blocks that multiply back (parameters). svd with full_matrices=False, qr in the modes reduced and complete; the reshape around them in the symmetric backend is C26."
  },
  {
   "property": "C37",
   "status": "proved",
   "theorems": [
    "TN.Mps.C37_position",
    "TN.Mps.C37_moves"
   ],
   "note": "All states of any length, shapes and sequences of moves, every kernel whose QR factors multiply back with Q isometric (np.linalg.qr is a parameter). With normalisation the state is kept up to a positive factor."
  },
  {
   "property": "C38",
   "status": "proved",
   "theorems": [
    "TN.Mps.C38_moves",
    "TN.Mps.C38_init"
   ],
   "note": "All moves, with any normalisation and truncation options, and the constructor; exact arithmetic, kernels are parameters with the QR and SVD laws as hypotheses (shown satisfiable). The constructed state has norm one."
  },
  {
   "property": "C53",
   "status": "partial",
   "theorems": [
    "TN.Mps.C38_canonicalize",
    "TN.Mps.C38_canonicalize_norm_false"
   ],
   "note": "normalize=False: full claim. With normalize=True (the default) and a recorded centre the returned value is not the norm (negation proved for every kernel)."
  },
  {
   "property": "C39",
   "status": "partial",
   "theorems": [
    "TN.Mps.C39_gate",
    "TN.Mps.C39_one_site",
    "TN.Mps.C39_truncated",
    "TN.Mps.C39_truncated_accepts",
    "TN.Mps.C39_center_partial",
    "TN.Mps.C39_elsewhere",
    "TN.Mps.C39_center_false"
   ],
   "note": "Amplitudes: full claim for all states, gates (also changing the physical dimensions) and kernels. Bookkeeping of the centre: right with truncation, where moreover the returned weights give the distance to the exact state; without truncation the isometry is left at the recorded centre and the true centre is the other site (C39_center_partial), so that the claim is false (C39_center_false, for every kernel)."
  },
  {
   "property": "C40",
   "status": "partial",
   "theorems": [
    "TN.Mps.C40_left_envs",
    "TN.Mps.C40_right_envs",
    "TN.Mps.C40_local",
    "TN.Mps.C40_correlator_partial",
    "TN.Mps.C40_order_false",
    "TN.Mps.C40_repeated_false"
   ],
   "note": "All states with a correct or no recorded centre, all operators and sites in range. Local operators: full claim. Correlators: every value is right, but they are returned for the distinct sites in increasing order instead of for each requested site (negations proved). Sites outside the chain are not covered."
  },
  {
   "property": "C41",
   "status": "proved",
   "theorems": [
    "TN.Mpo.C41_tfi",
    "TN.Mpo.C41_xxz",
    "TN.Mpo.C41_heisenberg",
    "TN.Mpo.C41_tfi_short",
    "TN.Mpo.C41_one_site_false"
   ],
   "note": "All chains of at least two sites over any field. For one site the constructor returns an operator on two sites (outside the claim, shown by C41_one_site_false)."
  },
  {
   "property": "C42",
   "status": "partial",
   "theorems": [
    "TN.Graph.C42_network",
    "TN.Graph.C42_eval_partial",
    "TN.Graph.C42_order_partial",
    "TN.Graph.C42_chain_false",
    "TN.Graph.C42_refs_false"
   ],
   "note": "Eliminating identities keeps the network for every visiting order (C42_network, no condition on chains). eval: proved for all operators that list all their nodes as reference nodes and in which no identity with a dangling edge is joined to an identity that is joined to a further node, all visiting orders and contraction paths. Otherwise the claim is false: a chain of identities raises ValueError in one order and works in another, and a part of the network referred to by an eliminated identity only is silently dropped (negations proved)."
  },
  {
   "property": "C43",
   "status": "partial",
   "theorems": [
    "TN.Kron.C43_kron",
    "TN.Kron.C43_odd",
    "TN.Kron.C43_backend_ignored",
    "TN.Kron.C43_backend_false"
   ],
   "note": "The Kronecker product: full claim for all even ranks and shapes. The rejection of different backends is false: kron compares the first tensor with itself (negation proved)."
  },
  {
   "property": "C19",
   "status": "partial",
   "theorems": [
    "TN.Graph.C19_roundtrip_partial",
    "TN.Graph.C14_value",
    "TN.Graph.C19_copyNode_raises",
    "TN.Graph.C19_first_end_false",
    "TN.Graph.C19_axis_names_false"
   ],
   "note": "Proved for all sets of plain nodes with proper axis names whose edges have their first end in the set, with all bindings. An edge whose first end is left out comes back as an edge without a first node that is not dangling, and repeated axis names make reading raise (negations proved). json.dumps/loads and the serialisation of tensors are taken to be faithful."
  },
  {
   "property": "C20",
   "status": "partial",
   "theorems": [
    "TN.Graph.C20_save_partial",
    "TN.Graph.C20_save_raises",
    "TN.Graph.C20_edge_names_false"
   ],
   "note": "Node names and everything else are unchanged for every network. Edge names are never restored: after saving every edge of the network is called edge{i} (proved in general, with a witness for the negation)."
  },
  {
   "property": "C54",
   "status": "partial",
   "theorems": [
    "TN.Graph.C54_roundtrip_partial",
    "TN.Graph.C14_value",
    "TN.Graph.C54_order_false",
    "TN.Graph.C54_scalar_false"
   ],
   "note": "All closed networks of plain nodes of positive rank, with names. The order of the nodes returned is the alphabetical order of node0, node1, ..., so that it differs from the given one for more than ten nodes; nodes of rank 0 are saved but cannot be loaded (negations proved)."
  },
  {
   "property": "C44",
   "status": "partial",
   "theorems": [
    "TN.Graph.C44_contract_partial",
    "TN.Graph.C44_stale_false",
    "TN.Graph.C44_dangling_raises",
    "TN.Graph.C44_limit_raises"
   ],
   "note": "Value, entries, edges in order and the rest of the graph: for all correct graphs and all copy nodes with a neighbour and fewer than 52 remaining edges (the numpy backend accepts 52 subscripts; with more, or with trace edges only, the call raises, proved). The former neighbours keep their old edge lists, so the graph of all nodes is not correct afterwards (proved for every call)."
  },
  {
   "property": "C55",
   "status": "partial",
   "theorems": [
    "TN.Graph.C55_adjoint",
    "TN.Graph.C55_tensor_product",
    "TN.Graph.C55_matmul",
    "TN.Graph.C55_matmul_raises",
    "TN.Graph.C55_partial_trace",
    "TN.Graph.C55_partial_trace_raises",
    "TN.Graph.C55_trace",
    "TN.Graph.C55_mul",
    "TN.Graph.C55_mul_raises",
    "TN.Graph.C55_norm_partial",
    "TN.Graph.C55_norm_false",
    "TN.Graph.C55_projector",
    "TN.Graph.C55_reduced_density"
   ],
   "note": "All operators on correct graphs of plain nodes. Everything but the norm: full claim, including that the operands are unchanged. norm() returns the trace of the adjoint times the operator, that is the square of the 2-norm it documents (C55_norm_partial in general, negation with a witness)."
  },
  {
   "property": "C56",
   "status": "partial",
   "theorems": [
    "TN.Graph.C56_bucket_partial",
    "TN.Graph.C56_bucket_total_partial",
    "TN.Graph.C56_joined_raises",
    "TN.Graph.C56_joined_false"
   ],
   "note": "Full claim for all correct graphs and orders in which no two copy nodes are joined; it can raise only with 52 or more axes (the limit of einsum) or for a copy node without a neighbour. If a copy node is followed by a copy node joined to it that has another edge, the call raises AssertionError, because the second one is contracted with a stale edge list (proved in general, with a witness)."
  },
  {
   "property": "C57",
   "status": "proved",
   "theorems": [
    "TN.Lanczos.C57_lanczos",
    "TN.Lanczos.C57_ground",
    "TN.Lanczos.C57_converged",
    "TN.Lanczos.C57_refused",
    "TN.Lanczos.C57_initial_changed"
   ],
   "note": "All symmetric operators given by a function on arrays that returns a new array, all shapes, nonzero initial states and options with 0 < delta <= 1 and ndiag > 0; exact arithmetic; the diagonalisation of the small matrix is a parameter with its defining equations. C57_initial_changed adds that the array given as initial state is divided by its norm in place."
  },
  {
   "property": "C58",
   "status": "proved",
   "theorems": [
    "TN.Dmrg.C58_init",
    "TN.Dmrg.C58_init_length",
    "TN.Dmrg.C58_init_center",
    "TN.Dmrg.C58_energy",
    "TN.Dmrg.C58_one_site",
    "TN.Dmrg.C58_tfi",
    "TN.Dmrg.C58_xxz",
    "TN.Dmrg.C58_fermions"
   ],
   "note": "numpy backend, exact arithmetic, outer bonds of dimension one; QR, SVD and the diagonalisation of small matrices are parameters with their defining equations. C58_tfi, C58_xxz and C58_fermions go through all the constructors (FiniteMPS, FiniteTFI, FiniteXXZ or FiniteFreeFermion2D, FiniteDMRG) to run_one_site."
  },
  {
   "property": "C60",
   "status": "partial",
   "theorems": [
    "TN.Dmrg.C60_position_partial",
    "TN.Dmrg.C60_envs",
    "TN.Dmrg.C60_position_false"
   ],
   "note": "Holds once compute_left_envs and compute_right_envs have been called, and position keeps that condition. On an object that has just been made from an MPS with its centre in the interior, position to the right raises KeyError (proved in general)."
  },
  {
   "property": "C59",
   "status": "proved",
   "theorems": [
    "TN.Dmrg.C59_exact",
    "TN.Dmrg.C59_truncated",
    "TN.Dmrg.C59_bound",
    "TN.Dmrg.C59_single"
   ],
   "note": "Same setting as C58. The number returned with a truncation is that before the last truncation."
  },
  {
   "property": "C61",
   "status": "partial",
   "theorems": [
    "TN.Tf.C61_lists",
    "TN.Tf.C61_number",
    "TN.Tf.C61_accepts",
    "TN.Tf.C61_shapes_false"
   ],
   "note": "Entries and shape: full claim for all tensors and axes. The ValueError for mismatched dimensions is raised exactly if the products of the contracted dimensions differ (C61_accepts); dimensions (2, 3) and (3, 2) are accepted (negation proved)."
  },
  {
   "property": "C62",
   "status": "partial",
   "theorems": [
    "TN.Backends.C62_tf_svd",
    "TN.Backends.C62_torch_svd_partial",
    "TN.Backends.C62_qr_plain",
    "TN.Backends.C62_qr_partial",
    "TN.Backends.C62_tf_rq_partial",
    "TN.Backends.C62_torch_rq_partial",
    "TN.Backends.C62_torch_complex_false",
    "TN.Backends.C62_tf_qr_false"
   ],
   "note": "TensorFlow svd and both qr without phases: full claim. PyTorch svd: real tensors; for complex ones the factors do not multiply back, since V is transposed without conjugation (negation proved for every valid kernel). Phases of qr and rq: real signs and no zero on the diagonal; for complex ones the TensorFlow qr applies the phase instead of its conjugate (negation proved)."
  },
  {
   "property": "C63",
   "status": "partial",
   "theorems": [
    "TN.Mps.C63_orthonormality",
    "TN.Mps.C63_canonical_partial",
    "TN.Mps.C63_refused",
    "TN.Mps.C63_single_false"
   ],
   "note": "One site: full claim, with any connector. Whole state: all states of at least two sites without a connector matrix; a state of one site raises IndexError (proved)."
  },
  {
   "property": "C64",
   "status": "proved",
   "theorems": [
    "TN.Inf.C64_total",
    "TN.Inf.C64_schmidt_form",
    "TN.Inf.C64_same_state",
    "TN.Inf.C64_initial_refused"
   ],
   "note": "numpy backend, exact arithmetic; eigs is a parameter that finds the dominant eigenvector if there is one (power-bounded simple eigenvalue), which is proved to be so for the transfer matrix; QR, SVD, eigh and inv are parameters with their defining equations. The cutoff of the pseudo-inverse must lie below the normalised eigenvalues (AboveCutoff)."
  },
  {
   "property": "C65",
   "status": "partial",
   "theorems": [
    "TN.Inf.C65_again",
    "TN.Inf.C65_twice_false"
   ],
   "note": "The claim is false: the result is in Schmidt form exactly if all Schmidt values are equal (C65_again), since the eigenvectors are those of the transfer matrix without the connector. A concrete state is given that leaves the Schmidt form for every correct kernel (C65_twice_false). The infinite state itself is kept (C64_same_state)."
  },
  {
   "property": "C66",
   "status": "proved",
   "theorems": [
    "TN.Mpo.C66_fermions",
    "TN.Mpo.C66_anticommute",
    "TN.Mpo.C66_anticommute_low",
    "TN.Mpo.C66_one_site_false"
   ],
   "note": "All grids of at least two sites, all parameters, over any field. The creation and annihilation operators of the specification are proved to anticommute. For one site the constructor returns an operator on two sites (outside the claim, shown by C66_one_site_false)."
  },
  {
   "property": "C67",
   "status": "partial",
   "theorems": [
    "TN.Bs.C67_inv",
    "TN.Bs.C67_inv_returns",
    "TN.Bs.C67_pinv",
    "TN.Bs.C67_pinv_total",
    "TN.Bs.C67_rejects",
    "TN.Bs.C67_inv_false"
   ],
   "note": "inv: full for matrices that have an inverse, and for all matrices whose column index is the row index with reversed flows. Otherwise inv may return without error for a singular matrix (negation proved). pinv: full claim. The inverse of a single block is a parameter."
  },
  {
   "property": "C68",
   "status": "partial",
   "theorems": [
    "TN.Bs.C68_eig_partial",
    "TN.Bs.C68_eigh_partial",
    "TN.Bs.C68_rejects",
    "TN.Bs.C68_eigh_false"
   ],
   "note": "All matrices whose column index is the row index with reversed flows; for other square matrices the results are not eigenpairs of the dense version (negation proved). The diagonalisation of a single block is a parameter."
  },
  {
   "property": "C69",
   "status": "proved",
   "theorems": [
    "TN.Bs.C69_norm"
   ],
   "note": "All valid tensors with at least one axis, real or complex entries; np.linalg.norm of the data vector is the square root of the sum of squared absolute values."
  },
  {
   "property": "C70",
   "status": "partial",
   "theorems": [
    "TN.Bs.C70_diag_matrix",
    "TN.Bs.C70_diag_vector_partial",
    "TN.Bs.C70_diag_vector_false"
   ],
   "note": "Matrices: full claim. Vectors: one leg; for an axis made of several legs the result is not a valid tensor (negation proved)."
  },
  {
   "property": "C71",
   "status": "partial",
   "theorems": [
    "TN.Gmres.C71_minimal",
    "TN.Gmres.C71_residual",
    "TN.Gmres.C71_total",
    "TN.Gmres.C71_exact",
    "TN.Gmres.C71_bound_partial",
    "TN.Gmres.C71_errors",
    "TN.Gmres.C71_value_error",
    "TN.Gmres.C71_info_zero",
    "TN.Gmres.C71_restart_false",
    "TN.Gmres.C71_tolerance_false",
    "TN.Gmres.C71_info_false",
    "TN.Gmres.C71_nan_false",
    "TN.Gmres.C71_complex_false"
   ],
   "note": "One restart of a real operator: minimal residual over the Krylov space, no NaN for invertible operators (tolerance zero, or an operator that does not shrink too much), exact solution with tolerance zero, errors. The code lacks the rest, with proofs of the negations: a second restart returns the initial guess, the tolerance is off by a factor |b|, info is 0 without convergence, small operators give NaN, complex operators are not minimised. Exact arithmetic; the triangular solver is a parameter."
  },
  {
   "property": "C72",
   "status": "partial",
   "theorems": [
    "TN.Graph.C72_get_edge",
    "TN.Graph.C72_add_axis_names",
    "TN.Graph.C72_reorder_axes",
    "TN.Graph.C72_reorder_edges",
    "TN.Graph.C72_remove_node",
    "TN.Graph.C72_copy",
    "TN.Graph.C72_flatten_partial",
    "TN.Graph.C72_split_partial",
    "TN.Graph.C72_history_partial",
    "TN.Graph.C72_flatten_false",
    "TN.Graph.C72_split_false",
    "TN.Graph.C72_trace_flatten_false",
    "TN.Graph.C72_trace_split_false",
    "TN.Graph.C72_trace_contract_false",
    "TN.Graph.C72_split_duplicate_false"
   ],
   "note": "get_edge, add_axis_names, reorder_axes, reorder_edges (no edge listed twice), remove_node: full claim. flatten_edges and split_edge keep one name per axis and the names of the axes in front of the first consumed one; all later axes get wrong names (proved in general). Flattening trace edges leaves too many names and splitting them too few, after which copy, remove_node, reorder_axes and contract raise (proved in general; the last leaves an inconsistent graph, with a witness). Histories without the split of a trace edge do to the graph what they do without names."
  },
  {
   "property": "C73",
   "status": "partial",
   "theorems": [
    "TN.Krylov.C73_pairs_partial",
    "TN.Krylov.C73_exact",
    "TN.Krylov.C73_errors",
    "TN.Krylov.C73_positive",
    "TN.Krylov.C73_negative_false",
    "TN.Krylov.C73_converged_false",
    "TN.Krylov.C73_eigenvector_false"
   ],
   "note": "Every returned pair is a unit vector v with <v, A v>, or a zero with NaNs; order, number, residual at most tol after an early stop, exact eigenpairs and the wanted part of the spectrum for full Krylov space, errors, for any number of restarts, under the assumption that no residual has exactly the length tol. The code lacks the rest, with proofs of the negations: the matrix is padded with zeros when the iteration ends with fewer vectors, so for operators with negative real part and 'LR' zeros with NaN vectors are returned, in particular whenever the restarts converge. Exact complex arithmetic; QR, eig and argsort are parameters, shown to exist. That the restarts converge is not proved."
  },
  {
   "property": "C74",
   "status": "partial",
   "theorems": [
    "TN.Krylov.C74_pairs_partial",
    "TN.Krylov.C74_converged",
    "TN.Krylov.C74_exact",
    "TN.Krylov.C74_errors",
    "TN.Krylov.C74_positive",
    "TN.Krylov.C74_smallest_false",
    "TN.Krylov.C74_default_false"
   ],
   "note": "Every returned pair is a unit vector v with <v, A v>, or has the value zero; order, number, residual at most tol after an early stop and at most sqrt(numeig) max(eps sqrt(numeig) |A|, |lambda| tol) after converged restarts, exact eigenpairs and the wanted part of the spectrum with multiplicities once there are as many vectors as the dimension, errors, for any number of restarts, under the assumption that no residual has exactly the length tol. The code lacks the rest, with proofs of the negations: the matrix is padded with zeros when the iteration ends with fewer vectors, so for positive definite operators the default which='SA' returns zeros in place of the smallest eigenvalues, in particular whenever the restarts converge, and with num_krylov_vecs >= dim + numeig (default 50) it returns nothing but zeros with NaN vectors. Exact real or complex arithmetic; QR, eigh and argsort are parameters, shown to exist. That the restarts converge is not proved."
  },
  {
   "property": "C75",
   "status": "partial",
   "theorems": [
    "TN.Krylov.C75_pairs_partial",
    "TN.Krylov.C75_variational",
    "TN.Krylov.C75_exact",
    "TN.Krylov.C75_reorthogonalize",
    "TN.Krylov.C75_errors",
    "TN.Krylov.C75_nan",
    "TN.Krylov.C75_independent",
    "TN.Krylov.C75_dependent",
    "TN.Krylov.C75_short",
    "TN.Krylov.C75_eigenvector_false",
    "TN.Krylov.C75_smallest_false",
    "TN.Krylov.C75_dimension_false"
   ],
   "note": "Number, order, Ritz pairs of the Krylov space, variational bound, exact part of the spectrum with multiplicities, independence of reorthogonalize, errors, and when the result is NaN or the iteration stops early. The code lacks the rest, with proofs of the negations: a Krylov vector is divided by its norm before the norm is compared with delta, so an initial state that is an eigenvector (num_krylov_vecs >= 2), or any exactly invariant space, gives NaN; after an early stop the matrix is padded with zeros, which come first for positive definite operators; with num_krylov_vecs > dim (default 20) no run finds the smallest eigenvalue of a positive definite operator. Exact real or complex arithmetic; eigh is a parameter, shown to exist."
  },
  {
   "property": "C76",
   "status": "partial",
   "theorems": [
    "TN.Keras.C76_last_axis",
    "TN.Keras.C76_decomp",
    "TN.Keras.C76_expander",
    "TN.Keras.C76_condenser",
    "TN.Keras.C76_mpo",
    "TN.Keras.C76_mpo_legs_partial",
    "TN.Keras.C76_mpo_root_false",
    "TN.Keras.C76_entangler",
    "TN.Keras.C76_entangler_one_level",
    "TN.Keras.C76_entangler_identity",
    "TN.Keras.C76_entangler_order_false",
    "TN.Keras.C76_conv_kernel",
    "TN.Keras.C76_conv_bias_partial",
    "TN.Keras.C76_conv_bias_false",
    "TN.Keras.C76_conv"
   ],
   "note": "The affine map of each dense layer along the last axis, the kernel of the convolution, and the bias for channels_last. The code lacks the rest, with proofs of the negations: DenseMPO checks the rounded root but uses the next integer above it, so when the floating point root is slightly too large (3125**(1./5)) a layer is built of which every call raises; DenseEntangler with two or more levels leaves the legs in a rotated order, given exactly; Conv2DMPO with channels_first adds the bias along the width, or raises. The floating point roots and tf.nn.conv2d are parameters; nodes are contracted as labelled arrays."
  },
  {
   "property": "C77",
   "status": "partial",
   "theorems": [
    "TN.TensorOps.C77_trace",
    "TN.TensorOps.C77_trace_nonsquare",
    "TN.TensorOps.C77_trace_partial",
    "TN.TensorOps.C77_trace_same_axis_false",
    "TN.TensorOps.C77_diagonal",
    "TN.TensorOps.C77_diagonal_swapped",
    "TN.TensorOps.C77_diagonal_tf",
    "TN.TensorOps.C77_trace_diagonal",
    "TN.TensorOps.C77_diagflat",
    "TN.TensorOps.C77_diagflat_vector",
    "TN.TensorOps.C77_diagflat_false",
    "TN.TensorOps.C77_pivot",
    "TN.TensorOps.C77_pivot_doc_false",
    "TN.TensorOps.C77_pivot_range"
   ],
   "note": "Trace, diagonal, diagflat and pivot for every shape and every pair of axes. The code lacks the rest, with proofs of the negations: PyTorch and TensorFlow compare the axes before they wrap negative ones, so the same axis written in two ways, or one axis below -ndim, gives the sum over an axis instead of an error; their diagflat does not flatten; the example in the documentation of pivot is wrong; pivot accepts axes below -ndim; on axes of different sizes the backends differ (documented nowhere). The kernels einsum, np.diagonal, torch.diagonal, diag_embed and tf.linalg.diag are modelled after their documentation."
  },
  {
   "property": "C78",
   "status": "partial",
   "theorems": [
    "TN.KFront.C78_cache",
    "TN.KFront.C78_cache_same",
    "TN.KFront.C78_cache_distinct",
    "TN.KFront.C78_checks",
    "TN.KFront.C78_raises",
    "TN.KFront.C78_args_false",
    "TN.KFront.C78_eig",
    "TN.KFront.C78_gmres",
    "TN.KFront.C78_gmres_inputs",
    "TN.KFront.C78_gmres_raises",
    "TN.KFront.C78_args_kept_partial",
    "TN.KFront.C78_args_kept_false"
   ],
   "note": "The cache, the checks and the way from the solver of the backend to the result. The code lacks one part, with a proof of the negation: the backends of the arguments are not compared with the one that is used, and an argument of another backend reaches the function as a tensor of this backend. The solvers themselves are parameters here; C64 and C73 to C75 are about some of them."
  },
  {
   "property": "C79",
   "status": "proved",
   "theorems": [
    "TN.Graph.C79_reduced_density",
    "TN.Graph.C79_rejects"
   ],
   "note": "For lists without repetition. Conjugation is any function that preserves sums and products."
  },
  {
   "property": "C80",
   "status": "partial",
   "theorems": [
    "TN.Graph.C80_contract_trace_edges",
    "TN.Graph.C80_auto_partial",
    "TN.Graph.C80_auto_empty",
    "TN.Graph.C80_auto_ignore_false",
    "TN.Graph.C80_auto_neighbour_false",
    "TN.Graph.C80_contract_path_partial",
    "TN.Graph.C80_contract_path_trace_false",
    "TN.Graph.C80_path_solver_partial",
    "TN.Graph.C80_path_solver_false"
   ],
   "note": "Complete for auto on two or more nodes, for a single node without neighbours and with an order, and for contract_path without trace edges. The code lacks the rest, with proofs of the negations: auto on one node ignores ignore_edge_order and contracts a neighbour; contract_path drops the node without traces and raises; path_solver('auto') uses the branch search with one candidate for all networks of two to eight nodes."
  },
  {
   "property": "C81",
   "status": "partial",
   "theorems": [
    "TN.Solver.C81_ncon_to_adj",
    "TN.Solver.C81_ncon_solver_partial",
    "TN.Solver.C81_ncon_cost_check",
    "TN.Solver.C81_cost_check_outer_false",
    "TN.Solver.C81_cost_check_any_order"
   ],
   "note": "Complete for ncon_to_adj and for ncon_cost_check on orders that name all contracted labels. Missing for ncon_solver: the result is the best only among the sequences without outer products of tensors that share no bond (the code does not search the others, see C45_optimal_false). ncon_cost_check reports the cost of the sequence of ord_to_ncon only when each contraction shares a label; the negation is proved for the others, because the order in ncon notation does not keep outer products."
  },
  {
   "property": "C82",
   "status": "proved",
   "theorems": [
    "TN.Ex.C82_add_fft",
    "TN.Ex.C82_rejects"
   ],
   "note": "For distinct inputs. Exact arithmetic in the complex numbers."
  },
  {
   "property": "C83",
   "status": "partial",
   "theorems": [
    "TN.Ex.C83_sat_tn",
    "TN.Ex.C83_sat_rejects",
    "TN.Ex.C83_sat_count_partial",
    "TN.Ex.C83_sat_count_false"
   ],
   "note": "Complete for sat_tn. sat_count_tn returns only the part of the network that is connected to the first variable: the theorem needs variables that are connected through clauses, and the negation is proved for others. Exact integers instead of 32 bits."
  },
  {
   "property": "C84",
   "status": "partial",
   "theorems": [
    "TN.TensorCls.C84_tensor_op",
    "TN.TensorCls.C84_same_shape",
    "TN.TensorCls.C84_number",
    "TN.TensorCls.C84_number_left_false",
    "TN.TensorCls.C84_laws",
    "TN.TensorCls.C84_hconj",
    "TN.TensorCls.C84_H",
    "TN.TensorCls.C84_H_H",
    "TN.TensorCls.C84_hconj_inverse",
    "TN.TensorCls.C84_reshape",
    "TN.TensorCls.C84_squeeze",
    "TN.TensorCls.C84_new_partial",
    "TN.TensorCls.C84_new_false",
    "TN.TensorCls.C84_matmul",
    "TN.TensorCls.C84_matmul_assoc",
    "TN.TensorCls.C84_matmul_H",
    "TN.TensorCls.C84_broadcast_right",
    "TN.TensorCls.C84_broadcast_left",
    "TN.TensorCls.C84_broadcast_length_false",
    "TN.TensorCls.C84_finalize"
   ],
   "note": "Complete except for what the code does not do: a number divided by a Tensor raises TypeError, Tensor(number) raises AttributeError, and the two broadcasting products accept axes of length one (negations proved). Numpy backend; dtypes and aliasing are not modelled; exact arithmetic."
  },
  {
   "property": "C85",
   "status": "proved",
   "theorems": [
    "TN.Graph.C85_flatten_all",
    "TN.Graph.C85_flatten_between",
    "TN.Graph.C85_parallel",
    "TN.Graph.C85_divide"
   ],
   "note": "For every order of the sets, which are parameters. Axis names of flattened nodes are left out of this model; see C72."
  },
  {
   "property": "C86",
   "status": "proved",
   "theorems": [
    "TN.Wave.C86_apply_op",
    "TN.Wave.C86_expval",
    "TN.Wave.C86_circuit",
    "TN.Wave.C86_circuit_iff",
    "TN.Wave.C86_circuit_overlap",
    "TN.Wave.C86_trotter_step",
    "TN.Wave.C86_evolve",
    "TN.Wave.C86_terms",
    "TN.Wave.C86_defun",
    "TN.Wave.C86_unitary",
    "TN.Wave.C86_euclid_norm"
   ],
   "note": "Exact complex numbers; tf.linalg.expm is the exponential of a matrix. Nodes are arrays with their edges, contract_between is the contraction of the common edges (see C01, C02). C86_circuit_iff is for gates with an even number of axes, not zero. dtypes are left out: the time of evolve_trotter_defun has the dtype of psi."
  },
  {
   "property": "C87",
   "status": "proved",
   "theorems": [
    "TN.Graph.C87_from_topology",
    "TN.Graph.C87_einsum_false"
   ],
   "note": "A name is the number of a character. C87_einsum_false: a name twice in one group, a name in three groups, and the empty string for no tensors are refused, although the documentation promises the left side of an einsum expression. Names of edges and nodes are not part of the result."
  },
  {
   "property": "C88",
   "status": "partial",
   "theorems": [
    "TN.Mera.C88_energy",
    "TN.Mera.C88_identity",
    "TN.Mera.C88_descend_partial",
    "TN.Mera.C88_descend_trace",
    "TN.Mera.C88_descend_hermitian",
    "TN.Mera.C88_descend_false",
    "TN.Mera.C88_descend_pairing",
    "TN.Mera.C88_ascend",
    "TN.Mera.C88_ascend_identity",
    "TN.Mera.C88_shift",
    "TN.Mera.C88_shift_energy",
    "TN.Mera.C88_shift_nonpos"
   ],
   "note": "descend returns the transpose of the descended state, for a Hermitian state its complex conjugate (C88_descend_partial, C88_descend_hermitian, C88_descend_false); everything else is as stated. jax.grad is the complex derivative by the entries; what eigh returns is assumed to be the eigenvalues (EigSpec, shown to be satisfiable)."
  },
  {
   "property": "C89",
   "status": "partial",
   "theorems": [
    "TN.Bs.C89_fuse",
    "TN.Bs.C89_fuse_indices",
    "TN.Bs.C89_flip",
    "TN.Bs.C89_index_eq_partial",
    "TN.Bs.C89_index_eq_false",
    "TN.Bs.C89_compare_partial",
    "TN.Bs.C89_compare_order",
    "TN.Bs.C89_compare_true_false",
    "TN.Bs.C89_compare_contiguous_false"
   ],
   "note": "Fusion and flip hold as stated. Equal indices have equal charges and flows, but not conversely (C89_index_eq_false). compare_shapes looks at the legs in the order of the storage: it is True for a tensor and its transpose with other charges (C89_compare_true_false) and False for a transposed tensor and its contiguous copy (C89_compare_contiguous_false); for tensors with the same order True implies equal sparse shapes (C89_compare_partial)."
  },
  {
   "property": "C90",
   "status": "partial",
   "theorems": [
    "TN.MpoRoll.C90_init",
    "TN.MpoRoll.C90_init_false",
    "TN.MpoRoll.C90_roll_partial",
    "TN.MpoRoll.C90_roll_raises",
    "TN.MpoRoll.C90_roll_negative_false"
   ],
   "note": "roll is as stated for 0 <= n <= N if the bonds fit (C90_roll_partial); for larger |n| it raises IndexError (C90_roll_raises); for -N <= n < 0 it duplicates tensors (C90_roll_negative_false, for all such n). The constructor compares only the outer bonds (C90_init, C90_init_false). All tensors have the same dtype."
  },
  {
   "property": "C91",
   "status": "proved",
   "theorems": [
    "TN.Mera.C91_env_iso",
    "TN.Mera.C91_env_dis",
    "TN.Mera.C91_update_iso",
    "TN.Mera.C91_update_dis",
    "TN.Mera.C91_phase",
    "TN.Mera.C91_iso_linear",
    "TN.Mera.C91_dis_linear",
    "TN.Mera.C91_descend_pos",
    "TN.Mera.C91_optimize"
   ],
   "note": "Exact arithmetic. jax.grad with holomorphic=True of a function that is not holomorphic is modelled by its definition (transposed derivative of the cotangent 1). The SVD of a matrix is a parameter with the properties of IsSvd, shown to be satisfiable (kernel_exists). Nothing is said about the true energy decreasing. Printing is left out."
  },
  {
   "property": "C92",
   "status": "partial",
   "theorems": [
    "TN.Switch.C92_switch_partial",
    "TN.Switch.C92_raises_midway",
    "TN.Switch.C92_again_false",
    "TN.Switch.C92_symmetric",
    "TN.Switch.C92_unknown",
    "TN.Switch.C92_numpy",
    "TN.Switch.C92_atomic_false"
   ],
   "note": "When the call returns and what it then has done: as stated if no node is given twice (C92_switch_partial; a node given twice makes it raise). A call that raises has switched the nodes in front (C92_raises_midway, C92_atomic_false), and a second call raises (C92_again_false, for every target). The conversions of the backends are parameters."
  },
  {
   "property": "C93",
   "status": "partial",
   "theorems": [
    "TN.Bs.C93_solves_partial",
    "TN.Bs.C93_refused",
    "TN.Bs.C93_guess_false",
    "TN.Bs.C93_shape_false",
    "TN.Bs.C93_default_false"
   ],
   "note": "As stated if no legs of b are fused and the guess, if there is one, has the order of b (C93_solves_partial). Three parts fail: a transposed guess is accepted and then the solution is not one (C93_guess_false), with fused legs the solution has another shape than b (C93_shape_false), and without guess the iteration starts from random numbers instead of zeros (C93_default_false). The solver on vectors is a parameter (SolverOK, satisfied by bestSolver). dtypes, A_args, M and the cache are left out."
  },
  {
   "property": "C94",
   "status": "partial",
   "theorems": [
    "TN.Bs.C94_eigs_partial",
    "TN.Bs.C94_refused",
    "TN.Bs.C94_shape_false"
   ],
   "note": "As stated if no legs of the initial state are fused (C94_eigs_partial); with fused legs the eigenvectors have another shape (C94_shape_false). The kernel is a parameter (EigsOK, satisfied by bestEigs). args, maxiter and the cache are left out."
  },
  {
   "property": "C95",
   "status": "partial",
   "theorems": [
    "TN.Np.C95_gmres_partial",
    "TN.Np.C95_default",
    "TN.Np.C95_clip",
    "TN.Np.C95_refused",
    "TN.Np.C95_eigs",
    "TN.Np.C95_eigs_refused",
    "TN.Np.C95_scalar_false",
    "TN.Np.C95_integer_false"
   ],
   "note": "As stated for arrays with axes and elements whose dtype holds the solution (C95_gmres_partial). An array of integers gets a rounded solution and info 0 (C95_integer_false), an array without axes raises TypeError (C95_scalar_false). The functions of scipy are parameters (SolverOK, EigsOK; satisfied by bestSolver, bestEigs). Other effects of dtypes, A_args, M and maxiter are left out."
  },
  {
   "property": "C96",
   "status": "proved",
   "theorems": [
    "TN.Bs.C96_lanczos",
    "TN.Bs.C96_ritz",
    "TN.Bs.C96_refused",
    "TN.Bs.C96_charges_false"
   ],
   "note": "C96_ritz combines C96_lanczos with C57. np.linalg.eigh is a parameter. Unlike the numpy backend (C57_initial_changed) the initial state keeps its value. The operator must return indices that are equal in the sense of Index.__eq__; the documentation asks only for the shape, and equal charges are not enough (C96_charges_false). Arithmetic is exact; a division by the norm zero, which gives NaN, stops both models."
  },
  {
   "property": "C97",
   "status": "proved",
   "theorems": [
    "TN.Bs.C97_init",
    "TN.Bs.C97_like",
    "TN.Bs.C97_constant",
    "TN.Bs.C97_ones_zeros",
    "TN.Bs.C97_random",
    "TN.Bs.C97_random_complex",
    "TN.Bs.C97_boundaries_false"
   ],
   "note": "The numpy functions that fill an array are parameters that return as many numbers as asked for; C97_random also asks that they are in the interval. Real and complex random numbers are covered, other effects of dtypes are not modelled. Indices must have at least one leg each and there must be at least one."
  },
  {
   "property": "C98",
   "status": "partial",
   "theorems": [
    "TN.Viz.C98_picture",
    "TN.Viz.C98_closed",
    "TN.Viz.C98_iterator_false",
    "TN.Viz.C98_neighbour_false"
   ],
   "note": "As stated for collections. An iterator is read by the first of two loops, so its picture has no line (C98_iterator_false, for every network); an edge to a node that is left out leads to an undeclared vertex (C98_neighbour_false, for every such edge). The result is the list of statements; the strings that name the vertices are kept as addresses."
  }
 ]
}