{"id": "C01", "title": "ncon computes the Einstein sum", "statement": "Whenever ncon returns a tensor for a network in which no label is repeated inside a single tensor except a closed label that occurs twice in that tensor and nowhere else, every entry of the result equals the sum, over all values of the closed labels, of the product of the matching tensor entries; open labels shared by several tensors index the same position.", "quantifier": "all lists of tensors of any rank and dimension over any commutative semiring, all label assignments (including batch labels), all accepted contraction orders, and all iteration orders of Python sets", "why_tests_cant": "The number of networks, shapes and contraction orders is unbounded; a test fixes one network and one order, and set iteration order cannot be forced.", "anchors": ["tensornetwork/ncon_interface.py:ncon", "tensornetwork/ncon_interface.py:_jittable_ncon", "tensornetwork/ncon_interface.py:_partial_trace", "tensornetwork/ncon_interface.py:_batch_cont"]}
{"id": "C02", "title": "ncon result does not depend on the contraction order", "statement": "If ncon succeeds on the same tensors and labels with two different values of con_order (or with the default), the two results have the same shape and the same entries.", "quantifier": "all networks as in C01 and all pairs of contraction orders for which ncon returns", "why_tests_cant": "n closed labels have n! orders, each with different intermediate reshapes.", "anchors": ["tensornetwork/ncon_interface.py:ncon", "tensornetwork/ncon_interface.py:_jittable_ncon"]}
{"id": "C03", "title": "ncon always succeeds on ordinary networks", "statement": "For a network in which every closed label occurs exactly twice and every open label exactly once, with matching dimensions, ncon returns a tensor (no exception and no endless loop) for every permutation of the closed labels as con_order.", "quantifier": "all such networks, all permutations given as con_order, all set iteration orders", "why_tests_cant": "Absence of an exception or of an endless loop for all orders cannot be sampled.", "anchors": ["tensornetwork/ncon_interface.py:_jittable_ncon"]}
{"id": "C04", "title": "axis order of the ncon result", "statement": "Without out_order the axes of an ncon result are the distinct open labels: numeric ones in descending order, then string ones in ascending order. With out_order they are exactly out_order.", "quantifier": "all accepted networks with mixed numeric and string labels and all out_order permutations", "why_tests_cant": "The rule ranges over all label sets; the implementation goes through an intermediate integer renaming which must be order preserving for every label set.", "anchors": ["tensornetwork/ncon_interface.py:_canonicalize_network_structure", "tensornetwork/ncon_interface.py:_get_cont_out_labels", "tensornetwork/ncon_interface.py:ncon"]}
{"id": "C05", "title": "ncon label checks accept exactly the well-formed requests", "statement": "The network check raises exactly when one of the documented conditions is broken: tensor count, label count per tensor, zero label, non-alphanumeric strings, con_order/out_order not being a duplicate-free enumeration of the closed/open labels, or a closed label whose dimensions disagree.", "quantifier": "all label lists, shapes, contraction orders and output orders", "why_tests_cant": "A finite suite can only show some rejected and some accepted inputs, not that the check is exact.", "anchors": ["tensornetwork/ncon_interface.py:_check_network"]}
{"id": "C06", "title": "ncon and repeated labels inside one tensor", "statement": "A closed label that occurs twice in one tensor and again in another tensor, or an open label repeated in one tensor, is still interpreted as one summed (or kept) index, as the documentation of batch labels says.", "quantifier": "all networks with a label repeated inside a tensor", "why_tests_cant": "The failure only shows on label patterns a test author did not think of; the claim is about all patterns (it is false, see the witness theorems).", "anchors": ["tensornetwork/ncon_interface.py:_partial_trace", "tensornetwork/ncon_interface.py:ncon"]}
{"id": "C07", "title": "graph consistency is an invariant of every editing history", "statement": "After any sequence of successful graph edits (create node, connect, disconnect, contract, contract_between, outer product, reorder axes or edges, flatten, split, remove node, redirect), every edge listed by a live node names that node and that axis as one of its ends, both ends of a connected edge have equal dimension, and no live node lists a disabled edge.", "quantifier": "all finite histories of edits with arbitrary arguments, including calls that are rejected", "why_tests_cant": "The invariant has to hold after every history; tests only execute a few short ones.", "anchors": ["tensornetwork/network_operations.py:check_correct", "tensornetwork/network_components.py:Edge", "tensornetwork/network_components.py:connect", "tensornetwork/network_components.py:disconnect", "tensornetwork/network_components.py:contract", "tensornetwork/network_components.py:contract_between", "tensornetwork/network_components.py:outer_product"]}
{"id": "C08", "title": "contracting an edge preserves the value of the network", "statement": "contract on any connected edge (between two nodes or a trace edge) leaves the value of the whole network, as a function of its dangling edges, unchanged, and the surviving dangling edges are the same edge objects.", "quantifier": "all networks whose nodes have a name for every axis (C72 says which do), all connected edges, all tensors over a commutative semiring", "why_tests_cant": "Networks and tensors range over infinite sets.", "anchors": ["tensornetwork/network_components.py:contract", "tensornetwork/network_components.py:_contract_trace", "tensornetwork/network_components.py:_remove_edges", "tensornetwork/network_components.py:_remove_trace_edge"]}
{"id": "C09", "title": "contract_between preserves the value and honours the requested edge order", "statement": "contract_between(a,b) sums over all edges shared by a and b, preserves the value of the network, and when output_edge_order is given, the edges of the result are in that order; it is rejected if that list is not a permutation of the remaining edges, and with no shared edge it is rejected unless the outer product is allowed.", "quantifier": "all pairs of nodes, any number of shared edges, all output orders", "why_tests_cant": "Axis bookkeeping for arbitrary ranks and any number of parallel edges.", "anchors": ["tensornetwork/network_components.py:contract_between", "tensornetwork/network_components.py:get_shared_edges"]}
{"id": "C10", "title": "full contraction is independent of the order of pairwise contractions", "statement": "Contracting a closed-under-neighbours set of nodes down to a single node by any sequence of pairwise contractions (as every path based contractor does) yields the same tensor for a given order of the dangling edges.", "quantifier": "all networks and all contraction paths", "why_tests_cant": "The number of paths is super-exponential in the number of nodes.", "anchors": ["tensornetwork/contractors/opt_einsum_paths/path_contractors.py:base", "tensornetwork/network_components.py:contract_between", "tensornetwork/network_components.py:contract_parallel"]}
{"id": "C11", "title": "reordering axes and edges does not change the network", "statement": "reorder_edges and reorder_axes with a permutation keep the value of the network unchanged, the node then lists the edges in the requested order, and get(edge order) matches the tensor axes; non-permutations are rejected.", "quantifier": "all nodes that have a name for every axis (C72 says which do), all permutations and non-permutations", "why_tests_cant": "All ranks and permutations.", "anchors": ["tensornetwork/network_components.py:AbstractNode.reorder_edges", "tensornetwork/network_components.py:AbstractNode.reorder_axes", "tensornetwork/network_components.py:AbstractNode.tensor_from_edge_order"]}
{"id": "C12", "title": "flatten_edges and split_edge are inverse and value preserving", "statement": "Flattening a set of parallel edges gives one edge whose dimension is the product and the contracted value of the network is unchanged; split_edge with the original dimensions in the same order undoes it; the new axes are the last ones of their nodes; split_edge rejects shapes whose product differs.", "quantifier": "all sets of parallel edges in any order, all factorisations", "why_tests_cant": "Row-major index arithmetic for arbitrary ranks and dimensions.", "anchors": ["tensornetwork/network_components.py:flatten_edges", "tensornetwork/network_components.py:split_edge", "tensornetwork/network_components.py:flatten_edges_between"]}
{"id": "C13", "title": "outer products", "statement": "outer_product places the axes of the second node after those of the first and outer_product_final_nodes yields the axes in the requested edge order; the value of the network is preserved.", "quantifier": "all nodes and edge orders", "why_tests_cant": "All ranks and orders.", "anchors": ["tensornetwork/network_components.py:outer_product", "tensornetwork/network_components.py:outer_product_final_nodes"]}
{"id": "C14", "title": "copying a network gives an independent isomorphic network", "statement": "copy(nodes) returns fresh nodes and edges with the same tensors and the same connectivity inside the set; edges to nodes outside become dangling; later edits of the copy never change the original.", "quantifier": "all networks and all subsets of nodes", "why_tests_cant": "Isomorphism and independence are claims about all graphs and all later edits.", "anchors": ["tensornetwork/network_operations.py:copy", "tensornetwork/network_operations.py:replicate_nodes"]}
{"id": "C15", "title": "reachable is exactly the connected component", "statement": "reachable(start) returns exactly the nodes connected to start by a chain of edges; check_connected accepts exactly connected collections.", "quantifier": "all graphs, including cyclic ones, and all start sets", "why_tests_cant": "Reachability soundness and completeness for every graph; termination on cycles.", "anchors": ["tensornetwork/network_operations.py:reachable", "tensornetwork/network_operations.py:_reachable", "tensornetwork/network_operations.py:check_connected"]}
{"id": "C16", "title": "removing or disconnecting cuts exactly the requested edges", "statement": "disconnect replaces one connected edge by two dangling edges of the same dimension at the same axes and touches nothing else; remove_node does this for each connected non-trace edge of the node and reports the new dangling edges of the neighbours by axis.", "quantifier": "all networks, edges and nodes; for remove_node, nodes with as many axis names as axes (C72 says which do)", "why_tests_cant": "All graphs.", "anchors": ["tensornetwork/network_components.py:disconnect", "tensornetwork/network_components.py:Edge.disconnect", "tensornetwork/network_operations.py:remove_node"]}
{"id": "C17", "title": "splitting a node and recontracting gives back the node", "statement": "split_node, split_node_qr, split_node_rq (without truncation) with any bipartition of the edges give two nodes joined by a new edge whose contraction equals the original tensor in the order left edges, right edges; edge objects keep their identity; wrong bipartitions are rejected. split_node_full_svd gives three nodes in a row (isometry, diagonal of the kept singular values, isometry) that stand for a tensor whose distance from the original is the norm of the truncated values it returns.", "quantifier": "all nodes, all bipartitions, every matrix factorisation the backend may return", "why_tests_cant": "All ranks, bipartitions and all valid factorisations.", "anchors": ["tensornetwork/network_operations.py:split_node", "tensornetwork/network_operations.py:split_node_qr", "tensornetwork/network_operations.py:split_node_rq", "tensornetwork/network_operations.py:split_node_full_svd"]}
{"id": "C18", "title": "slice_edge returns the requested number of entries", "statement": "slice_edge(edge, start, length), when not rejected, restricts both ends to the same index range, and the edge then has dimension length.", "quantifier": "all edges, all integer start values (including negative) and lengths", "why_tests_cant": "Boundary arithmetic over all integers (false for start = -length; see witness).", "anchors": ["tensornetwork/network_components.py:slice_edge", "tensornetwork/backends/numpy/numpy_backend.py:NumPyBackend.slice"]}
{"id": "C19", "title": "JSON serialisation round trip", "statement": "nodes_from_json(nodes_to_json(nodes)) gives nodes with the same tensors, names and connectivity among the given nodes; edges leaving the set become dangling.", "quantifier": "all networks and all subsets of nodes", "why_tests_cant": "All graphs and subsets (false when the excluded end is the first end; see witness).", "anchors": ["tensornetwork/network_operations.py:nodes_to_json", "tensornetwork/network_operations.py:nodes_from_json", "tensornetwork/network_components.py:Edge.to_serial_dict"]}
{"id": "C20", "title": "saving a network does not modify it", "statement": "save_nodes leaves the names of nodes and edges of the saved network unchanged.", "quantifier": "all networks", "why_tests_cant": "Restoration must hold for all graphs (false for edge names; see witness).", "anchors": ["tensornetwork/utils.py:save_nodes", "tensornetwork/utils.py:load_nodes"]}
{"id": "C21", "title": "charge fusion is an abelian group law", "statement": "Fusing charges of type U1, Z2, ZN and products of these is associative and commutative, the identity charge is neutral and the dual is the inverse; fusing two legs lists the fused charge of every pair in row-major order, independent of the internal unique/label representation.", "quantifier": "all charges, all lengths, all numbers of symmetries, both flow directions", "why_tests_cant": "Infinite value ranges and all lengths.", "anchors": ["tensornetwork/block_sparse/charge.py:BaseCharge", "tensornetwork/block_sparse/charge.py:U1Charge", "tensornetwork/block_sparse/charge.py:Z2Charge", "tensornetwork/block_sparse/charge.py:ZNCharge", "tensornetwork/block_sparse/charge.py:fuse_charges"]}
{"id": "C22", "title": "number of stored elements equals the number of charge conserving positions", "statement": "compute_num_nonzero for any legs equals the number of dense positions whose charges with flows fuse to the identity.", "quantifier": "all numbers of legs, all charges and flows", "why_tests_cant": "The count is computed by iterated degeneracy fusion; equality with the dense count for all legs needs induction.", "anchors": ["tensornetwork/block_sparse/blocksparse_utils.py:compute_num_nonzero", "tensornetwork/block_sparse/blocksparse_utils.py:compute_fused_charge_degeneracies"]}
{"id": "C23", "title": "dense/sparse round trip", "statement": "fromdense followed by todense returns the dense array whenever it only has entries at charge conserving positions, and todense followed by fromdense returns the same stored data; todense is zero at all other positions.", "quantifier": "all legs, charges, flows, axis orders and data", "why_tests_cant": "All shapes and charge configurations.", "anchors": ["tensornetwork/block_sparse/blocksparsetensor.py:BlockSparseTensor.fromdense", "tensornetwork/block_sparse/blocksparsetensor.py:BlockSparseTensor.todense"]}
{"id": "C24", "title": "block decomposition covers each stored element exactly once", "statement": "For every split of the legs into rows and columns (in any transposed order) the block maps enumerate each stored element exactly once, each block lists its elements in row-major order of the block, and the block shapes match.", "quantifier": "all legs, partitions and permutations of legs", "why_tests_cant": "Covers all charge configurations and permutations; computed by a stride based algorithm that never touches the dense positions.", "anchors": ["tensornetwork/block_sparse/blocksparse_utils.py:_find_diagonal_sparse_blocks", "tensornetwork/block_sparse/blocksparse_utils.py:_find_transposed_diagonal_sparse_blocks", "tensornetwork/block_sparse/blocksparse_utils.py:reduce_charges"]}
{"id": "C25", "title": "symmetric tensordot equals dense tensordot", "statement": "tensordot of two block sparse tensors, converted to dense, equals the dense tensordot of the dense versions, for every choice of axes, including outer products and full contractions.", "quantifier": "all symmetric tensors, all axes, all prior transpositions and reshapes", "why_tests_cant": "All charge configurations and axis choices.", "anchors": ["tensornetwork/block_sparse/blocksparsetensor.py:tensordot", "tensornetwork/block_sparse/blocksparsetensor.py:outerproduct"]}
{"id": "C26", "title": "lazy transpose and reshape of symmetric tensors agree with dense", "statement": "transpose, reshape and contiguous change the dense version exactly as numpy does, whatever the pending lazy order.", "quantifier": "all symmetric tensors, permutations and compatible shapes", "why_tests_cant": "Compositions of lazy operations of any length.", "anchors": ["tensornetwork/block_sparse/blocksparsetensor.py:ChargeArray.transpose", "tensornetwork/block_sparse/blocksparsetensor.py:ChargeArray.reshape", "tensornetwork/block_sparse/blocksparsetensor.py:BlockSparseTensor.contiguous"]}
{"id": "C27", "title": "block caching is transparent", "statement": "With caching enabled, every block lookup returns the same result as without caching, for any history of enable, disable, clear and lookups.", "quantifier": "all histories of cache operations and lookups", "why_tests_cant": "Needs all histories; a collision between two keys is missed by tests (it is false across different charge types; see witness).", "anchors": ["tensornetwork/block_sparse/caching.py", "tensornetwork/block_sparse/blocksparse_utils.py:_find_diagonal_sparse_blocks", "tensornetwork/block_sparse/blocksparse_utils.py:_to_string"]}
{"id": "C28", "title": "charge intersection and uniqueness", "statement": "unique returns the sorted distinct charges with correct first positions, inverse labels and counts; intersect returns exactly the common charges with positions in both arguments.", "quantifier": "all charge arrays, with any number of symmetries", "why_tests_cant": "All lengths and values; multi-column charges are packed into single integers first.", "anchors": ["tensornetwork/block_sparse/utils.py:unique", "tensornetwork/block_sparse/utils.py:intersect", "tensornetwork/block_sparse/charge.py:BaseCharge.unique", "tensornetwork/block_sparse/charge.py:BaseCharge.intersect"]}
{"id": "C29", "title": "singular value truncation is optimal for the requested error", "statement": "The dense svd keeps the longest needed prefix: the discarded tail is the largest tail whose Euclidean norm is at most the allowed (absolute or relative) error, at most max_singular_values are kept, kept values followed by discarded values are the original list.", "quantifier": "all non-increasing non-negative singular value lists, all bounds", "why_tests_cant": "Quantifies over all real lists and thresholds.", "anchors": ["tensornetwork/backends/numpy/decompositions.py:svd"]}
{"id": "C30", "title": "block sparse svd truncation keeps real singular values only", "statement": "The symmetric svd keeps the globally largest singular values and never keeps more values in a block than the block has.", "quantifier": "all families of blocks and all bounds", "why_tests_cant": "Depends on tie breaking between padding zeros and exact zeros (false; see witness).", "anchors": ["tensornetwork/backends/symmetric/decompositions.py:svd"]}
{"id": "C31", "title": "default backend stack discipline", "statement": "Inside nested DefaultBackend blocks the innermost one is in force, and leaving a block (normally or by an exception) restores the previous default; set_default_backend is rejected inside a block.", "quantifier": "all properly nested histories of enter, exit and set", "why_tests_cant": "All nesting depths and histories.", "anchors": ["tensornetwork/backend_contextmanager.py:DefaultBackend", "tensornetwork/backend_contextmanager.py:set_default_backend"]}
{"id": "C32", "title": "node collection stack discipline", "statement": "Nodes created inside nested NodeCollection blocks are added to the innermost container only, each exactly once, and the outer collection is active again after the block.", "quantifier": "all nested histories of enter, exit and node creation", "why_tests_cant": "All nesting depths and histories.", "anchors": ["tensornetwork/ops.py", "tensornetwork/network_components.py:NodeCollection"]}
{"id": "C33", "title": "backend lookup is memoised and stable", "statement": "get_backend returns the same object for the same name for the whole life of the process, different names give different objects, unknown names are rejected without changing any state.", "quantifier": "all histories of lookups", "why_tests_cant": "All histories.", "anchors": ["tensornetwork/backends/backend_factory.py:get_backend"]}
{"id": "C34", "title": "order to ncon conversion yields a valid contraction order", "statement": "ord_to_ncon turns any sequence of pairwise contractions into a contraction order that lists every closed label exactly once, so it is accepted by ncon.", "quantifier": "all networks and all pairwise contraction sequences", "why_tests_cant": "All networks and sequences.", "anchors": ["tensornetwork/contractors/custom_path_solvers/nconinterface.py:ord_to_ncon"]}
{"id": "C35", "title": "greedy path solvers return complete contraction sequences", "statement": "The greedy solvers return N-1 pairwise contractions with both positions inside the current list and distinct.", "quantifier": "all log-adjacency matrices", "why_tests_cant": "All matrices (false for all-zero matrices in the cost solver; see witness).", "anchors": ["tensornetwork/contractors/custom_path_solvers/pathsolvers.py:greedy_cost_solve", "tensornetwork/contractors/custom_path_solvers/pathsolvers.py:greedy_size_solve"]}
{"id": "C36", "title": "multi_remove deletes exactly the given positions", "statement": "multi_remove(list, positions) returns the list without the elements at these positions, in order.", "quantifier": "all lists and position lists", "why_tests_cant": "All inputs.", "anchors": ["tensornetwork/contractors/opt_einsum_paths/utils.py:multi_remove"]}
{"id": "C37", "title": "moving the orthogonality centre of an MPS keeps the state", "statement": "position(site, normalize=False) without truncation leaves every amplitude of the state unchanged, for any sequence of moves.", "quantifier": "all MPS, all sites, all sequences of moves, every valid QR/RQ factorisation", "why_tests_cant": "All lengths, bond dimensions and move sequences.", "anchors": ["tensornetwork/matrixproductstates/base_mps.py:BaseMPS.position"]}
{"id": "C38", "title": "canonical form is an invariant of the MPS", "statement": "After construction with canonicalisation and after any sequence of position calls, all tensors left of the centre are left isometric and all tensors right of it are right isometric.", "quantifier": "all MPS and all sequences of moves", "why_tests_cant": "All lengths and sequences.", "anchors": ["tensornetwork/matrixproductstates/base_mps.py:BaseMPS.position", "tensornetwork/matrixproductstates/finite_mps.py:FiniteMPS.__init__", "tensornetwork/matrixproductstates/finite_mps.py:FiniteMPS.canonicalize"]}
{"id": "C39", "title": "two-site gates act on the state and keep the centre bookkeeping right", "statement": "apply_two_site_gate without truncation changes the amplitudes exactly by the gate, and afterwards the recorded centre is the site with the non-isometric tensor.", "quantifier": "all MPS, gates and neighbouring sites", "why_tests_cant": "All MPS and gates (the centre part is false without truncation; see witness).", "anchors": ["tensornetwork/matrixproductstates/base_mps.py:BaseMPS.apply_two_site_gate"]}
{"id": "C40", "title": "local expectation values use the right environments", "statement": "measure_local_operator returns the full expectation value of the state, and measure_two_body_correlator the full correlator for each requested site.", "quantifier": "all canonical MPS, operators and site lists", "why_tests_cant": "All lengths; the environments are replaced by identities on one side of the centre, which is only right because of C38.", "anchors": ["tensornetwork/matrixproductstates/finite_mps.py:FiniteMPS.left_envs", "tensornetwork/matrixproductstates/finite_mps.py:FiniteMPS.right_envs", "tensornetwork/matrixproductstates/base_mps.py:BaseMPS.measure_local_operator", "tensornetwork/matrixproductstates/base_mps.py:BaseMPS.measure_two_body_correlator"]}
{"id": "C41", "title": "matrix product Hamiltonians represent the stated Hamiltonian", "statement": "Multiplying out FiniteTFI (FiniteXXZ) gives exactly the sum of the nearest neighbour couplings and the field terms.", "quantifier": "all chain lengths >= 2, all coupling vectors", "why_tests_cant": "All lengths; the operator has exponential size.", "anchors": ["tensornetwork/matrixproductstates/mpo.py:FiniteTFI", "tensornetwork/matrixproductstates/mpo.py:FiniteXXZ"]}
{"id": "C42", "title": "eliminating identities does not depend on the visiting order", "statement": "contract/eval of a QuOperator containing identity operators gives the same operator whatever order the nodes are visited in.", "quantifier": "all chains of identities and all visiting orders of the node set", "why_tests_cant": "Python set order depends on object addresses and cannot be forced by tests (false for chains of identities; see witness).", "anchors": ["tensornetwork/quantum/quantum.py:eliminate_identities", "tensornetwork/quantum/quantum.py:QuOperator.contract"]}
{"id": "C43", "title": "kron matches the matrix Kronecker product", "statement": "kron(A,B) reshaped to a matrix equals the Kronecker product of the reshaped arguments, and tensors with different backends are rejected.", "quantifier": "all even-rank tensors", "why_tests_cant": "All ranks and shapes (the backend check is vacuous; see witness).", "anchors": ["tensornetwork/linalg/operations.py:kron"]}
{"id": "C44", "title": "node axis bookkeeping of copy tensors", "statement": "Contracting a CopyNode with all its neighbours gives the same value as contracting the explicit copy tensor, and keeps the dangling edges of the neighbours in order.", "quantifier": "all copy nodes and neighbours", "why_tests_cant": "All ranks and neighbour sets.", "anchors": ["tensornetwork/network_components.py:contract_copy_node", "tensornetwork/network_components.py:CopyNode.compute_contracted_tensor"]}
{"id": "C45", "title": "the contraction order search is optimal", "statement": "full_solve_complete returns a contraction sequence whose cost is minimal among all pairwise contraction sequences when no bound is given.", "quantifier": "all networks", "why_tests_cant": "Exhaustive over super-exponentially many sequences with pruning.", "anchors": ["tensornetwork/contractors/custom_path_solvers/pathsolvers.py:full_solve_complete"]}
{"id": "C46", "title": "best partition and strides", "statement": "fuse_strides based dense position computation agrees with row-major positions; the best partition always returns an interior split.", "quantifier": "all dimension lists", "why_tests_cant": "All lists.", "anchors": ["tensornetwork/block_sparse/utils.py:_find_best_partition", "tensornetwork/block_sparse/utils.py:fuse_stride_arrays", "tensornetwork/block_sparse/utils.py:_get_strides"]}
{"id": "C47", "title": "trace of a symmetric tensor over fused legs", "statement": "trace(tensor, axes) equals the dense trace whenever the two legs are compatible, also after transposition inside fused legs.", "quantifier": "all symmetric tensors, all pairs of compatible legs", "why_tests_cant": "Fails only for fused legs with three or more components in a cyclic order (see witness).", "anchors": ["tensornetwork/block_sparse/linalg.py:trace"]}
{"id": "C48", "title": "qr and rq multiply back to the tensor", "statement": "For every tensor and pivot axis, contracting the two factors of qr (rq) over the new axis gives back the tensor, the q factor is an isometry, with and without non_negative_diagonal.", "quantifier": "all tensors, pivots and flags, for every valid matrix factorisation returned by LAPACK", "why_tests_cant": "Floating point tests never produce an exact zero on the diagonal (false there; see witness).", "anchors": ["tensornetwork/backends/numpy/decompositions.py:qr", "tensornetwork/backends/numpy/decompositions.py:rq"]}
{"id": "C49", "title": "connect and disconnect are inverse on the network value", "statement": "connect sums the diagonal of the two joined axes; disconnect gives back two dangling axes in the same positions; the tensors of the nodes never change.", "quantifier": "all consistent graphs and edges", "why_tests_cant": "Quantifies over all surrounding networks.", "anchors": ["tensornetwork/network_components.py:connect", "tensornetwork/network_components.py:disconnect", "tensornetwork/network_components.py:Edge.disconnect"]}
{"id": "C50", "title": "arithmetic of symmetric tensors agrees with dense arithmetic", "statement": "Adding and subtracting tensors, elementwise maps that keep zero, scalar factors and conj give the tensor whose dense version is the dense result, whatever lazy orders are pending on the operands; tensors with other legs are refused.", "quantifier": "all symmetric tensors, pending orders and values", "why_tests_cant": "Operands may store their elements in different orders; the code reorders the data of one of them, which tests cover only for a few orders.", "anchors": ["tensornetwork/block_sparse/blocksparsetensor.py:BlockSparseTensor.__add__", "tensornetwork/block_sparse/blocksparsetensor.py:BlockSparseTensor.__sub__", "tensornetwork/block_sparse/blocksparsetensor.py:BlockSparseTensor._sub_add_protection", "tensornetwork/block_sparse/blocksparsetensor.py:BlockSparseTensor._align_storage_layout", "tensornetwork/block_sparse/blocksparsetensor.py:BlockSparseTensor.conj"]}
{"id": "C51", "title": "eye is the identity matrix", "statement": "For every index, made of any number of elementary legs with any charges and flows, eye(index) is a symmetric tensor whose dense version is the identity matrix.", "quantifier": "all indices, all charges", "why_tests_cant": "The ones are written block by block in the charge sectors; tests compare a few indices.", "anchors": ["tensornetwork/block_sparse/linalg.py:eye"]}
{"id": "C52", "title": "block sparse qr and svd multiply back to the matrix", "statement": "For every symmetric matrix, with fused axes and pending transpositions, the factors of qr and svd are consistent symmetric tensors, their dense versions multiply to the dense matrix, the q factor is an isometry, and a truncated svd leaves out exactly the terms of the discarded vectors.", "quantifier": "all symmetric matrices, for every valid factorisation of the blocks returned by LAPACK", "why_tests_cant": "The factors of the blocks are written one after the other and get their meaning from the order of the charges on a new leg; tests compare a few random matrices.", "anchors": ["tensornetwork/block_sparse/linalg.py:qr", "tensornetwork/block_sparse/linalg.py:svd", "tensornetwork/backends/symmetric/decompositions.py:svd"]}
{"id": "C53", "title": "canonicalize returns the norm of the MPS", "statement": "FiniteMPS.canonicalize brings any MPS into canonical form with respect to its centre without changing the state (up to normalisation) and returns the norm of the MPS, as documented.", "quantifier": "all MPS with and without a recorded centre", "why_tests_cant": "The norm is a global quantity that is computed only implicitly through the sweeps; tests compare it for a few random states.", "anchors": ["tensornetwork/matrixproductstates/finite_mps.py:122-147"]}
{"id": "C54", "title": "HDF5 round trip", "statement": "load_nodes(path) after save_nodes(nodes, path) returns the nodes in the given order with the same tensors, names, axis names and edge names, joined in the same way.", "quantifier": "all networks that are joined among themselves only", "why_tests_cant": "Groups are stored under generated names, edges are written once from their first end and re-attached one by one; tests save a few small networks.", "anchors": ["tensornetwork/utils.py:save_nodes", "tensornetwork/utils.py:load_nodes", "tensornetwork/network_components.py:Edge._load_edge"]}
{"id": "C55", "title": "algebra of quantum operators", "statement": "For QuOperators A and B: the matrix elements of A.adjoint() are the conjugates of the swapped elements of A; (A @ B) has the elements of the matrix product and raises ValueError exactly if the spaces do not match; A.tensor_product(B) has products of elements; partial_trace(S) sums over equal outputs and inputs of the subsystems in S, and raises ValueError exactly if the dimensions of a traced subsystem differ; trace, projector and reduced_density are the corresponding sums; norm() is the 2-norm; multiplication by a scalar operator multiplies every element. None of them changes A or B.", "quantifier": "all operators given by plain nodes with any number of subsystems and dimensions, any network inside", "why_tests_cant": "Every operation copies networks and rewires edges of the copies; tests compare a handful of small operators.", "anchors": ["tensornetwork/quantum/quantum.py:check_spaces", "tensornetwork/quantum/quantum.py:quantum_constructor", "tensornetwork/quantum/quantum.py:QuOperator.adjoint", "tensornetwork/quantum/quantum.py:QuOperator.__matmul__", "tensornetwork/quantum/quantum.py:QuOperator.tensor_product", "tensornetwork/quantum/quantum.py:QuOperator.partial_trace", "tensornetwork/quantum/quantum.py:QuOperator.trace", "tensornetwork/quantum/quantum.py:QuOperator.norm", "tensornetwork/quantum/quantum.py:QuVector.projector", "tensornetwork/quantum/quantum.py:QuVector.reduced_density"]}
{"id": "C56", "title": "bucket contractor", "statement": "bucket(nodes, order) returns nodes whose network has the same value, as a function of the open edges, as the network of the nodes given, for every order of the copy nodes; nodes that are neither in the order nor joined to a copy node in it are returned unchanged, and the open edges stay the same edges.", "quantifier": "all consistent networks and all orders of any number of copy nodes", "why_tests_cant": "Every contraction moves the edges of all neighbours of a copy node to a new node, and later copy nodes see the moved edges; tests contract a few networks.", "anchors": ["tensornetwork/contractors/bucket_contractor.py:bucket", "tensornetwork/network_components.py:contract_copy_node", "tensornetwork/network_components.py:CopyNode.get_partners"]}
{"id": "C57", "title": "Lanczos method", "statement": "For a Hermitian operator A and an initial vector, eigsh_lanczos(A, numeig=k) returns min(k, m) real values in increasing order and as many orthonormal vectors of the Krylov space of dimension m it has built; the values are the matrix elements of A between the vectors and A is diagonal between them; no vector of the Krylov space has a smaller expectation value than the first one returned, in particular not the initial vector; if the method stops because the Krylov space is exhausted, the pairs are eigenpairs up to delta. It raises ValueError exactly for num_krylov_vecs < numeig and for numeig > 1 without reorthogonalisation.", "quantifier": "all Hermitian operators, shapes, nonzero initial vectors, numbers of Krylov vectors and tolerances, every correct diagonalisation of small matrices", "why_tests_cant": "The three-term recursion keeps vectors orthogonal only through an induction over all previous steps; tests compare single eigenvalues of a few matrices up to a tolerance.", "anchors": ["tensornetwork/backends/numpy/numpy_backend.py:NumPyBackend.eigsh_lanczos", "tensornetwork/linalg/krylov.py:eigsh_lanczos"]}
{"id": "C58", "title": "one-site DMRG", "statement": "For a nonzero canonical MPS with outer bonds of dimension one and an MPO for a Hermitian operator H on the same sites, FiniteDMRG accepts them (and raises ValueError for different lengths and for an MPS without a centre); compute_energy returns <psi|H|psi>/<psi|psi> and keeps the state up to a positive factor; run_one_site succeeds for every number of sweeps and every precision, and returns the energy of the state it leaves, which has norm one, is canonical, lives on the same sites, and has an energy not larger than that of the initial state. In particular this holds for FiniteTFI and FiniteXXZ with real couplings, with H the sum of local terms.", "quantifier": "all chain lengths, site and bond dimensions, states, Hermitian operators, Lanczos options with 0 < delta <= 1 and ndiag > 0, and all correct QR, SVD and eigh kernels", "why_tests_cant": "The energy of the whole chain is never computed by the sweep: it is the lowest eigenvalue of a local problem built from environments that are updated incrementally; tests compare the energy of a few chains with exact diagonalisation.", "anchors": ["tensornetwork/matrixproductstates/dmrg.py:FiniteDMRG.__init__", "tensornetwork/matrixproductstates/dmrg.py:BaseDMRG.compute_energy", "tensornetwork/matrixproductstates/dmrg.py:BaseDMRG.run_one_site", "tensornetwork/matrixproductstates/dmrg.py:BaseDMRG._optimize_1s_local"]}
{"id": "C60", "title": "DMRG.position moves the centre together with the environments", "statement": "position(n) of a DMRG object moves the centre of the MPS to any site n of the chain, keeps the state up to a positive factor, and leaves the left environments of all sites up to n and the right environments of all sites from n on, equal to the contraction of the MPS, the MPO and the conjugate MPS on their side.", "quantifier": "all DMRG objects on chains of any length, all sites", "why_tests_cant": "The environments are updated layer by layer and must match tensors that position itself changes; tests compare single environments.", "anchors": ["tensornetwork/matrixproductstates/dmrg.py:BaseDMRG.position", "tensornetwork/matrixproductstates/dmrg.py:BaseDMRG.compute_left_envs", "tensornetwork/matrixproductstates/dmrg.py:BaseDMRG.compute_right_envs"]}
{"id": "C59", "title": "two-site DMRG", "statement": "For a nonzero canonical MPS with outer bonds of dimension one on at least two sites and an MPO for a Hermitian operator, run_two_site(max_bond_dim, num_sweeps) succeeds. With max_bond_dim=None it returns the energy of the state it leaves, which has norm one and an energy not larger than that of the initial state. With max_bond_dim=D > 0 and at least one sweep, every inner bond of the final state has dimension at most D, whatever the bonds were before; the number returned is the energy of a state of norm one of which the final state is the truncation (their squared distance is one minus the squared norm of the final state); in particular it is never below the lowest eigenvalue. On one site the call raises IndexError.", "quantifier": "all chain lengths, site and bond dimensions, bounds D, states, Hermitian operators, numbers of sweeps, Lanczos options with 0 < delta <= 1 and ndiag > 0, and all correct QR, SVD and eigh kernels", "why_tests_cant": "The truncation after every step changes the state the next local problem is built from, so that neither the bond dimensions nor the meaning of the returned number follow from a single step; tests compare the energy of a few chains with exact diagonalisation.", "anchors": ["tensornetwork/matrixproductstates/dmrg.py:BaseDMRG.run_two_site", "tensornetwork/matrixproductstates/dmrg.py:BaseDMRG._optimize_2s_local"]}
{"id": "C61", "title": "tensordot of the TensorFlow package", "statement": "tensordot(tf, a, b, axes) in backends/tensorflow/tensordot2.py returns the tensor whose axes are the free axes of a followed by those of b, each in order, and whose entries are the sums of products over the contracted axes, for axes given as two lists (with negative numbers) or as one number, whether the shapes are known statically or not; if the dimensions of the contracted axes do not match it raises ValueError, as documented.", "quantifier": "all tensors, all axes, all states of knowledge about the shapes", "why_tests_cant": "The code flips, transposes and reshapes in branches chosen by what is known of the shapes; tests cover a few axes.", "anchors": ["tensornetwork/backends/tensorflow/tensordot2.py:tensordot", "tensornetwork/backends/tensorflow/tensordot2.py:_tensordot_should_flip"]}
{"id": "C62", "title": "the TensorFlow and PyTorch decompositions agree with the numpy ones", "statement": "svd, qr and rq of the TensorFlow and PyTorch backends return factors that multiply back to the tensor, keep as many singular values as the numpy backend for every truncation request, and return the discarded values; for qr and rq with non_negative_diagonal=True the triangular factor has a non-negative diagonal.", "quantifier": "all real and complex tensors, pivots and truncation requests, for every valid factorisation by the underlying library", "why_tests_cant": "The choice of the number of kept values is coded differently in each backend, and conventions of the libraries differ for complex matrices; tests use a few real random tensors.", "anchors": ["tensornetwork/backends/tensorflow/decompositions.py:svd", "tensornetwork/backends/tensorflow/decompositions.py:qr", "tensornetwork/backends/tensorflow/decompositions.py:rq", "tensornetwork/backends/pytorch/decompositions.py:svd", "tensornetwork/backends/pytorch/decompositions.py:qr", "tensornetwork/backends/pytorch/decompositions.py:rq"]}
{"id": "C63", "title": "check_orthonormality and check_canonical", "statement": "check_orthonormality(which, site) returns the Frobenius norm of the difference of the Gram matrix of the tensor (connector matrix included) and the identity, and so zero exactly if the tensor is a left (right) isometry; it raises ValueError for another which. check_canonical() returns the norm of the vector of these deviations over the sites to the left and to the right of the centre, and so zero exactly if the MPS is in canonical form.", "quantifier": "all MPS with any number of sites, shapes and centre", "why_tests_cant": "Whether the check can pass for a state that is not canonical is a statement about all states.", "anchors": ["tensornetwork/matrixproductstates/base_mps.py:BaseMPS.check_orthonormality", "tensornetwork/matrixproductstates/base_mps.py:BaseMPS.check_canonical", "tensornetwork/matrixproductstates/base_mps.py:BaseMPS.get_tensor"]}
{"id": "C64", "title": "canonical form of an infinite MPS", "statement": "InfiniteMPS.canonicalize() of a state without a connector matrix, whose transfer matrix has a simple dominant eigenvalue with positive definite eigenvectors, succeeds and leaves the state in Schmidt form: every tensor (the last one with the connector) is a left isometry, the cell with the connector on its left is a right isometry, and the connector is the inverse of a diagonal matrix of decreasing positive numbers whose squares add up to one; the default truncation drops nothing if the normalised eigenvalues of both eigenvectors exceed the threshold, and with any truncation the claims hold whenever nothing is dropped. With or without a connector, the infinite state is the same: the matrices of the cell change by one positive factor and one change of basis. An initial state for the eigenvalue solver with more than one entry raises ValueError.", "quantifier": "all unit cells of any length, dimensions and centre, real and complex, all correct QR, SVD, eigh, inverse and dominant-eigenvector kernels", "why_tests_cant": "The state is infinite: neither the form nor the equality of two states can be seen from finitely many amplitudes; tests compare a few random cells up to a tolerance.", "anchors": ["tensornetwork/matrixproductstates/infinite_mps.py:InfiniteMPS.canonicalize", "tensornetwork/matrixproductstates/infinite_mps.py:InfiniteMPS.transfer_matrix_eigs", "tensornetwork/matrixproductstates/infinite_mps.py:InfiniteMPS.unit_cell_transfer_operator"]}
{"id": "C65", "title": "canonicalize of a canonical infinite MPS", "statement": "Calling InfiniteMPS.canonicalize() on a state that is in Schmidt form leaves it in Schmidt form.", "quantifier": "all infinite MPS in Schmidt form", "why_tests_cant": "The second call sees a connector matrix, which the first did not; whether the result is canonical for every state is a statement about all spectra.", "anchors": ["tensornetwork/matrixproductstates/infinite_mps.py:InfiniteMPS.canonicalize", "tensornetwork/matrixproductstates/base_mps.py:BaseMPS.apply_transfer_operator"]}
{"id": "C66", "title": "the matrix product operator of free fermions represents the stated Hamiltonian", "statement": "Multiplying out FiniteFreeFermion2D gives exactly the sum of the hopping terms between vertical and horizontal neighbours, both ways, with the signs of anticommuting operators, and of the local potential.", "quantifier": "all grids of at least two sites, all hopping amplitudes and potentials", "why_tests_cant": "All grids; the operator has exponential size, and a wrong sign shows only for hopping past occupied sites.", "anchors": ["tensornetwork/matrixproductstates/mpo.py:FiniteFreeFermion2D"]}
{"id": "C67", "title": "inverse and pseudo-inverse of symmetric matrices", "statement": "inv(A) of a symmetric matrix returns a symmetric tensor whose dense version is the inverse of the dense version of A, and raises if there is none; pinv(A) of any symmetric matrix returns the tensor whose dense version meets the four Moore-Penrose conditions. Both raise for anything but two axes.", "quantifier": "all symmetric matrices, with fused axes and pending transpositions, all correct inverses of single blocks", "why_tests_cant": "The inverses of the blocks are written back with rows and columns exchanged into a tensor whose data vector is ordered differently; tests compare a few random matrices.", "anchors": ["tensornetwork/block_sparse/linalg.py:inv", "tensornetwork/block_sparse/linalg.py:pinv"]}
{"id": "C68", "title": "eigenvalues and eigenvectors of symmetric matrices", "statement": "eigh(A) and eig(A) of a symmetric matrix return eigenvalues E and a symmetric tensor V with A V = V diag(E) in the dense versions; for hermitian A, V is unitary and A = V diag(E) V^dagger.", "quantifier": "all symmetric matrices, all correct diagonalisations of single blocks", "why_tests_cant": "The eigenvectors of the blocks are placed on a new leg whose order is that of the charges; tests compare a few matrices.", "anchors": ["tensornetwork/block_sparse/linalg.py:eigh", "tensornetwork/block_sparse/linalg.py:eig"]}
{"id": "C69", "title": "norm of a symmetric tensor", "statement": "norm(T) is the Frobenius norm of the dense version of T.", "quantifier": "all symmetric tensors with any fusing and transposition", "why_tests_cant": "Only the stored elements are summed; that all others vanish, and that each stored element appears once in the dense version, is a statement about all charges.", "anchors": ["tensornetwork/block_sparse/linalg.py:norm"]}
{"id": "C70", "title": "diag of vectors and matrices", "statement": "diag(v) of a ChargeArray with one axis is a consistent symmetric tensor whose dense version is the diagonal matrix with the elements of v; diag(A) of a symmetric matrix whose second index is the first with reversed flows returns the diagonal of the dense version ordered by charge, with the charges of the rows.", "quantifier": "all legs, charges and flows, all symmetric matrices of that form", "why_tests_cant": "The elements are found by charge labels; tests compare a few vectors with one leg.", "anchors": ["tensornetwork/block_sparse/linalg.py:diag", "tensornetwork/block_sparse/blocksparse_utils.py:compute_sparse_lookup"]}
{"id": "C71", "title": "gmres of the jax backend", "statement": "gmres(A_mv, b, x0, tol, atol, num_krylov_vectors, maxiter) of the jax backend returns the vector x with the smallest residual |b - A x| among those that differ from x0 by an element of the Krylov space of the initial residual; with as many Krylov vectors as unknowns and an invertible A, |b - A x| <= max(tol*|b|, atol); a further restart never makes the residual larger; info is 0 exactly if the tolerance was reached. Negative tolerances and numbers of Krylov vectors below one raise ValueError.", "quantifier": "all linear operators, right hand sides, initial guesses, tolerances, numbers of Krylov vectors and restarts", "why_tests_cant": "The iteration overwrites a triangular factor, a rotated right hand side and a basis in lockstep; that they describe the minimal residual at every step, for every operator, is an invariant. The tests solve a few small systems to single precision.", "anchors": ["tensornetwork/backends/jax/jitted_functions.py:gmres_wrapper", "tensornetwork/backends/jax/jax_backend.py:JaxBackend._gmres", "tensornetwork/backends/abstract_backend.py:AbstractBackend.gmres"]}
{"id": "C72", "title": "axis names stay with their axes", "statement": "add_axis_names accepts exactly lists of distinct names, one for every axis; then node[name] is the edge at the axis of that name. reorder_axes, reorder_edges, flatten_edges and split_edge keep the name of every edge that they do not consume, leave one name for every axis, and split_edge gives the new axes the requested names, or else names that are new. remove_node reports the new dangling edges by the names of the axes. A history of edits does to the graph what it does without names; in particular no edit raises because of names.", "quantifier": "all networks, all names, all finite histories of edits", "why_tests_cant": "The names are a list kept in parallel to the list of edges and are edited separately in every function; whether the two stay in step is an invariant of all histories. The tests name the axes of a few nodes and flatten edges at the end of the list.", "anchors": ["tensornetwork/network_components.py:AbstractNode.add_axis_names", "tensornetwork/network_components.py:AbstractNode.get_edge", "tensornetwork/network_components.py:AbstractNode.reorder_axes", "tensornetwork/network_components.py:AbstractNode.reorder_edges", "tensornetwork/network_components.py:AbstractNode.fresh_edges", "tensornetwork/network_components.py:flatten_edges", "tensornetwork/network_components.py:_flatten_trace_edges", "tensornetwork/network_components.py:split_edge", "tensornetwork/network_components.py:_split_trace_edge", "tensornetwork/network_operations.py:remove_node", "tensornetwork/network_components.py:Node.copy"]}
{"id": "C73", "title": "eigs of the jax backend", "statement": "eigs(A, args, initial_state, num_krylov_vecs, numeig, tol, which, maxiter) of the jax backend returns numeig pairs, ordered by real part ('LR') or magnitude ('LM'), each a unit vector v together with <v, A v>; the error |A v - lambda v| is at most tol when the iteration stopped early; with as many Krylov vectors as the dimension and no early stop they are eigenpairs, and the wanted ones of the whole spectrum. An unknown which, numeig > num_krylov_vecs and num_krylov_vecs > dim raise ValueError.", "quantifier": "all linear operators, initial states, sizes, tolerances and numbers of restarts, all correct QR, eigenvalue and sorting kernels", "why_tests_cant": "A restart multiplies the basis and the Hessenberg matrix by unitary matrices, drops rows and columns and rebuilds the residual from two parts; that the Arnoldi relation survives any number of restarts is an invariant. The tests compare a few random matrices, whose wanted eigenvalues have positive real part.", "anchors": ["tensornetwork/backends/jax/jax_backend.py:JaxBackend.eigs", "tensornetwork/backends/jax/jitted_functions.py:_implicitly_restarted_arnoldi", "tensornetwork/backends/jax/jitted_functions.py:_generate_arnoldi_factorization", "tensornetwork/backends/jax/jitted_functions.py:_shifted_QR", "tensornetwork/backends/jax/jitted_functions.py:_get_vectors"]}
{"id": "C74", "title": "eigsh of the jax backend", "statement": "eigsh(A, args, initial_state, num_krylov_vecs, numeig, tol, which, maxiter) of the jax backend returns, for a Hermitian A, numeig pairs ordered by value ('LA', 'SA') or magnitude ('LM'), each a unit vector v together with <v, A v>; the error |A v - lambda v| is at most tol when the iteration stopped early, and a multiple of |lambda| tol that depends on numeig only when the restarts converged; when the iteration found as many vectors as the dimension they are eigenpairs, and the wanted ones of the whole spectrum with their multiplicities. An unknown which and sizes out of order raise ValueError.", "quantifier": "all Hermitian operators, real or complex, initial states, sizes, tolerances and numbers of restarts, all correct QR, eigenvalue and sorting kernels", "why_tests_cant": "Only two diagonals of the projected operator are kept, and the rows of the basis that a restart drops are not cleared; that the three-term relation survives any number of restarts is an invariant that needs the operator to be Hermitian. The tests compare a few random matrices, whose wanted eigenvalues are on the good side of zero, or use exactly as many vectors as the dimension.", "anchors": ["tensornetwork/backends/jax/jax_backend.py:JaxBackend.eigsh", "tensornetwork/backends/jax/jitted_functions.py:_implicitly_restarted_lanczos", "tensornetwork/backends/jax/jitted_functions.py:_generate_lanczos_factorization", "tensornetwork/backends/jax/jitted_functions.py:_check_eigvals_convergence_eigh", "tensornetwork/backends/jax/jitted_functions.py:_shifted_QR"]}
{"id": "C75", "title": "eigsh_lanczos of the jax backend", "statement": "eigsh_lanczos(A, args, initial_state, num_krylov_vecs, numeig, delta, reorthogonalize) of the jax backend returns, for a Hermitian A, the numeig lowest eigenvalues A has within the Krylov space of the initial state: increasing values, unit vectors v of that space with A v - lambda v orthogonal to it, the lowest value never above the mean value in any vector of that space and in particular in the initial state, the lowest eigenvalues of A with multiplicities once the space is the whole one. reorthogonalize does not change the result in exact arithmetic. Too few Krylov vectors, and several eigenvalues without reorthogonalisation, raise ValueError.", "quantifier": "all Hermitian operators, real or complex, initial states, sizes and values of delta, both settings of reorthogonalize, all correct eigh kernels", "why_tests_cant": "That three terms are enough to keep all the vectors orthogonal is an induction over the iteration that needs the operator to be Hermitian, and what the iteration spans is a statement about all polynomials of the operator. The tests use random matrices of dimension above num_krylov_vecs, where the iteration never stops early, and never an eigenvector or a small space.", "anchors": ["tensornetwork/backends/jax/jax_backend.py:JaxBackend.eigsh_lanczos", "tensornetwork/backends/jax/jitted_functions.py:_generate_jitted_eigsh_lanczos", "tensornetwork/backends/jax/jitted_functions.py:_iterative_classical_gram_schmidt"]}
{"id": "C76", "title": "The Keras layers", "statement": "Each layer of tn_keras acts on the last axis only and computes the map its docstring draws: DenseDecomp is x A B + b; DenseExpander gives at (b_1..b_k, j) entry j of x times the matrices node_i[:, b_i, :]; DenseCondenser sums x[b_1..b_k, i] times entry (i, j) of the product of the matrices node_i[:, b, :]; DenseMPO applies the matrix product operator of its nodes; DenseEntangler applies its nodes as gates to neighbouring legs of the input and leaves the legs in place; Conv2DMPO convolves with the kernel that is the contraction of its nodes and adds one bias per filter. A layer that could be built works for every input of its input size.", "quantifier": "all sizes of the layers, numbers of nodes, legs and levels, weights over any commutative semiring, inputs with any number of axes, biases and activations", "why_tests_cant": "The layers are checked by the shape of their output and by training on a few random inputs; no test compares the output with the stated map, and a wrong order of the legs or of the nodes trains equally well. Which leg an edge carries after many gates is an induction over the loop.", "anchors": ["tensornetwork/tn_keras/dense.py:DenseDecomp.call", "tensornetwork/tn_keras/expander.py:DenseExpander.call", "tensornetwork/tn_keras/condenser.py:DenseCondenser.call", "tensornetwork/tn_keras/entangler.py:DenseEntangler.build", "tensornetwork/tn_keras/entangler.py:DenseEntangler.call", "tensornetwork/tn_keras/mpo.py:DenseMPO.build", "tensornetwork/tn_keras/mpo.py:DenseMPO.call", "tensornetwork/tn_keras/conv2d_mpo.py:Conv2DMPO.call"]}
{"id": "C77", "title": "Traces, diagonals and pivots of tensors in the backends", "statement": "linalg.trace sums the entries on which two axes have the same position, linalg.diagonal reads the diagonal with a given offset of two axes into a last axis, linalg.diagflat flattens a tensor and writes it on a diagonal of a square matrix of zeros, and linalg.pivot gives the row-major matrix of the axes before and after the pivot. The numpy, PyTorch and TensorFlow backends return the same arrays, or raise: an axis given twice or out of range is refused, and trace is the sum of diagonal.", "quantifier": "all shapes, numbers of axes, offsets, and pairs of axes written from the front or from the end, in either order, in range or not; entries in any commutative semiring", "why_tests_cant": "The tests call each backend on one or two shapes with the default axes. Whether the letters of the einsum expression select the right entries for every rank and every pair of axes, and whether some pair that should be refused passes, cannot be settled by trying some.", "anchors": ["tensornetwork/linalg/operations.py:trace", "tensornetwork/linalg/operations.py:diagonal", "tensornetwork/linalg/operations.py:diagflat", "tensornetwork/linalg/operations.py:pivot", "tensornetwork/backends/pytorch/pytorch_backend.py:PyTorchBackend.trace", "tensornetwork/backends/tensorflow/tensorflow_backend.py:TensorFlowBackend.trace", "tensornetwork/backends/numpy/numpy_backend.py:NumPyBackend.trace", "tensornetwork/backends/abstract_backend.py:AbstractBackend.pivot"]}
{"id": "C78", "title": "The Tensor interface to the Krylov solvers", "statement": "linalg.eigs, linalg.eigsh_lanczos and linalg.gmres accept exactly the calls in which a backend is named or x0 given, the backends agree and every argument is a Tensor. The backend's solver is run on a function that applies the caller's A to Tensors of this backend, with the caller's arguments; the result comes back as Tensors of this backend, so a solution of the system given to the solver is a solution of the caller's system. The wrapped function is the same object for the same function and backend until the cache is cleared, and never shared by two functions.", "quantifier": "all backends, functions, arguments, solvers and histories of the cache, with any sequence of retrievals and clears", "why_tests_cant": "The cache is global state: what a call gets depends on every earlier call in the process. The tests run each solver once on a fresh pair of function and backend and do not mix the backends of x0 and the arguments.", "anchors": ["tensornetwork/linalg/krylov.py:MatvecCache.retrieve", "tensornetwork/linalg/krylov.py:MatvecCache.clear", "tensornetwork/linalg/krylov.py:krylov_error_checks", "tensornetwork/linalg/krylov.py:eigs", "tensornetwork/linalg/krylov.py:eigsh_lanczos", "tensornetwork/linalg/krylov.py:gmres"]}
{"id": "C79", "title": "Reduced density matrices of pure states", "statement": "reduced_density(edges) on dangling edges adds, to the nodes reachable from them, one new node per node with the conjugate tensor, and connects every listed edge to its copy. The value of the whole network at the positions of the remaining dangling edges and their copies is the sum, over the positions of the listed edges, of the value of the old network times the conjugate value of its copy: the partial trace. The returned dictionaries pair every node and edge with its copy, the listed edges with the connected edge; nodes elsewhere are untouched. A list with an edge that is not dangling, or an empty list, raises ValueError and changes nothing.", "quantifier": "all networks, sets of dangling edges, tensors over a commutative semiring with a conjugation, and iteration orders of sets", "why_tests_cant": "A test checks one small state. That no edge is connected to the wrong copy, that the dictionaries stay right after the connected edges have replaced the old ones, and that the value is the partial trace for every shape of network, needs an argument over all networks.", "anchors": ["tensornetwork/network_operations.py:reduced_density", "tensornetwork/network_operations.py:copy", "tensornetwork/network_operations.py:reachable"]}
{"id": "C80", "title": "The contractors auto, path_solver and contract_path", "statement": "contractors.auto contracts any collection of nodes to the one node that the network stands for, whatever its size and whatever the path search answers, and orders its edges as asked, unless ignore_edge_order is set. path_solver('auto') chooses the search that auto would use. contract_path contracts the nodes along any complete path to the same node, also when the nodes have trace edges. contract_trace_edges returns the node with all traces taken, or the node itself. The nodes and edges elsewhere stay as they are.", "quantifier": "all networks, collections of nodes, paths, output orders, answers of the path search and iteration orders of sets", "why_tests_cant": "The tests run the contractors on a few connected networks. They do not call auto on one node of a larger network or with ignore_edge_order on one node, do not give contract_path a trace edge, and cannot see which search path_solver uses.", "anchors": ["tensornetwork/contractors/opt_einsum_paths/path_contractors.py:auto", "tensornetwork/contractors/opt_einsum_paths/path_contractors.py:path_solver", "tensornetwork/contractors/opt_einsum_paths/path_contractors.py:contract_path", "tensornetwork/network_operations.py:contract_trace_edges"]}
{"id": "C81", "title": "The costs that ncon_solver and ncon_cost_check report", "statement": "ncon_to_adj puts on the diagonal the logarithm of the open dimensions of each tensor and off it the logarithm of the dimension that two tensors share; traces do not count. ncon_solver returns every contracted label once, in an order that belongs to a complete sequence of pairwise contractions; the cost it reports is the number of multiplications of this sequence, and no other sequence is cheaper when it says the result is optimal. ncon_cost_check reports, for every order that names all contracted labels and for the default order, the number of multiplications of a complete sequence, and for the order made by ord_to_ncon that of the sequence itself.", "quantifier": "all networks of tensors in ncon notation, all dimensions, all orders of contraction", "why_tests_cant": "The tests compare the costs of a few networks with recorded numbers. They cannot see that another sequence is cheaper, and run no network where outer products matter.", "anchors": ["tensornetwork/contractors/custom_path_solvers/nconinterface.py:ncon_solver", "tensornetwork/contractors/custom_path_solvers/nconinterface.py:ncon_to_adj", "tensornetwork/contractors/custom_path_solvers/nconinterface.py:ncon_cost_check"]}
{"id": "C82", "title": "The network that add_fft builds is the Fourier transform", "statement": "add_fft(inputs) adds nodes to the network such that the tensor of the network, seen at the edges it returns, is the discrete Fourier transform with factor 2^(-n/2) and negative exponent of the tensor at the inputs. The most significant bit is the first edge on both sides. The returned edges are new, open, distinct and binary; no other edge changes.", "quantifier": "all networks, numbers of inputs, orders of the inputs and positions of the other open edges", "why_tests_cant": "The test transforms one network with a few inputs and compares it with np.fft up to rounding. An error in a phase that first appears at larger n, or in the order of the bits, needs all n.", "anchors": ["examples/fft/fft.py:add_fft"]}
{"id": "C83", "title": "The networks of sat_tn and sat_count_tn stand for the satisfying assignments", "statement": "sat_tn(clauses) returns one open binary edge for each variable up to the largest number, and the tensor of the network is one at the assignments that satisfy all clauses and zero elsewhere. sat_count_tn(clauses) returns a closed network whose value is the number of these assignments. Clauses with a zero, and an empty list, raise ValueError.", "quantifier": "all lists of clauses with three literals, also with repeated variables, and all assignments", "why_tests_cant": "The tests enumerate the assignments of small random instances with connected variables. Repeated literals, unused variables and separate groups of variables are not tried.", "anchors": ["examples/sat/sat_tensornetwork.py:sat_tn", "examples/sat/sat_tensornetwork.py:sat_count_tn"]}
{"id": "C84", "title": "The Tensor class computes with the arrays it wraps", "statement": "t op u for Tensors and the operators + - * / applies the operator entry by entry with numpy's broadcasting from the last axis, and raises ValueError exactly when the backends differ or the shapes do not fit. Numbers may stand on either side. H, hconj, T, reshape, squeeze and @ obey the laws of linear algebra: (t.H).H is t, hconj with inverse permutations undo each other, (a @ b) @ c = a @ (b @ c), (a @ b).H = b.H @ a.H, reshape and squeeze keep the entries in row major order. finalize of a product of a(...) @ b(...) terms is the ncon contraction of the tensors in the order in which they are written. broadcast_left/right_multiplication multiply along the first and the last axis by a vector of the same length and refuse others.", "quantifier": "all tensors, shapes, permutations and numbers", "why_tests_cant": "The tests compare each operator with numpy on a few fixed shapes, mostly equal ones, and on one pair of backends. Laws over all shapes with broadcasting cannot be tried out.", "anchors": ["tensornetwork/tensor.py:Tensor", "tensornetwork/tensor.py:NconBuilder", "tensornetwork/ncon_interface.py:finalize", "tensornetwork/backends/numpy/numpy_backend.py:NumPyBackend.broadcast_left_multiplication"]}
{"id": "C85", "title": "flatten_all_edges leaves at most one edge between any two nodes", "statement": "flatten_all_edges(nodes) never raises on a consistent graph. Afterwards two nodes of which at least one was given are linked by exactly one edge if they were linked before and by none otherwise (loops at one node included), the dimension of a link is the product of those it replaces, links between other nodes and open edges stay what they were, contracting any part of the graph that holds the nodes and their neighbours gives the same values as before, and the returned list names each of the remaining links once. flatten_edges_between returns None exactly for nodes that are not linked and otherwise the one edge that links them afterwards. get_parallel_edges returns the edges with the same nodes as the given one, itself included. get_all_nondangling and get_all_dangling divide the edges of the nodes. All of this holds in whatever order sets are iterated.", "quantifier": "all consistent graphs, lists of nodes, edges and iteration orders of sets", "why_tests_cant": "The tests flatten one or two small networks in the one order in which CPython happens to iterate the set of edges; flattening edges removes edges that are still ahead in the loop, which only the order decides.", "anchors": ["tensornetwork/network_components.py:flatten_all_edges", "tensornetwork/network_components.py:flatten_edges_between", "tensornetwork/network_components.py:get_parallel_edges", "tensornetwork/network_components.py:get_all_nondangling", "tensornetwork/network_components.py:get_all_dangling"]}
{"id": "C86", "title": "The exact wave function example applies operators, circuits and Trotter evolutions as documented", "statement": "apply_op(psi, op, n1, pbc) succeeds exactly if op has 2k axes with k > 0, the sites n1, ..., n1+k-1 (modulo the number of sites with pbc) exist and are different, and the input dimensions fit; it returns op applied at these sites, the last k axes of op being the inputs. expval is the inner product of psi with apply_op(psi, op, n1). apply_circuit applies the gates layer after layer, succeeds exactly if the gates of a layer do not overlap and fit, and refuses overlapping gates. evolve_trotter repeats the step made of exp(c*h) on the even bonds and then on the odd ones (c = i*step_size, or -step_size for Euclidean evolution), returns the time num_steps*step_size, and calls callback after each step with the state, the time and the number of the step; a wrong number of terms or a term that is not nearest neighbour is refused. evolve_trotter_defun returns the same state and time for every batch size, and calls callback with the same arguments after whole batches only. For Hermitian terms the real-time evolution conserves all inner products, whatever the size of the step; the states of the Euclidean evolution have norm one.", "quantifier": "all states, operators, sites, layers, terms, step sizes, numbers of steps and batch sizes; exact complex numbers", "why_tests_cant": "The tests apply a few random two site operators to chains of fixed length and compare energies up to a tolerance; they cannot show which operators are accepted, that inner products are conserved for all Hermitian terms, or that batches agree with single steps for all sizes.", "anchors": ["examples/wavefunctions/wavefunctions.py:inner", "examples/wavefunctions/wavefunctions.py:apply_op", "examples/wavefunctions/wavefunctions.py:_apply_op_network", "examples/wavefunctions/wavefunctions.py:expval", "examples/wavefunctions/wavefunctions.py:evolve_trotter", "examples/wavefunctions/wavefunctions.py:evolve_trotter_defun", "examples/wavefunctions/wavefunctions.py:apply_circuit", "examples/wavefunctions/trotter.py:trotter_prepare_gates"]}
{"id": "C87", "title": "from_topology builds exactly the network that the string describes, or refuses it without touching the graph", "statement": "from_topology(topology, tensors) succeeds exactly if the string has as many comma separated groups as there are tensors, each group has one name for each axis of its tensor and no name twice, no name occurs more than twice, and axes of the same name have the same dimension; otherwise it raises ValueError. On success it returns one new node for each tensor, in order; two axes share an edge exactly if they have the same name; an edge is dangling exactly if its name occurs once; and the value of the network is the sum, over the names that occur twice, of the product of the entries (what einsum computes for the same left side). Nodes and edges that existed before are unchanged, also when it fails.", "quantifier": "all strings, all lists of tensors of all shapes, all graphs that exist before the call", "why_tests_cant": "The tests build two small networks and check one mismatch; they cannot show that every fitting string gives the right network and every other string is refused.", "anchors": ["tensornetwork/utils.py:from_topology", "tensornetwork/network_components.py:Edge.__xor__", "tensornetwork/network_components.py:AbstractNode.add_axis_names", "tensornetwork/network_components.py:connect"]}
{"id": "C88", "title": "binary_mera_energy is the expectation value below a MERA layer, and descend and ascend are its super-operators", "statement": "binary_mera_energy(hamiltonian, state, isometry, disentangler) is the mean, over the two positions, of the trace of the hamiltonian times the reduced state that the layer makes of the state above. descend(...) does not depend on the hamiltonian and returns that mean reduced state; it keeps the trace if the tensors are isometric and takes Hermitian states to Hermitian states. ascend(...) does not depend on the state, gives the energy when paired with any state, and takes the identity to the identity if the tensors are isometric. shift_ham(h, s) subtracts s times the identity and so lowers the energy by s times the trace of the state; without s the result is negative semi-definite with largest eigenvalue zero.", "quantifier": "all dimensions of the legs, all complex tensors, all states and hamiltonians (isometric or Hermitian where it says so); shift_ham for three sites of dimension two", "why_tests_cant": "The tests check trace and Hermiticity for one random tensor of each of two dimensions and one known energy to three digits; all tensors have real entries (cast to a complex type), so they cannot tell kets from bras, and they cannot show that descend and ascend are adjoint for all tensors.", "anchors": ["examples/simple_mera/simple_mera.py:binary_mera_energy", "examples/simple_mera/simple_mera.py:descend", "examples/simple_mera/simple_mera.py:ascend", "examples/simple_mera/simple_mera.py:shift_ham"]}
{"id": "C89", "title": "indices fuse and flip as legs do, and compare_shapes tells whether two sparse shapes agree", "statement": "For indices I and J, (I * J).charges lists at position a*J.dim+b the sum of I.charges[a] and J.charges[b], whatever their flows and representations, and its dimension is the product; fuse_indices does the same for any positive number of indices (row-major) and raises IndexError for none. flip_flow takes every charge to its inverse, is its own inverse, commutes with fusion, and is never equal to the index. Indices are equal exactly if they have the same charges and flows leg by leg, and compare_shapes(A, B) is True exactly if the sparse shapes of A and B are equal.", "quantifier": "all abelian charge groups, all indices with any number of legs in either representation of the charges, all valid block-sparse tensors with any pending transposition", "why_tests_cant": "The tests fuse two or three random indices and compare shapes of two tensors; they never compare a tensor with its transpose or with its contiguous copy.", "anchors": ["tensornetwork/block_sparse/index.py:fuse_index_pair", "tensornetwork/block_sparse/index.py:fuse_indices", "tensornetwork/block_sparse/index.py:Index.flip_flow", "tensornetwork/block_sparse/index.py:Index.charges", "tensornetwork/block_sparse/blocksparsetensor.py:compare_shapes", "tensornetwork/backends/symmetric/symmetric_backend.py:gmres"]}
{"id": "C90", "title": "InfiniteMPO accepts unit cells that close, and roll only moves the start of the unit cell", "statement": "InfiniteMPO(tensors) raises ValueError exactly if neighbouring bonds of the unit cell, including last to first, do not fit. roll(n) replaces the tensors by the same tensors starting n sites later (n may be negative, as elsewhere in Python): the number of tensors stays the same, neighbouring bonds still fit, and the operator on a ring of one unit cell has the same entries with the sites shifted.", "quantifier": "all lists of tensors of all shapes over any commutative semiring, all integers n, all physical indices", "why_tests_cant": "The test rolls one cell of two equal-shaped tensors by one site; it never uses a negative number, more sites than the cell has, or inner bonds that do not fit, and it cannot show that the operator is unchanged for all tensors.", "anchors": ["tensornetwork/matrixproductstates/mpo.py:InfiniteMPO.__init__", "tensornetwork/matrixproductstates/mpo.py:InfiniteMPO.roll", "tensornetwork/matrixproductstates/mpo.py:BaseMPO.bond_dimensions"]}
{"id": "C91", "title": "the MERA updates return isometries that solve the linearised problem, and optimize_linear keeps a density matrix", "statement": "env_iso and env_dis are the derivatives of the energy: in every direction the derivative of its real part is the real part of the sum of the products of entries. update_iso and update_dis return isometric tensors, and up to a sign, which does not change the energy, they minimise the linearised energy among all isometric tensors. optimize_linear, for any number of iterations, returns a state with the trace of the given one, Hermitian and positive semi-definite if that one is, and after at least one iteration isometric tensors even if the given ones are not.", "quantifier": "all bond dimensions (two in optimize_linear, as in shift_ham) that allow isometries, all complex hamiltonians, states and tensors of fitting shapes, all correct SVD kernels, all numbers of iterations", "why_tests_cant": "simple_mera_test.py optimises one MERA for one model and checks the final energy; it calls neither the environments nor the updates on their own. That no isometry has a lower linearised energy is a statement about all isometries.", "anchors": ["examples/simple_mera/simple_mera.py:env_iso", "examples/simple_mera/simple_mera.py:env_dis", "examples/simple_mera/simple_mera.py:update_iso", "examples/simple_mera/simple_mera.py:update_dis", "examples/simple_mera/simple_mera.py:optimize_linear", "examples/simple_mera/simple_mera.py:descend"]}
{"id": "C92", "title": "switch_backend switches all given nodes or none", "statement": "switch_backend(nodes, new_backend) returns exactly if every node is a numpy node whose tensor can be converted (for the symmetric backend: every node is symmetric already); then every given node has the new backend and the converted tensor and no other node has changed. Otherwise it raises and changes nothing. Calling it again with the same arguments changes nothing.", "quantifier": "all lists of nodes in all states, all conversion functions, all backend names", "why_tests_cant": "The tests switch three numpy nodes once, look at the backend of the first and check that one node of another backend is refused; they say nothing about mixed lists, repeated nodes or repeated calls.", "anchors": ["tensornetwork/network_operations.py:switch_backend", "tensornetwork/backends/backend_factory.py:get_backend"]}
{"id": "C93", "title": "gmres of the symmetric backend solves the system of the dense tensors", "statement": "For every operator that maps tensors with the axes (charges and flows) of b to tensors with these axes, however stored, SymmetricBackend.gmres returns a tensor with the axes of b; if info is 0 the Frobenius norm of the dense residual is at most max(tol * norm(b), atol). b and x0 keep their values. A guess with other axes than b, a number of Krylov vectors below 1 or above b.size and negative tolerances raise ValueError; the guess is zero if none is given.", "quantifier": "all valid block-sparse tensors with at least one axis, all operators, all solvers on vectors that report convergence only within the tolerances, all tolerances and numbers of Krylov vectors", "why_tests_cant": "test_gmres solves one system with an unfused, contiguous right hand side of one structure; transposed or fused tensors and guesses stored in another order are not tried.", "anchors": ["tensornetwork/backends/symmetric/symmetric_backend.py:gmres", "tensornetwork/block_sparse/initialization.py:randn_like", "tensornetwork/block_sparse/blocksparsetensor.py:compare_shapes"]}
{"id": "C94", "title": "eigs of the symmetric backend returns eigenpairs of the operator on dense tensors", "statement": "For every operator that maps tensors with the axes of the initial state to tensors with these axes, SymmetricBackend.eigs raises if the kernel does and otherwise returns numeig numbers and numeig tensors with the axes and the shape of the initial state and Frobenius norm 1; the norm of the dense residual A x - eta x is at most that of the kernel. The initial state keeps its value. which in ('SI', 'LI'), num_krylov_vecs <= numeig + 1, and no initial state without shape and dtype raise ValueError; an initial state that is not a BlockSparseTensor raises TypeError.", "quantifier": "all valid block-sparse tensors with at least one axis, all operators, all kernels, all numbers of eigenvalues", "why_tests_cant": "The tests of eigs use a vector-like initial state that is neither transposed nor fused and a few models; the axes of the eigenvectors for other layouts are not looked at.", "anchors": ["tensornetwork/backends/symmetric/symmetric_backend.py:eigs"]}
{"id": "C95", "title": "gmres and eigs of the numpy backend solve the problems on arrays of any shape", "statement": "For every operator on arrays of the shape of b, gmres returns an array of this shape; if info is 0 the Frobenius norm of the residual is at most max(tol * norm(b), atol). Without guess the guess is zero; more Krylov vectors than b.size are as many as b.size. A guess of another shape, no Krylov vectors and negative tolerances raise ValueError. eigs raises if the kernel does and otherwise returns numeig numbers and numeig arrays of the shape of the initial state and norm 1 with residuals of at most those of the kernel; which in ('SI', 'LI'), num_krylov_vecs <= numeig + 1 and no initial state without shape and dtype raise ValueError.", "quantifier": "all arrays b, all operators, all functions on vectors in place of scipy's that report convergence only within the tolerances, all arguments", "why_tests_cant": "The tests solve a few systems, known or random, with real or complex floating point b, and check each exception once; they cannot cover all operators, shapes and solvers.", "anchors": ["tensornetwork/backends/abstract_backend.py:gmres", "tensornetwork/backends/numpy/numpy_backend.py:_gmres", "tensornetwork/backends/numpy/numpy_backend.py:eigs"]}
{"id": "C96", "title": "eigsh_lanczos of the symmetric backend computes what that of the numpy backend computes on dense forms", "statement": "For every operator that returns tensors with indices equal to those of its argument, eigsh_lanczos of the symmetric backend raises what eigsh_lanczos of the numpy backend raises for the dense form of the operator and of the initial state; otherwise it returns the same eigenvalues, and eigenvectors with the indices of the initial state whose dense forms are the eigenvectors of the numpy backend. For a symmetric linear operator and an initial state other than zero these are Ritz pairs. The initial state keeps its value and its indices. num_krylov_vecs < numeig, numeig > 1 without reorthogonalize, and no initial state without shape and dtype raise ValueError; an initial state of another type raises TypeError. An operator that returns the same charges with other unique charges makes it raise ValueError.", "quantifier": "all tensors with any storage order and fused legs, all operators, all diagonalisations, all numerical arguments", "why_tests_cant": "The tests compare with a dense diagonalisation for a few random matrices with one charge and one DMRG problem; they cannot cover all tensors, storage orders, fused legs and operators.", "anchors": ["tensornetwork/backends/symmetric/symmetric_backend.py:eigsh_lanczos"]}
{"id": "C97", "title": "Symmetric tensors made by ones, zeros, randn, random and the _like functions are filled exactly where charge is conserved", "statement": "For every list of indices ones, zeros, randn and random return a tensor with these indices whose dense form is 0 where the charges do not add up to the identity charge and elsewhere one of the numbers drawn; every nonzero number drawn occurs as often as it was drawn. So ones gives 1 at exactly the positions that conserve charge, zeros gives 0 everywhere, and random stays within the boundaries (with a complex dtype both the real and the imaginary part). The same holds for empty_like, ones_like, zeros_like, randn_like and random_like and the indices of their argument, whatever its storage order and its fused legs. ChargeArray.random ignores its argument boundaries.", "quantifier": "all indices, all charges, all tensors, all numbers drawn", "why_tests_cant": "The tests look at the stored data, the flows and the charges for random indices of rank four; they never look at dense forms, fused or transposed tensors, and never pass boundaries.", "anchors": ["tensornetwork/block_sparse/initialization.py:ones", "tensornetwork/block_sparse/initialization.py:random", "tensornetwork/block_sparse/initialization.py:random_like", "tensornetwork/block_sparse/blocksparse_utils.py:_data_initializer", "tensornetwork/block_sparse/blocksparsetensor.py:ChargeArray.random"]}
{"id": "C98", "title": "to_graphviz draws a graph that is isomorphic to the network", "statement": "For every collection of distinct nodes of a correct graph to_graphviz adds to the given graph one visible vertex per node, exactly one line per edge of these nodes (also for trace edges and parallel edges) between the vertices of its two nodes, and for each dangling edge one invisible vertex of its own with a line to its node. No vertex is declared twice. Labels are the names, except that names starting with __ are dropped unless include_all_names. If all neighbours are among the nodes, every line is between declared vertices. It fails for an iterator, though the argument is annotated as an Iterable: the picture has no line. For an edge to a node that is left out there is a line to a vertex that is not declared.", "quantifier": "all correct graphs, all collections of nodes, all names, both values of include_all_names", "why_tests_cant": "The only test checks the type of the result for two joined nodes.", "anchors": ["tensornetwork/visualization/graphviz.py:to_graphviz"]}
