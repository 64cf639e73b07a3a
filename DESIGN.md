# Design

Subject: google/TensorNetwork (python) at the commit in /repo.  Nothing of it is
executed; the source is read as text and modelled function by function in Lean 4.
`properties.jsonl` lists the properties, `MANIFEST.json` says which theorems settle
each of them, `seeded/LOG.jsonl` lists the wrong programs tried against the theorems.

1. Trusted base
2. How the model is built
3. What is modelled, file by file
4. What is not modelled
5. Properties that the code does not have
6. Other observations about the code
7. Axioms of each theorem

## 1. Trusted base

* Lean 4.33.0's kernel and the three standard axioms `propext`, `Classical.choice`,
  `Quot.sound`; section 7 lists which of them each theorem uses.  No other axiom, no
  `sorry`, no `native_decide`, no `bv_decide`.
* The reading of the Python source.  Every definition of the model carries a comment
  with the file and lines it stands for and says where it simplifies.
* Numbers.  Tensor entries live in an arbitrary commutative semiring (a star ring,
  `RCLike` field or ordered field where conjugation, norms or comparison are needed).
  Floating point rounding, overflow and dtypes of tensor entries are not modelled.
  The int16 arithmetic of charges and of charge labels *is* modelled (`BsCharge`,
  `BsUnique`), since it is visible in results.
* numpy primitives (`transpose`, `reshape`, `tensordot`, `trace`, `matmul`, `sum`,
  `einsum`, `unique`, `intersect1d`, slicing, sorting, padding) are modelled by their
  documented meaning on row-major arrays, including the errors the code relies on.
* Matrix factorisations (`np.linalg.qr`, `np.linalg.svd`) are parameters; the
  theorems assume their defining equations in exact arithmetic (`IsQr`, `IsSvd`,
  `QrOK`, `SvdOK`).  `MpsKernel` proves that such functions exist, so the hypotheses
  can be met.  Likewise `np.linalg.eigh` (`EighOK`, existence `someEigh_ok`).
* Python sets are iterated in an order that is an arbitrary parameter, so the theorems
  hold for every iteration order.  Dicts keep the order of insertion.
* Exceptions are values (`Py α = Except PyErr α`); in the graph model the state
  survives the exception, as in Python.  `NotImplementedError` and `AssertionError`
  are both `runtimeError`.  Messages are not modelled.
* `while` loops run with fuel; the theorems say that enough fuel exists and that the
  result does not depend on it.

## 2. How the model is built

*Core* (`Idx`, `Nd`, `Label`, `Group`, `Net`, `NetGroup`, `Einsum`).  An array is a
shape with its entries as a function of the multi-index.  A labelled array has one
label per axis; `val t ls σ` is the entry at the positions `σ` of the labels.  The
value of a network, `netVal`, is the sum over all positions of the labels that occur
twice of the product of the entries.  This is the one specification behind ncon, the
graph operations, contraction paths, MPS and quantum operators: a step is right if
`netVal` stays the same function of the open labels.

*Graph* (`Heap`, `Graph*`).  Nodes and edges are addresses in a heap; each method is
a state transformer that returns a value or an exception and the new heap.  `GraphOK`
is the specification of a consistent graph in the fields a user can read; it is
equivalent to the invariant `WF` of the proofs.  The result of each operation is
specified by a structure (`Merged`, `Joined`, `Flattened`, `Split`, `CutAt`,
`NodeSplit`, `Sliced`, `Copied`, `FullContraction`, `CopyContracted`, …) that mentions
no function of the model.

*Block-sparse tensors* (`Bs*`).  Charges are elements of an abelian group with a
linear order (with the int16 rows of the code as an instance); the specification is
the dense tensor and the list of all charge conserving positions.

*Matrix product states* (`Mps*`, `Mpo*`).  The contractions are calls of the modelled
`ncon` with the literal labels of the code; the specification is the wave function
(`amp`), its inner product and operators acting on wave functions.

Each property theorem is named after its property (`C08_…`).  `…_partial` marks a
theorem with a hypothesis or conclusion short of the listed property, `…_false` a
proved negation with a witness, `…_raises` an exactly characterised exception.
Beside each property theorem there is an `example` that meets its hypotheses.

## 3. What is modelled, file by file

| source | functions | Lean modules |
|---|---|---|
| ncon_interface.py | `ncon`, `_check_network`, `_canonicalize_network_structure`, `_get_cont_out_labels`, `_jittable_ncon`, `_partial_trace`, `_batch_cont` (all) | Ncon, NconApi, NconSpec, NconCanon, NconCheck, NconOps, NconProof, NconLoop, NconMain, NconProps, NconRepeat |
| network_components.py | `Node` (creation, `reorder_edges`, `reorder_axes`, `copy`), `Edge` (`update_axis`, `disconnect`, dimension, kinds of edges, serialisation), `connect`, `disconnect`, `get_shared_edges`, `get_parallel_edges`, `get_all_nondangling`, `get_all_dangling`, `contract`, `_contract_trace`, `_remove_edges`, `contract_parallel`, `contract_between`, `outer_product`, `outer_product_final_nodes`, `flatten_edges`, `flatten_edges_between`, `flatten_all_edges`, `split_edge`, `slice_edge`, `NodeCollection` | Heap, GraphOps, GraphWF, GraphSpec, GraphLoops, GraphFrame, GraphConnect, GraphAbsorb, GraphMerge, GraphContract, GraphBetween, GraphTrace, GraphReorder, GraphTail, GraphFlatten*, GraphSplit, GraphSplit1/2, GraphSlice, GraphHistory, GraphProps1-3, Context |
| network_components.py, network_operations.py | the axis names: `add_axis_names`, `get_axis_number`, `get_edge`, `fresh_edges`, `reorder_axes`, `reorder_edges`, `flatten_edges`, `_flatten_trace_edges`, `split_edge`, `_split_trace_edge`, `contract`, `contract_between`, `contract_parallel`, `outer_product`, `split_node`, `remove_node`, `Node.copy` | AxisNames, AxisNames1-10, AxisProps, AxisProps1, AxisProps2 |
| network_components.py | `CopyNode` (tensor, `copy`, `get_partners`, `compute_contracted_tensor`), `contract_copy_node` | CopyNode, GraphCopy, GraphCopyNode* |
| network_operations.py | `copy`, `replicate_nodes`, `remove_node`, `split_node`, `split_node_qr`, `split_node_rq`, `split_node_full_svd`, `reachable`, `check_correct`, `check_connected`, `get_all_nodes`, `get_all_edges`, `get_subgraph_dangling`, `get_neighbors`, `nodes_to_json`, `nodes_from_json`, `redirect_edge`, `reduced_density`, `contract_trace_edges` | GraphCopy, GraphRemove, GraphSplitNode*, GraphSplitFull*, GraphReach, GraphRedirect, GraphDensity, Json, GraphProps3-6 |
| utils.py | `save_nodes`, `load_nodes` | Hdf5 |
| utils.py, network_components.py | `from_topology`, `Edge.__xor__` | Topology, TopologyProps |
| contractors/opt_einsum_paths | `base` (the body of all path based contractors), `auto`, `path_solver`, `contract_path`, `multi_remove`, `get_path`; the path search is a parameter | GraphPath, GraphProps5, GraphContractors |
| contractors/bucket_contractor.py | `bucket` | Bucket, Bucket2, Bucket3, Bucket4 |
| contractors/custom_path_solvers | `greedy_size_solve`, `greedy_cost_solve`, `full_solve_complete`, `_full_solve_single`, `_reduce_nets`, `ord_to_ncon`, `ncon_to_adj`, `ncon_solver`, `ncon_cost_check` | Greedy, FullSolve, OrdToNcon, NconSolver, NconCost |
| backend_contextmanager.py, ops.py, backends/backend_factory.py | all | Context |
| backends/numpy/decompositions.py | `svd`, `qr`, `rq` | Decomp, DecompProps |
| backends/tensorflow/tensordot2.py | all | TfDot |
| backends/tensorflow/decompositions.py, backends/pytorch/decompositions.py | `svd`, `qr`, `rq` (differences to the numpy ones) | Backends |
| backends/numpy/numpy_backend.py | `eigsh_lanczos` | LanczosAbs, Lanczos, LanczosProps, LanczosProps2 |
| backends/jax/jitted_functions.py, jax_backend.py, abstract_backend.py | `gmres`: `gmres_m`, `gmres`, `gmres_residual`, `gmres_update`, `gmres_krylov`, `kth_arnoldi_step`, `apply_rotations`, `apply_givens_rotation`, `givens_rotation` | Gmres, GmresInv, GmresLoop, GmresProps, GmresNeg |
| backends/jax/jitted_functions.py, jax_backend.py | `eigs`: `iterative_classical_gram_schmidt`, `_arnoldi_fact`, the sorting functions, `shifted_QR`, `get_vectors`, `check_eigvals_convergence`, `implicitly_restarted_arnoldi_method` | Arnoldi, ArnoldiInv, ArnoldiRestart, ArnoldiRitz, ArnoldiProps, ArnoldiEigs, ArnoldiKernels, ArnoldiExamples |
| backends/jax/jitted_functions.py, jax_backend.py | `eigsh`: `_lanczos_fact`, `check_eigvals_convergence` for `eigh`, `implicitly_restarted_lanczos_method` | JaxEigsh, JaxEigshInv, JaxEigshProps, JaxEigshThms, JaxEigshConv, JaxEigshExamples |
| backends/jax/jitted_functions.py, jax_backend.py | `eigsh_lanczos`: `jax_lanczos` | JaxLanczos, JaxLanczosInv, JaxLanczosThms, JaxLanczosExamples |
| tn_keras/dense.py, expander.py, condenser.py, entangler.py, mpo.py, conv2d_mpo.py | `call`, the sizes of the weights in `build` | Keras, KerasProps, KerasChain, KerasMpo, KerasEntangler, KerasConv |
| backends/symmetric/decompositions.py | the truncation in `svd`; `svd`, `qr` | BsTrunc, BsFactor |
| block_sparse/charge.py, index.py, utils.py | `BaseCharge` in both representations, `U1Charge`, `Z2Charge`, `ZNCharge`, fusion, `dual`, `unique`, `intersect`, `_find_best_partition`, strides, `fuse_charges`, … | BsCharge, BsGroup, BsUnique, BsRep, BsLegs, BsPart |
| block_sparse/blocksparse_utils.py | `compute_num_nonzero`, `compute_fused_charge_degeneracies`, `reduce_charges`, `_find_diagonal_sparse_blocks`, `_find_transposed_diagonal_sparse_blocks` | BsCount, BsReduce, BsBlocks, BsTrans |
| block_sparse/blocksparsetensor.py | `ChargeArray` lazy operations, `fromdense`, `todense`, `contiguous`, arithmetic, `conj`, `outerproduct`, `tensordot` | BsTensor, BsContig, BsDot, BsTensordot |
| block_sparse/linalg.py | `eye`, `trace`, `sqrt`-like block functions, `qr`, `svd`, `inv`, `pinv`, `eigh`, `eig`, `norm`, `diag` (not of a `BlockSparseTensor` with one axis) | BsEye, BsTrace, BsFactor, BsInv, BsEigh, BsDiag |
| block_sparse/caching.py | all, with the lookups | BsCache |
| block_sparse/index.py, blocksparsetensor.py | `Index` (`dim`, `charges`, `flip_flow`, `__mul__`), `fuse_index_pair`, `fuse_indices`, `compare_shapes` | BsIndex |
| matrixproductstates/base_mps.py, finite_mps.py | constructor, `position`, `canonicalize`, `apply_two_site_gate`, `apply_one_site_gate`, `left_envs`, `right_envs`, `measure_local_operator`, `measure_two_body_correlator`, `get_tensor`, `check_orthonormality`, `check_canonical` | MpsCheck, Mps, MpsNcon, MpsState, MpsPair, MpsProps, MpsCanon, MpsOverlap, MpsGate, MpsGateProps, MpsEnv, MpsEnvs, MpsMeasure, MpsMeasureProps, MpsKernel |
| matrixproductstates/infinite_mps.py | `unit_cell_transfer_operator`, `transfer_matrix_eigs`, `canonicalize`; `eigs` is a parameter | InfMps, InfAlg, InfCell, InfEigs, InfRoots, InfFinish, InfDrop, InfProps, InfTwice, InfCases |
| matrixproductstates/mpo.py | `FiniteTFI`, `FiniteXXZ`, `FiniteFreeFermion2D` | Mpo, MpoProps, MpoFermi |
| matrixproductstates/mpo.py | `BaseMPO.bond_dimensions`, `InfiniteMPO` | MpoRoll |
| matrixproductstates/dmrg.py | all of `BaseDMRG` and `FiniteDMRG`; the checks of backends and dtypes and the printed messages are left out | Dmrg* |
| linalg/operations.py | `kron` and the backend check | Kron |
| linalg/operations.py, and the backends behind it | `trace`, `diagonal`, `diagflat`, `pivot` in numpy, PyTorch and TensorFlow | TensorDiag, TensorDiagProps, TensorDiagMain, TensorDiagFlat |
| tensor.py; `finalize` of ncon_interface.py; the two broadcasting products and `matmul` of numpy_backend.py | all, except `copy` and `dtype` | Broadcast, TensorCls, TensorClsShape, TensorClsProd |
| linalg/krylov.py | `MatvecCache`, `krylov_error_checks`, `eigs`, `eigsh_lanczos`, `gmres` | KrylovFront |
| examples/fft/fft.py, examples/sat/sat_tensornetwork.py | `add_fft`, `sat_tn`, `sat_count_tn`; connecting an edge to a new node is giving the axis the name of the edge | ExNet, ExFft, ExSat, ExSatCount |
| examples/wavefunctions/wavefunctions.py, trotter.py | `inner`, `apply_op`, `_apply_op_network`, `expval`, `apply_circuit`, `trotter_prepare_gates`, `evolve_trotter`, `_evolve_trotter_gates`, `evolve_trotter_defun`; exact complex numbers, `expm` is the exponential of matrices, nodes are arrays with their edges | ExWave, ExWaveProps, ExWaveCircuit, ExTrotter, ExTrotterProps, ExTrotterUnitary |
| examples/simple_mera/simple_mera.py | `binary_mera_energy`, `descend`, `ascend`, `shift_ham`, `env_iso`, `env_dis`, `update_iso`, `update_dis`, `optimize_linear` without printing (not `ham_ising`) | ExMera, ExMeraProps, ExMeraGrad, ExMeraState, ExMeraShift, ExMeraUpdate, ExMeraLinear, ExMeraOptimize |
| backends/symmetric/symmetric_backend.py | `gmres`, `eigs` without dtypes, arguments of the operator and cache; block_sparse/initialization.py `randn_like` | BsGmres, BsEigs |
| backends/abstract_backend.py, backends/numpy/numpy_backend.py | `gmres`, `_gmres`, `eigs` without arguments of the operator; of the dtypes only `astype` | NpKrylov |
| backends/symmetric/symmetric_backend.py | `eigsh_lanczos` without arguments of the operator and cache; block_sparse `zeros` | BsLanczos |
| block_sparse/initialization.py; blocksparsetensor.py, blocksparse_utils.py, utils.py | all of initialization.py, `BlockSparseTensor.ones/zeros/randn/random`, `ChargeArray.random`, `_data_initializer`, `_random` (real and complex dtypes) | BsInit |
| visualization/graphviz.py | `to_graphviz` (the list of statements) | GraphViz |
| network_operations.py | `switch_backend` | SwitchBackend |
| quantum/quantum.py | `check_spaces`, `quantum_constructor`, `eliminate_identities`, `QuOperator` (`adjoint`, `trace`, `norm`, `partial_trace`, `__matmul__`, `__mul__`, `tensor_product`, `check_network`, `contract`, `eval`), `projector`, `reduced_density` | QuElim, QuElimLoop, QuContract, QuProps, QuAlgebra* |

Simplifications that matter (each is repeated at the definition):

* Graph: node, edge and axis names are left out of `Heap` (axes are numbers); Json,
  Hdf5 and the name theorems carry them in a separate table.  AxisNames models the
  edits together with the axis names; `Op.runN_sim` shows when the graph is the same.  All nodes use one
  backend.  `Node.is_disabled` is left out, since no modelled function disables nodes
  a caller may still use.
* `split_node*`: the decomposition of the transposed tensor is a parameter that
  returns factors multiplying back to the tensor; Decomp shows that the dense ones do.
* JSON: the document is the nested value given to `json.dumps`; `dumps`/`loads` and
  (de)serialisation of tensors are taken to be inverse.  HDF5: a file is the tree of
  groups that `save_nodes` writes; groups are listed alphabetically.
* Path solvers: exact arithmetic; costs instead of their logarithms; groups of tensors
  as finite sets instead of bits of a uint64.
* Block-sparse: the dtype of data is one semiring; `np.argsort` may be any sort.
* MPS: numpy backend, exact arithmetic; `measure_*` builds nodes and contracts them,
  modelled as the corresponding `ncon` calls.
* Quantum operators: plain nodes, except in `eliminate_identities`, where the copy
  nodes are the ones to be eliminated.

## 4. What is not modelled

The jax backend except `gmres`, `eigs`, `eigsh` and `eigsh_lanczos`, the pytorch and tensorflow backends except for their decompositions,
`trace`, `diagonal`, `diagflat` and `tensordot2`, decorators and jit; the numerical kernels
(LAPACK), `eigs` and the `gmres` of the other backends (SciPy); random initialisation;
`linalg/` except the functions in the table; the path search of opt_einsum; `InfiniteMPS.random`; of tn_keras
the configuration, the initializers and `compute_output_shape`; the other examples, experiments.

## 5. Properties that the code does not have

For each, the negation is proved with a witness and what does hold is proved beside it.

* C06: with a label that occurs twice in one tensor and again elsewhere, or twice in
  one tensor as an open label, ncon returns a result other than the Einstein sum
  (`C06_closed_repeat_false`, `C06_open_repeat_false`).
* C07: `reorder_edges` with a repeated edge, `outer_product` of a node with itself,
  joining an edge that belongs to an already contracted node, and `redirect_edge` to
  an axis of another dimension are accepted and leave an inconsistent graph.
* C14: the edge dictionary of `copy` maps a trace edge to an edge attached to nothing;
  `CopyNode.copy` of a node with a trace edge raises.
* C18: `slice_edge` with a start of minus the length returns the wrong slice.
* C19: an edge whose first end is not among the nodes comes back without a first
  node, yet not dangling; repeated axis names make reading raise.
* C20: `save_nodes` renames every edge of the network and never restores the names.
* C54: `load_nodes` returns more than ten nodes in alphabetical instead of the given
  order; nodes of rank 0 are saved but cannot be loaded.
* C21: Z_n charges with n > 16384 overflow int16 in fusion, which is then not
  associative.
* C25: axes of different grouping are contracted without an error; the outer product
  of two tensors without axes raises IndexError.
* C26: reshaping to the empty shape gives a tensor whose dense form is wrong.
* C27: the cache key omits the types of the charges and the number of symmetries.
* C28: the int16 labels of `unique` are wrong for 32769 to 65535 distinct charges;
  `BaseCharge.unique` of a labelled charge is not sorted.
* C30: the padding zeros of the symmetric svd truncation count as singular values;
  `max_singular_values=0` keeps every value.
* C35: `greedy_cost_solve` can return an incomplete sequence for disconnected
  networks.
* C38/C53: `canonicalize(normalize=True)` does not return the norm.
* C39: `apply_two_site_gate` without truncation leaves the recorded centre wrong.
* C40: `measure_two_body_correlator` returns values for the distinct sites in
  increasing order instead of for the requested list.
* C41: for one site the Hamiltonian constructors return two tensors.
* C42: a chain of identities raises in one visiting order and works in another; parts
  of the network reachable only through an eliminated identity are dropped.
* C43: `kron` compares the backend of the first tensor with itself.
* C44: after `contract_copy_node` the former neighbours keep their stale edge lists.
* C45: `is_optimal` is returned though an outer product would be cheaper.
* C47: the block-sparse trace over three legs in cyclic order is a wrong number;
  remaining fused axes are returned split.
* C48: qr/rq with `non_negative_diagonal=True` do not multiply back if the triangular
  factor has a zero on its diagonal.
* C50: the power of a block-sparse tensor with exponent 0 is not elementwise.
* C56: `bucket` raises AssertionError if a copy node of the order is joined to the copy
  node contracted before it, since `contract_copy_node` leaves it with stale edges.
* C55: `QuOperator.norm` returns the square of the 2-norm it documents.

* C60: `BaseDMRG.position` on a fresh object whose centre is in the interior raises
  `KeyError` when moved to the right (`C60_position_false`).

* C61: `tensordot2.tensordot` accepts axes of dimensions (2, 3) against (3, 2), where
  its documentation promises ValueError.
* C62: the PyTorch `svd` of a complex matrix does not multiply back (`vh` is the
  transpose of V without conjugation); TensorFlow `qr` with phases of a complex matrix
  does not multiply back.
* C63: `check_canonical` of an MPS of one site raises IndexError.
* C65: `InfiniteMPS.canonicalize` of a state that has a connector, so in particular a
  second call, leaves a state that is not canonical unless all Schmidt values are
  equal; the transfer matrix it diagonalises omits the connector.

* C67: block-sparse `inv` of a square matrix whose rows carry the charges {0, 1} and
  whose columns {0, 2} returns without error although the matrix is singular.
* C68: block-sparse `eigh` of `[[0, 1], [1, 0]]` with row charges 0, 1 and column charges
  1, 0 returns the eigenvalues 1, 1: the blocks are square, but they do not map a sector
  to itself.
* C70: `diag` of a `ChargeArray` whose axis is made of several legs returns a tensor
  with two legs whose axes mention more.
* C72: `flatten_edges` and `split_edge` take the axis names before they reorder the axes,
  so the axes behind a consumed one end up with wrong names; the default names of
  `split_edge` may repeat a name.  `_flatten_trace_edges` and `_split_trace_edge` do not
  touch the names at all: there are then too many (`copy`, `remove_node` raise) or too
  few (`reorder_axes`, `contract` raise, and `contract` leaves an inconsistent graph).
* C71: `gmres` of the jax backend.  Every restart adds its correction to the original
  `x0` instead of the current solution, so for every invertible operator on two unknowns
  two restarts return `x0` and `info = 0`.  The residual is divided by |b| before it is
  compared with a tolerance that was multiplied by |b|.  `info` is 0 after a single
  restart whatever happened.  A Krylov vector of norm below the tolerance is replaced by
  zero, and the next step divides zero by zero.  The Givens rotations of complex
  numbers lack a complex conjugate, so that the result can be worse than `x0`.

* C73: `eigs` of the jax backend pads the Hessenberg matrix with zeros if the iteration
  ends with fewer vectors than `num_krylov_vecs`, and that happens whenever the restarts
  converge (`numits = numeig`).  The zeros take part in the sorting.  For an operator
  whose wanted eigenvalues have negative real part, `which='LR'` returns zeros with
  vectors of NaNs in place of the eigenvalues.  The code warns only if `numeig > numits`.

* C74: `eigsh` of the jax backend pads the tridiagonal matrix with zeros in the same way.
  For a positive definite operator the default `which='SA'` returns zeros in place of the
  smallest eigenvalues whenever the iteration ends with fewer than `num_krylov_vecs`
  vectors, in particular whenever the restarts converge.  `num_krylov_vecs` may be
  larger than the dimension, and is 50 by default; then there are always fewer vectors,
  and for `num_krylov_vecs >= dim + numeig` all that is returned are zeros with NaNs.

* C75: `eigsh_lanczos` of the jax backend divides a Krylov vector by its norm before it
  compares the norm with `delta`.  An initial state that is an eigenvector, or any space
  that is exactly invariant, gives NaN in place of the eigenvalues.  After an early
  stop the tridiagonal matrix is padded with zeros (a FIXME in the code says so), which
  come first for positive definite operators.  With `num_krylov_vecs` larger than the
  dimension, and it is 20 by default, one of the two happens always.

* C76: `DenseMPO` and `Conv2DMPO` check that the rounded root of a dimension is a root of
  it, but take `math.ceil` of the floating point root as the size of a leg.  Where the
  floating point root is slightly above the integer, as `3125**(1. / 5)` is, the layer is
  built and every call raises.  `DenseEntangler` with two or more levels returns the
  legs in a rotated order.  `Conv2DMPO` with `channels_first` adds the bias along the
  width of the image instead of the channels, and raises if the width is neither one
  nor the number of filters.

* C77: `trace` of the PyTorch and TensorFlow backends compares the two axes before it
  wraps negative ones.  `trace(t, axis1=0, axis2=-ndim)` and axes between `-2 ndim` and
  `-ndim - 1` return the sum over one axis instead of raising.  Their `diagflat` returns a
  batch of matrices for a tensor with two or more axes, though it is documented to
  flatten.  `pivot` is documented with a wrong example, and accepts every axis below
  `-ndim`.
* C78: `krylov_error_checks` is documented to check that the backends of the arguments
  agree, but does not look at them.

* C80: `auto` on a single node calls `reorder_edges` even with `ignore_edge_order=True`, so
  that it raises `TypeError` without an order, and contracts a neighbour of the node when
  there is one.  `contract_path` on nodes with trace edges goes on with the old nodes after
  it has contracted the traces, and raises.  `path_solver("auto")` has a chain of `if` where
  `auto` returns, so that the last test below 15 nodes always wins.

* C81: an order in ncon notation cannot express outer products, so that the cost of the
  sequence found by the solver and the cost that `ncon_cost_check` reports for the order of
  the same sequence can differ (20 and 24 in the witness).

* C83: `sat_count_tn` returns only the nodes that are connected to the first variable, so
  that the value is wrong when the variables fall into groups, or when a number below the
  largest is not used (a TODO in the code says so).

* C84: the class `Tensor` has no `__rtruediv__`, so that `1 / t` raises though `1 + t`, `1 - t` and
  `1 * t` work.  `Tensor(2.0)` raises AttributeError, since the shape is read from the argument
  and not from the converted array.  `broadcast_left_multiplication` and
  `broadcast_right_multiplication` accept vectors or axes of length one where the lengths differ.

* C87: the documentation of `from_topology` promises "the left side of an einsum expression", but a name
  twice in one group (a trace), a name in three groups, and the empty string for no tensors are refused.
* C88: `descend` of the MERA example is the derivative of the energy by the hamiltonian, so the first three axes of its result are the bras, while the first three axes of a `state` argument are the kets. For a Hermitian state the result is the complex conjugate of the descended state. `optimize_linear` feeds it back as a state; for real tensors this makes no difference, for complex ones it does (`C88_descend_false`).

* C89: `compare_shapes` compares `_charges` and `_flows` in the order of the storage and of the transposition only the dense dimensions. It is True for a square matrix and its transpose although rows and columns have different charges, and False for a transposed tensor and its contiguous copy although `sparse_shape` is the same. `gmres` of the symmetric backend relies on it to compare `x0` with `b`. `Index.__eq__` and `charge_equal` compare the representations: the same charges may be unequal if one of them is a dual.

* C90: `InfiniteMPO.roll(-m)` does not rotate: for `0 < m <= N` the last `m` tensors are put in front and all others stay, so the unit cell grows to `N + m` tensors; for `|n| > N` it raises. `InfiniteMPO` compares only the first with the last bond; with inner bonds that do not fit it is accepted, and `roll` then gives a cell that the constructor would refuse.

* C92: `switch_backend` switches the nodes one after the other. If a later node is not a numpy node (or its tensor cannot be converted, or it was given before) the call raises and the nodes in front stay switched. It is not idempotent: after a call that returned, the same call raises NotImplementedError, and since only numpy nodes can be switched there is no way back.

* C93, C94: `gmres` and `eigs` of the symmetric backend build the tensors for the operator and for the result from the charges and flows of the guess without its `_order`. So with fused legs the operator is called with, and the result has, one axis per elementary leg instead of the shape of `b`. `gmres` accepts a guess that `compare_shapes` cannot tell from `b` because it is transposed (C89); the vectors are then ordered differently and the "solution" of `x = b` is not `b`. Without guess it starts from random numbers although the documentation says zeros. `eigs` documents `which='LI'` and refuses it.

* C95: `_gmres` of the numpy backend converts the solution to the dtype of `b`. For integers it is rounded towards zero, so `2 x = [1]` is "solved" by `[0]` with `info == 0`. An array without axes raises TypeError, since `np.prod(())` is a float. The documentation of `gmres` says both that `num_krylov_vectors > b.size` is set to `b.size` (it is) and that it raises.
* C96: `eigsh_lanczos` of the symmetric backend subtracts tensors, so the operator must return indices that `Index.__eq__` accepts. `gmres` and `eigs` work with the same charges in another representation (for instance from `dual`); `eigsh_lanczos` raises ValueError for them. It is the only one of the three that handles fused legs.
* C97: `ChargeArray.random` documents `boundaries` as the interval of the random numbers but does not pass it on; the numbers are always from 0 to 1.
* C98: `to_graphviz` loops twice over `nodes`, so for an iterator (annotated type `Iterable`) the second loop is empty and no edge is drawn. An edge to a node that is not given leads to a vertex that graphviz makes up, labelled with the address of the node.

## 6. Other observations about the code (read, not all proved)

* `contract_between(output_edge_order=[])` is treated as no order; a wrong order
  raises only after the contraction has happened.
* `disconnect` does not disable the old edge.
* path contractors: duplicates in `output_edge_order` pass the set check; `auto` with
  one node and `ignore_edge_order` calls `reorder_edges(None)`; `contract_path`
  discards the nodes of the initial trace contractions.
* `contract_copy_node` with 52 or more remaining edges raises (digits are not valid
  subscripts); with trace edges only it raises.
* `QuOperator`: repeated edges in the lists pass `check_network`; `partial_trace` with
  a repeated subsystem raises only after copying.
* path solvers: `full_solve_complete` with one tensor compares `None < None`; uint64
  groups overflow for more than 64 tensors.
* MPS: `bond_dimension(len)` raises IndexError; normalising a zero state gives NaN;
  `unit_cell_transfer_operator` ignores the connector matrix.
* Block-sparse: `reshape`'s checks for 0 and for the last error are never effective;
  `tensordot` accepts duplicate axes and mishandles negative ones; `todense` of a
  tensor without axes returns shape (1,); `H` keeps the flows; the
  cutoff `rcond` of `pinv` is relative to each block, that of numpy to the matrix.

* `eigsh_lanczos`: the array given as initial state is divided by its norm in place
  (`C57_initial_changed`); an operator that returns its argument itself has its Krylov
  vectors overwritten by `A_vector_n -= …` (the model takes `A` to return a new array);
  fewer than `numeig` pairs are returned if the Krylov space is smaller; `ndiag=0`
  raises ZeroDivisionError.
* jax `gmres`: the condition of the inner loop takes its tuple apart in the wrong order,
  which swaps the two comparisons and allows one more iteration, whose writes are out of
  bounds (the model follows the documentation of jax: such writes are dropped, such reads
  are clamped); the returned `beta` is the residual before the update; `maxiter=0` raises
  UnboundLocalError; `_CACHED_MATVECS` keeps the first function built for an operator,
  and with it the shape of the first `b`.
* jax `eigs`: a residual of exactly the length `tol` is zeroed but not reported as
  convergence; with `numeig == num_krylov_vecs` the slice `[-0:]` takes all eigenvalues as
  shifts and the residual is meaningless, though the pairs stay Ritz pairs; the test for
  convergence looks at the first `numeig` eigenvalues of the whole matrix in the order
  of LAPACK, not at the wanted ones; for `maxiter=1` and a real dtype the imaginary
  parts of the vectors are dropped (the model is complex throughout).
* jax `eigsh`: rows of the basis beyond `numits` are not cleared by a restart, so a
  spurious zero may come with a unit vector that looks fine; `numeig=0` makes the slice
  `betas[numeig-1:]` start from the end (not modelled).
* jax `eigsh_lanczos`: `numits` is one more than the number of iterations, so the warning
  about `numeig > numits` is missing when exactly one spurious zero is returned; an
  initial state that is not longer than `delta` ends the iteration after one vector
  (`C75_short`), since the norm of the initial state is compared with `delta` too.
* The PyTorch `eigsh_lanczos` divides the user's initial state in place too; the
  TensorFlow backend calls `tf.tensordot`, not `tensordot2`.
* `InfiniteMPS.transfer_matrix_eigs` evaluates `if not initial_state`, which raises
  ValueError for an array of more than one entry.
* `InfiniteMPS.canonicalize`: the docstring says that nothing is returned, the code
  returns the norm of the singular values; the arrays the caller passed as tensors are
  divided in place; `eigs` of the numpy backend returns complex arrays, so a real state
  becomes complex, though a comment says that the result is cast; `canonicalize(D=1)`
  can leave a state that vanishes.
* DMRG: `run_two_site` on a chain of one site raises IndexError although its comment
  says that the branch covers this case; the energy returned by `run_two_site` is the
  one before the truncation, and the truncated state is not normalised; the boundary
  environments are filled with ones, which for outer bonds of dimension larger than one
  does not belong to the norm of the MPS (the theorems take outer bonds of dimension 1).
* An `x0` that is not a `Tensor` raises the documented `TypeError` in the Krylov solvers
  only if a backend is named; otherwise it is an `AttributeError` (linalg/krylov.py:78).
* `ones_like` calls `get_shape().as_list()` on anything that is not a `Tensor`, which only
  TensorFlow tensors have; and `ones_like`, `zeros_like` of a `Tensor` ignore `dtype` and
  `backend` (linalg/initialization.py:109-161).
* `reduced_density` consumes a generator given as `traced_out_edges` in its first check and
  then raises `ValueError`.  An edge listed twice raises after the network has been
  changed.
* `contract_path` appends the first new node to the list that the caller passed as `nodes`,
  and returns this list instead of a node when the path is empty.
* `ncon_cost_check` uses `np.float`, which NumPy removed in version 1.24: it raises
  `AttributeError` there.  `ncon_to_adj` silently ignores a label that occurs more than twice.
* `add_fft` does not notice an input that is listed twice: the second `^` uses an edge object
  that is no longer part of the network.
* `ones_like` of an object that is not a `Tensor` calls `get_shape().as_list()`, which only
  TensorFlow tensors have; `zeros_like` uses `shape`.  Both ignore `dtype` and `backend` if they
  are given a `Tensor`.  `Tensor.ravel` of a tensor without axes asks for the shape `[1.0]`.
* examples/wavefunctions: the gates of the real-time evolution are `exp(+i*step_size*h)`,
  which is the inverse of what `exp(-i*t*H)` would ask for; gates of a layer beyond the
  last site are ignored without an error; `evolve_trotter_defun` does not call `callback`
  for the steps left over after whole batches; one site, with no terms, raises
  IndexError; `apply_op` with periodic boundary conditions and an operator on more sites
  than there are raises only after the contraction; `inner` broadcasts states of
  different shapes.

* `update_iso` and `update_dis` of the example `simple_mera` return the maximiser of the linearised energy; the minimiser is its negative, and the two have the same energy because each layer occurs together with its conjugate (C91).

## 7. Axioms of each theorem

p = `propext`, c = `Classical.choice`, q = `Quot.sound`.

| property | theorem | axioms |
|---|---|---|
| C01 | `TN.Ncon.C01_ncon_is_einsum` | p c q |
| C01 | `TN.Ncon.C01_value_or_valueError` | p c q |
| C02 | `TN.Ncon.C02_con_order_independent` | p c q |
| C03 | `TN.Ncon.C03_ncon_total` | p c q |
| C03 | `TN.Ncon.C03_ordinary_network` | p c q |
| C04 | `TN.Ncon.C04_axis_order` | p c q |
| C04 | `TN.Ncon.C04_out_order_permutes` | p c q |
| C04 | `TN.Ncon.OutputOrder.unique` | p c q |
| C05 | `TN.Ncon.C05_check_network_exact` | p c q |
| C05 | `TN.Ncon.C05_ncon_ok_valid` | p c q |
| C06 | `TN.Ncon.C06_closed_repeat_false` | p c q |
| C06 | `TN.Ncon.C06_open_repeat_false` | p c q |
| C06 | `TN.Ncon.C06_private_repeat_partial` | p c q |
| C07 | `TN.Graph.C07_history_partial` | p c q |
| C07 | `TN.Graph.C07_reorder_duplicate_false` | p c q |
| C07 | `TN.Graph.C07_outer_product_self_false` | p c q |
| C07 | `TN.Graph.C07_stale_edge_false` | p c q |
| C07 | `TN.Graph.C07_redirect_dimension_false` | p c q |
| C07 | `TN.Graph.C72_trace_contract_false` | p c q |
| C08 | `TN.Graph.C08_contract` | p c q |
| C08 | `TN.Graph.C08_contract_parallel` | p c q |
| C09 | `TN.Graph.C09_contract_between` | p c q |
| C09 | `TN.Graph.C09_contract_between_rejects` | p c q |
| C11 | `TN.Graph.C11_reorder_edges` | p c q |
| C11 | `TN.Graph.C11_reorder_axes` | p c q |
| C11 | `TN.Graph.C11_rejects` | p c q |
| C13 | `TN.Graph.C13_outer_product` | p c q |
| C13 | `TN.Graph.C13_outer_product_final_nodes` | p c q |
| C29 | `TN.Decomp.C29_svd_truncation` | p c q |
| C29 | `TN.Decomp.C29_svd_exact` | p c q |
| C48 | `TN.Decomp.C48_qr_partial` | p c q |
| C48 | `TN.Decomp.C48_rq_partial` | p c q |
| C48 | `TN.Decomp.C48_qr_zero_diagonal_false` | p c q |
| C10 | `TN.Graph.C10_full_contraction` | p c q |
| C10 | `TN.Graph.C10_path_independent` | p c q |
| C10 | `TN.Graph.C10_same_tensor` | p c q |
| C10 | `TN.Graph.C10_rejects` | p c q |
| C12 | `TN.Graph.C12_flatten` | p c q |
| C12 | `TN.Graph.C12_flatten_rejects` | p c q |
| C12 | `TN.Graph.C12_split` | p c q |
| C12 | `TN.Graph.C12_round_trip` | p c q |
| C16 | `TN.Graph.C16_disconnect` | p c q |
| C16 | `TN.Graph.C16_remove_node` | p c q |
| C16 | `TN.Graph.C16_remove_node_isolated` | p c q |
| C17 | `TN.Graph.C17_split_node` | p c q |
| C17 | `TN.Graph.C17_rejects` | p c q |
| C17 | `TN.Graph.C17_split_node_svd` | p c q |
| C17 | `TN.Graph.C17_split_node_qr` | p c q |
| C17 | `TN.Graph.C17_split_node_rq` | p c q |
| C17 | `TN.Graph.C17_split_node_full_svd` | p c q |
| C17 | `TN.Graph.C17_full_svd_rejects` | p c q |
| C18 | `TN.Graph.C18_slice_edge_partial` | p c q |
| C18 | `TN.Graph.C18_rejects` | p c q |
| C18 | `TN.Graph.C18_negative_start_false` | p c q |
| C36 | `TN.Graph.C36_multi_remove` | p c q |
| C49 | `TN.Graph.C49_connect` | p c q |
| C49 | `TN.Graph.C16_disconnect` | p c q |
| C14 | `TN.Graph.C14_copy_partial` | p c q |
| C14 | `TN.Graph.C14_value` | p c q |
| C14 | `TN.Graph.C14_separate` | p c q |
| C14 | `TN.Graph.C14_connected` | p c q |
| C14 | `TN.Graph.C14_edge_dict_trace_false` | p c q |
| C14 | `TN.Graph.C14_copy_node_trace_false` | p c q |
| C15 | `TN.Graph.C15_reachable` | p c q |
| C15 | `TN.Graph.C15_reachable_empty` | p q |
| C15 | `TN.Graph.C15_check_connected` | p c q |
| C15 | `TN.Graph.C15_get_neighbors` | p c q |
| C31 | `TN.Context.C31_default_backend` | p q |
| C31 | `TN.Context.C31_set_in_block` | p q |
| C32 | `TN.Context.C32_node_collection` | p q |
| C32 | `TN.Context.C32_once` | p c q |
| C33 | `TN.Context.C33_get_backend` | p c q |
| C33 | `TN.Context.C33_other` | p |
| C34 | `TN.Solver.C34_ord_to_ncon` | p c q |
| C34 | `TN.Solver.C34_accepted` | p c q |
| C35 | `TN.Solver.C35_greedy_size` | p c q |
| C35 | `TN.Solver.C35_greedy_cost_partial` | p c q |
| C35 | `TN.Solver.C35_greedy_cost_false` | p c q |
| C45 | `TN.Solver.C45_optimal_partial` | p c q |
| C45 | `TN.Solver.C45_optimal_false` | p c q |
| C22 | `TN.Bs.C22_num_nonzero` | p c q |
| C24 | `TN.Bs.C24_block_decomposition` | p c q |
| C46 | `TN.Bs.C46_partition_strides` | p c q |
| C46 | `TN.Bs.C46_permuted_strides` | p c q |
| C23 | `TN.Bs.C23_fromdense_todense` | p c q |
| C23 | `TN.Bs.C23_todense_fromdense` | p c q |
| C25 | `TN.Bs.C25_tensordot` | p c q |
| C25 | `TN.Bs.C25_accepts` | p c q |
| C25 | `TN.Bs.C25_axes` | p c q |
| C25 | `TN.Bs.C25_grouping_false` | p c q |
| C25 | `TN.Bs.C25_scalar_false` | p |
| C26 | `TN.Bs.C26_transpose` | p c q |
| C26 | `TN.Bs.C26_reshape_partial` | p c q |
| C26 | `TN.Bs.C26_reshape_accepts` | p c q |
| C26 | `TN.Bs.C26_reshape_scalar_false` | p c q |
| C26 | `TN.Bs.C26_contiguous` | p c q |
| C26 | `TN.Bs.C26_history_partial` | p c q |
| C50 | `TN.Bs.C50_binop` | p c q |
| C50 | `TN.Bs.C50_refused` | p c q |
| C50 | `TN.Bs.C50_map` | p c q |
| C50 | `TN.Bs.C50_conj` | p c q |
| C50 | `TN.Bs.C50_pow_false` | p c q |
| C27 | `TN.Bs.C27_cache_partial` | p c q |
| C27 | `TN.Bs.C27_disabled` | p c q |
| C27 | `TN.Bs.C27_types_false` | p c q |
| C27 | `TN.Bs.C27_symmetries_false` | p c q |
| C27 | `TN.Bs.findTransposed_rep` | p c q |
| C21 | `TN.Bs.C21_values` | p q |
| C21 | `TN.Bs.C21_row_major` | p c q |
| C21 | `TN.Bs.C21_group` | p c q |
| C21 | `TN.Bs.C21_product` | p c q |
| C21 | `TN.Bs.C21_fuse_charges` | p c q |
| C21 | `TN.Bs.C21_representation` | p c q |
| C21 | `TN.Bs.C21_overflow_false` | p c q |
| C28 | `TN.Bs.C28_unique_partial` | p c q |
| C28 | `TN.Bs.C28_reconstruct_partial` | p c q |
| C28 | `TN.Bs.C28_one_column` | p c q |
| C28 | `TN.Bs.C28_order` | p c q |
| C28 | `TN.Bs.C28_labels_false` | p c q |
| C28 | `TN.Bs.C28_intersect` | p c q |
| C28 | `TN.Bs.C28_intersect_columns` | p c q |
| C28 | `TN.Bs.C28_charge_unique` | p c q |
| C28 | `TN.Bs.C28_sorted_false` | p c q |
| C28 | `TN.Bs.C28_model` | p c q |
| C51 | `TN.Bs.C51_eye` | p c q |
| C47 | `TN.Bs.C47_trace_partial` | p c q |
| C47 | `TN.Bs.C47_condition` | p c q |
| C47 | `TN.Bs.C47_default` | p q |
| C47 | `TN.Bs.C47_refused` | p c q |
| C47 | `TN.Bs.C47_cyclic_false` | p c q |
| C47 | `TN.Bs.C47_shape_false` | p c q |
| C30 | `TN.Trunc.C30_truncation_partial` | p c q |
| C30 | `TN.Trunc.C30_padding_false` | p c q |
| C30 | `TN.Trunc.C30_zero_false` | p c q |
| C52 | `TN.Bs.C52_qr` | p c q |
| C52 | `TN.Bs.C52_svd` | p c q |
| C52 | `TN.Bs.C52_svd_full` | p c q |
| C37 | `TN.Mps.C37_position` | p c q |
| C37 | `TN.Mps.C37_moves` | p c q |
| C38 | `TN.Mps.C38_moves` | p c q |
| C38 | `TN.Mps.C38_init` | p c q |
| C53 | `TN.Mps.C38_canonicalize` | p c q |
| C53 | `TN.Mps.C38_canonicalize_norm_false` | p c q |
| C39 | `TN.Mps.C39_gate` | p c q |
| C39 | `TN.Mps.C39_one_site` | p c q |
| C39 | `TN.Mps.C39_truncated` | p c q |
| C39 | `TN.Mps.C39_truncated_accepts` | p c q |
| C39 | `TN.Mps.C39_center_partial` | p c q |
| C39 | `TN.Mps.C39_elsewhere` | p c q |
| C39 | `TN.Mps.C39_center_false` | p c q |
| C40 | `TN.Mps.C40_left_envs` | p c q |
| C40 | `TN.Mps.C40_right_envs` | p c q |
| C40 | `TN.Mps.C40_local` | p c q |
| C40 | `TN.Mps.C40_correlator_partial` | p c q |
| C40 | `TN.Mps.C40_order_false` | p c q |
| C40 | `TN.Mps.C40_repeated_false` | p c q |
| C41 | `TN.Mpo.C41_tfi` | p c q |
| C41 | `TN.Mpo.C41_xxz` | p c q |
| C41 | `TN.Mpo.C41_heisenberg` | p c q |
| C41 | `TN.Mpo.C41_tfi_short` | p q |
| C41 | `TN.Mpo.C41_one_site_false` | p q |
| C42 | `TN.Graph.C42_network` | p c q |
| C42 | `TN.Graph.C42_eval_partial` | p c q |
| C42 | `TN.Graph.C42_order_partial` | p c q |
| C42 | `TN.Graph.C42_chain_false` | p c q |
| C42 | `TN.Graph.C42_refs_false` | p c q |
| C43 | `TN.Kron.C43_kron` | p c q |
| C43 | `TN.Kron.C43_odd` | p c q |
| C43 | `TN.Kron.C43_backend_ignored` | p c q |
| C43 | `TN.Kron.C43_backend_false` | p c q |
| C19 | `TN.Graph.C19_roundtrip_partial` | p c q |
| C19 | `TN.Graph.C14_value` | p c q |
| C19 | `TN.Graph.C19_copyNode_raises` | p q |
| C19 | `TN.Graph.C19_first_end_false` | p c q |
| C19 | `TN.Graph.C19_axis_names_false` | p c q |
| C20 | `TN.Graph.C20_save_partial` | p c q |
| C20 | `TN.Graph.C20_save_raises` | p c q |
| C20 | `TN.Graph.C20_edge_names_false` | p c q |
| C54 | `TN.Graph.C54_roundtrip_partial` | p c q |
| C54 | `TN.Graph.C14_value` | p c q |
| C54 | `TN.Graph.C54_order_false` | p c q |
| C54 | `TN.Graph.C54_scalar_false` | p c q |
| C44 | `TN.Graph.C44_contract_partial` | p c q |
| C44 | `TN.Graph.C44_stale_false` | p c q |
| C44 | `TN.Graph.C44_dangling_raises` | p c q |
| C44 | `TN.Graph.C44_limit_raises` | p c q |
| C55 | `TN.Graph.C55_adjoint` | p c q |
| C55 | `TN.Graph.C55_tensor_product` | p c q |
| C55 | `TN.Graph.C55_matmul` | p c q |
| C55 | `TN.Graph.C55_matmul_raises` | p c q |
| C55 | `TN.Graph.C55_partial_trace` | p c q |
| C55 | `TN.Graph.C55_partial_trace_raises` | p c q |
| C55 | `TN.Graph.C55_trace` | p c q |
| C55 | `TN.Graph.C55_mul` | p c q |
| C55 | `TN.Graph.C55_mul_raises` | p q |
| C55 | `TN.Graph.C55_norm_partial` | p c q |
| C55 | `TN.Graph.C55_norm_false` | p c q |
| C55 | `TN.Graph.C55_projector` | p c q |
| C55 | `TN.Graph.C55_reduced_density` | p c q |
| C56 | `TN.Graph.C56_bucket_partial` | p c q |
| C56 | `TN.Graph.C56_bucket_total_partial` | p c q |
| C56 | `TN.Graph.C56_joined_raises` | p c q |
| C56 | `TN.Graph.C56_joined_false` | p c q |
| C57 | `TN.Lanczos.C57_lanczos` | p c q |
| C57 | `TN.Lanczos.C57_ground` | p c q |
| C57 | `TN.Lanczos.C57_converged` | p c q |
| C57 | `TN.Lanczos.C57_refused` | p c q |
| C57 | `TN.Lanczos.C57_initial_changed` | p c q |
| C58 | `TN.Dmrg.C58_init` | p c q |
| C58 | `TN.Dmrg.C58_init_length` | p c q |
| C58 | `TN.Dmrg.C58_init_center` | p c q |
| C58 | `TN.Dmrg.C58_energy` | p c q |
| C58 | `TN.Dmrg.C58_one_site` | p c q |
| C58 | `TN.Dmrg.C58_tfi` | p c q |
| C58 | `TN.Dmrg.C58_xxz` | p c q |
| C58 | `TN.Dmrg.C58_fermions` | p c q |
| C60 | `TN.Dmrg.C60_position_partial` | p c q |
| C60 | `TN.Dmrg.C60_envs` | p c q |
| C60 | `TN.Dmrg.C60_position_false` | p c q |
| C59 | `TN.Dmrg.C59_exact` | p c q |
| C59 | `TN.Dmrg.C59_truncated` | p c q |
| C59 | `TN.Dmrg.C59_bound` | p c q |
| C59 | `TN.Dmrg.C59_single` | p c q |
| C61 | `TN.Tf.C61_lists` | p c q |
| C61 | `TN.Tf.C61_number` | p c q |
| C61 | `TN.Tf.C61_accepts` | p c q |
| C61 | `TN.Tf.C61_shapes_false` | p c q |
| C62 | `TN.Backends.C62_tf_svd` | p c q |
| C62 | `TN.Backends.C62_torch_svd_partial` | p c q |
| C62 | `TN.Backends.C62_qr_plain` | p c q |
| C62 | `TN.Backends.C62_qr_partial` | p c q |
| C62 | `TN.Backends.C62_tf_rq_partial` | p c q |
| C62 | `TN.Backends.C62_torch_rq_partial` | p c q |
| C62 | `TN.Backends.C62_torch_complex_false` | p c q |
| C62 | `TN.Backends.C62_tf_qr_false` | p c q |
| C63 | `TN.Mps.C63_orthonormality` | p c q |
| C63 | `TN.Mps.C63_canonical_partial` | p c q |
| C63 | `TN.Mps.C63_refused` | p c q |
| C63 | `TN.Mps.C63_single_false` | p c q |
| C64 | `TN.Inf.C64_total` | p c q |
| C64 | `TN.Inf.C64_schmidt_form` | p c q |
| C64 | `TN.Inf.C64_same_state` | p c q |
| C64 | `TN.Inf.C64_initial_refused` | p c q |
| C65 | `TN.Inf.C65_again` | p c q |
| C65 | `TN.Inf.C65_twice_false` | p c q |
| C66 | `TN.Mpo.C66_fermions` | p c q |
| C66 | `TN.Mpo.C66_anticommute` | p c q |
| C66 | `TN.Mpo.C66_anticommute_low` | p c q |
| C66 | `TN.Mpo.C66_one_site_false` | p q |
| C67 | `TN.Bs.C67_inv` | p c q |
| C67 | `TN.Bs.C67_inv_returns` | p c q |
| C67 | `TN.Bs.C67_pinv` | p c q |
| C67 | `TN.Bs.C67_pinv_total` | p c q |
| C67 | `TN.Bs.C67_rejects` | p |
| C67 | `TN.Bs.C67_inv_false` | p c q |
| C68 | `TN.Bs.C68_eig_partial` | p c q |
| C68 | `TN.Bs.C68_eigh_partial` | p c q |
| C68 | `TN.Bs.C68_rejects` | p |
| C68 | `TN.Bs.C68_eigh_false` | p c q |
| C69 | `TN.Bs.C69_norm` | p c q |
| C70 | `TN.Bs.C70_diag_matrix` | p c q |
| C70 | `TN.Bs.C70_diag_vector_partial` | p c q |
| C70 | `TN.Bs.C70_diag_vector_false` | p q |
| C71 | `TN.Gmres.C71_minimal` | p c q |
| C71 | `TN.Gmres.C71_residual` | p c q |
| C71 | `TN.Gmres.C71_total` | p c q |
| C71 | `TN.Gmres.C71_exact` | p c q |
| C71 | `TN.Gmres.C71_bound_partial` | p c q |
| C71 | `TN.Gmres.C71_errors` | p c q |
| C71 | `TN.Gmres.C71_value_error` | p c q |
| C71 | `TN.Gmres.C71_info_zero` | p c q |
| C71 | `TN.Gmres.C71_restart_false` | p c q |
| C71 | `TN.Gmres.C71_tolerance_false` | p c q |
| C71 | `TN.Gmres.C71_info_false` | p c q |
| C71 | `TN.Gmres.C71_nan_false` | p c q |
| C71 | `TN.Gmres.C71_complex_false` | p c q |
| C72 | `TN.Graph.C72_get_edge` | p c q |
| C72 | `TN.Graph.C72_add_axis_names` | p c q |
| C72 | `TN.Graph.C72_reorder_axes` | p c q |
| C72 | `TN.Graph.C72_reorder_edges` | p c q |
| C72 | `TN.Graph.C72_remove_node` | p c q |
| C72 | `TN.Graph.C72_copy` | p c q |
| C72 | `TN.Graph.C72_flatten_partial` | p c q |
| C72 | `TN.Graph.C72_split_partial` | p c q |
| C72 | `TN.Graph.C72_history_partial` | p c q |
| C72 | `TN.Graph.C72_flatten_false` | p c q |
| C72 | `TN.Graph.C72_split_false` | p c q |
| C72 | `TN.Graph.C72_trace_flatten_false` | p c q |
| C72 | `TN.Graph.C72_trace_split_false` | p c q |
| C72 | `TN.Graph.C72_trace_contract_false` | p c q |
| C72 | `TN.Graph.C72_split_duplicate_false` | p c q |
| C73 | `TN.Krylov.C73_pairs_partial` | p c q |
| C73 | `TN.Krylov.C73_exact` | p c q |
| C73 | `TN.Krylov.C73_errors` | p c q |
| C73 | `TN.Krylov.C73_positive` | p c q |
| C73 | `TN.Krylov.C73_negative_false` | p c q |
| C73 | `TN.Krylov.C73_converged_false` | p c q |
| C73 | `TN.Krylov.C73_eigenvector_false` | p c q |
| C74 | `TN.Krylov.C74_pairs_partial` | p c q |
| C74 | `TN.Krylov.C74_converged` | p c q |
| C74 | `TN.Krylov.C74_exact` | p c q |
| C74 | `TN.Krylov.C74_errors` | p c q |
| C74 | `TN.Krylov.C74_positive` | p c q |
| C74 | `TN.Krylov.C74_smallest_false` | p c q |
| C74 | `TN.Krylov.C74_default_false` | p c q |
| C75 | `TN.Krylov.C75_pairs_partial` | p c q |
| C75 | `TN.Krylov.C75_variational` | p c q |
| C75 | `TN.Krylov.C75_exact` | p c q |
| C75 | `TN.Krylov.C75_reorthogonalize` | p c q |
| C75 | `TN.Krylov.C75_errors` | p c q |
| C75 | `TN.Krylov.C75_nan` | p c q |
| C75 | `TN.Krylov.C75_independent` | p c q |
| C75 | `TN.Krylov.C75_dependent` | p c q |
| C75 | `TN.Krylov.C75_short` | p c q |
| C75 | `TN.Krylov.C75_eigenvector_false` | p c q |
| C75 | `TN.Krylov.C75_smallest_false` | p c q |
| C75 | `TN.Krylov.C75_dimension_false` | p c q |
| C76 | `TN.Keras.C76_last_axis` | p c q |
| C76 | `TN.Keras.C76_decomp` | p c q |
| C76 | `TN.Keras.C76_expander` | p c q |
| C76 | `TN.Keras.C76_condenser` | p c q |
| C76 | `TN.Keras.C76_mpo` | p c q |
| C76 | `TN.Keras.C76_mpo_legs_partial` | p c q |
| C76 | `TN.Keras.C76_mpo_root_false` | p c q |
| C76 | `TN.Keras.C76_entangler` | p c q |
| C76 | `TN.Keras.C76_entangler_one_level` | p c q |
| C76 | `TN.Keras.C76_entangler_identity` | p c q |
| C76 | `TN.Keras.C76_entangler_order_false` | p c q |
| C76 | `TN.Keras.C76_conv_kernel` | p c q |
| C76 | `TN.Keras.C76_conv_bias_partial` | p q |
| C76 | `TN.Keras.C76_conv_bias_false` | p q |
| C76 | `TN.Keras.C76_conv` | p c q |
| C77 | `TN.TensorOps.C77_trace` | p c q |
| C77 | `TN.TensorOps.C77_trace_nonsquare` | p c q |
| C77 | `TN.TensorOps.C77_trace_partial` | p c q |
| C77 | `TN.TensorOps.C77_trace_same_axis_false` | p c q |
| C77 | `TN.TensorOps.C77_diagonal` | p c q |
| C77 | `TN.TensorOps.C77_diagonal_swapped` | p c q |
| C77 | `TN.TensorOps.C77_diagonal_tf` | p c q |
| C77 | `TN.TensorOps.C77_trace_diagonal` | p c q |
| C77 | `TN.TensorOps.C77_diagflat` | p c q |
| C77 | `TN.TensorOps.C77_diagflat_vector` | p c q |
| C77 | `TN.TensorOps.C77_diagflat_false` | p q |
| C77 | `TN.TensorOps.C77_pivot` | p c q |
| C77 | `TN.TensorOps.C77_pivot_doc_false` | p c q |
| C77 | `TN.TensorOps.C77_pivot_range` | p q |
| C78 | `TN.KFront.C78_cache` | p c q |
| C78 | `TN.KFront.C78_cache_same` | p c q |
| C78 | `TN.KFront.C78_cache_distinct` | p c q |
| C78 | `TN.KFront.C78_checks` | p q |
| C78 | `TN.KFront.C78_raises` | p c q |
| C78 | `TN.KFront.C78_args_false` | p q |
| C78 | `TN.KFront.C78_eig` | p c q |
| C78 | `TN.KFront.C78_gmres` | p c q |
| C78 | `TN.KFront.C78_gmres_inputs` | p c q |
| C78 | `TN.KFront.C78_gmres_raises` | p |
| C78 | `TN.KFront.C78_args_kept_partial` | p q |
| C78 | `TN.KFront.C78_args_kept_false` | p c q |
| C79 | `TN.Graph.C79_reduced_density` | p c q |
| C79 | `TN.Graph.C79_rejects` | p q |
| C80 | `TN.Graph.C80_contract_trace_edges` | p c q |
| C80 | `TN.Graph.C80_auto_partial` | p c q |
| C80 | `TN.Graph.C80_auto_empty` | p c q |
| C80 | `TN.Graph.C80_auto_ignore_false` | p c q |
| C80 | `TN.Graph.C80_auto_neighbour_false` | p c q |
| C80 | `TN.Graph.C80_contract_path_partial` | p c q |
| C80 | `TN.Graph.C80_contract_path_trace_false` | p c q |
| C80 | `TN.Graph.C80_path_solver_partial` | p q |
| C80 | `TN.Graph.C80_path_solver_false` | p q |
| C81 | `TN.Solver.C81_ncon_to_adj` | p c q |
| C81 | `TN.Solver.C81_ncon_solver_partial` | p c q |
| C81 | `TN.Solver.C81_ncon_cost_check` | p c q |
| C81 | `TN.Solver.C81_cost_check_outer_false` | p c q |
| C81 | `TN.Solver.C81_cost_check_any_order` | p c q |
| C82 | `TN.Ex.C82_add_fft` | p c q |
| C82 | `TN.Ex.C82_rejects` | p c q |
| C83 | `TN.Ex.C83_sat_tn` | p c q |
| C83 | `TN.Ex.C83_sat_rejects` | p q |
| C83 | `TN.Ex.C83_sat_count_partial` | p c q |
| C83 | `TN.Ex.C83_sat_count_false` | p c q |
| C84 | `TN.TensorCls.C84_tensor_op` | p c q |
| C84 | `TN.TensorCls.C84_same_shape` | p q |
| C84 | `TN.TensorCls.C84_number` | p q |
| C84 | `TN.TensorCls.C84_number_left_false` | p q |
| C84 | `TN.TensorCls.C84_laws` | p q |
| C84 | `TN.TensorCls.C84_hconj` | p c q |
| C84 | `TN.TensorCls.C84_H` | p c q |
| C84 | `TN.TensorCls.C84_H_H` | p c q |
| C84 | `TN.TensorCls.C84_hconj_inverse` | p c q |
| C84 | `TN.TensorCls.C84_reshape` | p c q |
| C84 | `TN.TensorCls.C84_squeeze` | p c q |
| C84 | `TN.TensorCls.C84_new_partial` | p q |
| C84 | `TN.TensorCls.C84_new_false` | p |
| C84 | `TN.TensorCls.C84_matmul` | p c q |
| C84 | `TN.TensorCls.C84_matmul_assoc` | p c q |
| C84 | `TN.TensorCls.C84_matmul_H` | p c q |
| C84 | `TN.TensorCls.C84_broadcast_right` | p q |
| C84 | `TN.TensorCls.C84_broadcast_left` | p c q |
| C84 | `TN.TensorCls.C84_broadcast_length_false` | p |
| C84 | `TN.TensorCls.C84_finalize` | p c q |
| C85 | `TN.Graph.C85_flatten_all` | p c q |
| C85 | `TN.Graph.C85_flatten_between` | p c q |
| C85 | `TN.Graph.C85_parallel` | p c q |
| C85 | `TN.Graph.C85_divide` | p c q |
| C86 | `TN.Wave.C86_apply_op` | p c q |
| C86 | `TN.Wave.C86_expval` | p c q |
| C86 | `TN.Wave.C86_circuit` | p c q |
| C86 | `TN.Wave.C86_circuit_iff` | p c q |
| C86 | `TN.Wave.C86_circuit_overlap` | p c q |
| C86 | `TN.Wave.C86_trotter_step` | p c q |
| C86 | `TN.Wave.C86_evolve` | p c q |
| C86 | `TN.Wave.C86_terms` | p c q |
| C86 | `TN.Wave.C86_defun` | p c q |
| C86 | `TN.Wave.C86_unitary` | p c q |
| C86 | `TN.Wave.C86_euclid_norm` | p c q |
| C87 | `TN.Graph.C87_from_topology` | p c q |
| C87 | `TN.Graph.C87_einsum_false` | p c q |
| C88 | `TN.Mera.C88_energy` | p c q |
| C88 | `TN.Mera.C88_identity` | p c q |
| C88 | `TN.Mera.C88_descend_partial` | p c q |
| C88 | `TN.Mera.C88_descend_trace` | p c q |
| C88 | `TN.Mera.C88_descend_hermitian` | p c q |
| C88 | `TN.Mera.C88_descend_false` | p c q |
| C88 | `TN.Mera.C88_descend_pairing` | p c q |
| C88 | `TN.Mera.C88_ascend` | p c q |
| C88 | `TN.Mera.C88_ascend_identity` | p c q |
| C88 | `TN.Mera.C88_shift` | p c q |
| C88 | `TN.Mera.C88_shift_energy` | p c q |
| C88 | `TN.Mera.C88_shift_nonpos` | p c q |
| C89 | `TN.Bs.C89_fuse` | p c q |
| C89 | `TN.Bs.C89_fuse_indices` | p c q |
| C89 | `TN.Bs.C89_flip` | p c q |
| C89 | `TN.Bs.C89_index_eq_partial` | p c q |
| C89 | `TN.Bs.C89_index_eq_false` | p c q |
| C89 | `TN.Bs.C89_compare_partial` | p c q |
| C89 | `TN.Bs.C89_compare_order` | p c q |
| C89 | `TN.Bs.C89_compare_true_false` | p c q |
| C89 | `TN.Bs.C89_compare_contiguous_false` | p c q |
| C90 | `TN.MpoRoll.C90_init` | p c q |
| C90 | `TN.MpoRoll.C90_init_false` | p q |
| C90 | `TN.MpoRoll.C90_roll_partial` | p c q |
| C90 | `TN.MpoRoll.C90_roll_raises` | p q |
| C90 | `TN.MpoRoll.C90_roll_negative_false` | p c q |
| C91 | `TN.Mera.C91_env_iso` | p c q |
| C91 | `TN.Mera.C91_env_dis` | p c q |
| C91 | `TN.Mera.C91_update_iso` | p c q |
| C91 | `TN.Mera.C91_update_dis` | p c q |
| C91 | `TN.Mera.C91_phase` | p c q |
| C91 | `TN.Mera.C91_iso_linear` | p c q |
| C91 | `TN.Mera.C91_dis_linear` | p c q |
| C91 | `TN.Mera.C91_descend_pos` | p c q |
| C91 | `TN.Mera.C91_optimize` | p c q |
| C92 | `TN.Switch.C92_switch_partial` | p c q |
| C92 | `TN.Switch.C92_raises_midway` | p c q |
| C92 | `TN.Switch.C92_again_false` | p c q |
| C92 | `TN.Switch.C92_symmetric` | p q |
| C92 | `TN.Switch.C92_unknown` | p |
| C92 | `TN.Switch.C92_numpy` | p c q |
| C92 | `TN.Switch.C92_atomic_false` | p c q |
| C93 | `TN.Bs.C93_solves_partial` | p c q |
| C93 | `TN.Bs.C93_refused` | p c q |
| C93 | `TN.Bs.C93_guess_false` | p c q |
| C93 | `TN.Bs.C93_shape_false` | p c q |
| C93 | `TN.Bs.C93_default_false` | p c q |
| C94 | `TN.Bs.C94_eigs_partial` | p c q |
| C94 | `TN.Bs.C94_refused` | p c q |
| C94 | `TN.Bs.C94_shape_false` | p c q |
| C95 | `TN.Np.C95_gmres_partial` | p c q |
| C95 | `TN.Np.C95_default` | p c q |
| C95 | `TN.Np.C95_clip` | p c q |
| C95 | `TN.Np.C95_refused` | p c q |
| C95 | `TN.Np.C95_eigs` | p c q |
| C95 | `TN.Np.C95_eigs_refused` | p c q |
| C95 | `TN.Np.C95_scalar_false` | p c q |
| C95 | `TN.Np.C95_integer_false` | p c q |
| C96 | `TN.Bs.C96_lanczos` | p c q |
| C96 | `TN.Bs.C96_ritz` | p c q |
| C96 | `TN.Bs.C96_refused` | p c q |
| C96 | `TN.Bs.C96_charges_false` | p c q |
| C97 | `TN.Bs.C97_init` | p c q |
| C97 | `TN.Bs.C97_like` | p c q |
| C97 | `TN.Bs.C97_constant` | p c q |
| C97 | `TN.Bs.C97_ones_zeros` | p c q |
| C97 | `TN.Bs.C97_random` | p c q |
| C97 | `TN.Bs.C97_random_complex` | p c q |
| C97 | `TN.Bs.C97_boundaries_false` | p c q |
| C98 | `TN.Viz.C98_picture` | p c q |
| C98 | `TN.Viz.C98_closed` | p c q |
| C98 | `TN.Viz.C98_iterator_false` | p c q |
| C98 | `TN.Viz.C98_neighbour_false` | p c q |
