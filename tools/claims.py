c("C01", "proved", ["C01_sum_keeps_order", "C01_add", "C01_terms", "C01_counterexample_groups", "C01_counterexample_scalar", "C01_counterexample_dim1"],
  "For every strict total order of the summands; no order hypothesis for operands that are not sums (C01_terms). Across groups the library's comparison need not be a total order, and then nested sums misplace coordinates (C01_counterexample_groups); nor after the global Scalar was called on another group (C01_counterexample_scalar), nor in dimension 1 (C01_counterexample_dim1).")
c("C02", "proved", ["C02_product_is_kron", "C02_product_list"])
c("C03", "proved", ["C03_products_of_sums"], "Representations of one group; several groups: C04_sums_partial.")
c("C04", "partial", ["C04_product_rep_raises", "C04_distinct_groups", "C04_pair", "C04_products_partial", "C04_dual_partial", "C04_sums_partial", "C04_counterexample_raises", "C04_counterexample_order"],
  "Proved: products of any representations of pairwise different groups (no assumption on the comparison); arbitrary repeated products, duals and sums when each group contributes one representation. False when a representation and its dual are mixed over several groups: an AssertionError and a wrong matrix are proved.")
c("C05", "proved", ["C05_orderings_are_permutations"])
c("C06", "proved", ["C06_canonicalize"])
c("C07", "proved", ["C07_sum_canonical_form", "C07_product_canonical_form"])
c("C08", "proved", ["C08_dual"])
c("C09", "proved", ["C09_linear_maps_row_major"])
c("C10", "proved", ["C10_expressions_denote"])
c("C11", "proved", ["C11_homomorphism", "C11_expressions_wf"])
c("C14", "partial", ["C14_sum_canonical_iff", "C14_product_canonical_iff_partial", "C14_product_canonical_counterexample"],
  "Proved for sums. For products the code tests perm==invperm, i.e. an involution; the counterexample is V.T*V in dimension 2.")
c("C15", "partial", ["C15_lt_strict_total_partial", "C15_eq_sum", "C15_eq_product", "C15_counterexample_cycle", "C15_counterexample_both", "C15_counterexample_custom", "C15_counterexample_scalar", "C15_counterexample_dim1"],
  "Equality and hashing proved in general. The comparison is a strict total order on the summands of one group; across groups it is cyclic, and user-defined representations of non-orthogonal groups are incomparable with their duals, as is Scalar with everything once it was called on a group with a larger hash, and V of dimension one (proved).")
c("C16", "proved", ["C16_add_int", "C16_mul_int", "C16_pow"])
c("C50", "proved", ["C50_so_generators", "C50_so_samples", "C50_o_samples", "C50_o_reflection"])
c("C51", "proved", ["C51_so13p", "C51_so13", "C51_o13", "C51_so11p", "C51_o11", "C51_so13p_generators", "C51_so11p_generators", "C51_parity", "C51_time_reversal", "C51_o13_generators", "C51_o11_generators"])
c("C52", "proved", ["C52_sp_generators", "C52_sp_samples"])
c("C53", "proved", ["C53_gl_generators", "C53_sl_generators", "C53_sl_samples", "C53_u_generators", "C53_u_samples", "C53_su_generators", "C53_su_samples"])
c("C62", "proved", ["C62_matrix_power"])
c("C63", "proved", ["C63_motions", "C63_semidirect", "C63_simply_transitive", "C63_order", "C63_convolution", "C63_weights", "C63_refused"])
c("C59", "partial", ["C59_rubiks_order", "C59_opposite_commute", "C59_corners_edges", "C59_cube", "C59_cubies_counterexample", "C59_no_cubies", "C59_generated", "C59_cube_object"],
  "Everything but the cubie claim is proved; the cubie claim is false for RubiksCube: its generators respect no grouping of stickers into cubies (the full cube rotations used to derive the other faces do not rotate the stickers within faces).")
c("C83", "partial", ["C83_inverted_cube", "C83_inverted_state", "C83_rubiks_counterexample", "C83_rubiks_not_separable"],
  "Proved for InvertedCube. False for BrokenRubiksCube: the state labelled 0 is in the orbit of the solved state under the library's RubiksCube group.")
c("C54", "proved", ["C54_symmetric", "C54_cyclic"])
c("C55", "proved", ["C55_sound", "C55_complete", "C55_tolerance", "C55_permutation_flag", "C55_converse"],
  "The hypothesis of exact orthogonality is needed: C55_tolerance is a flagged generator that is not a permutation.")
c("C56", "partial", ["C56_orthogonal_is_flagged", "C56_flag_partial", "C56_counterexample"],
  "Orthogonal generators are always flagged. The converse is proved for generators with entries in {-1,0,1} and bounded size; in general it is false because the test has a tolerance (counterexample proved).")
c("C57", "partial", ["C57_constructor_partial", "C57_permutation_orthogonal", "C57_preset", "C57_dihedral", "C57_counterexample"],
  "Proved for every group whose generators are not changed after construction (exactly orthogonal generators) and for D(k), k>=2. False for D(1): the flag is computed before the reflection is appended.")
c("C58", "partial", ["C58_equality_partial", "C58_product_assoc", "C58_embed_counterexample"],
  "Proved for all classes of the library and their products. False for Embed, whose printed form omits the slice.")
c("C60", "proved", ["C60_direct_product", "C60_embed"])
c("C61", "proved", ["C61_cyclic", "C61_dihedral"])
c("C80", "proved", ["C80_inertia", "C80_symmetry"])
c("C81", "proved", ["C81_o5", "C81_symmetry"])
c("C82", "proved", ["C82_particle", "C82_symmetry"])
c("C84", "proved", ["C84_unpack_pack", "C84_pack_unpack", "C84_JJ", "C84_conserves", "C84_energy", "C84_sho"])
c("C85", "proved", ["C85_symmetry", "C85_pendulum", "C85_O2", "C85_not_O3"])
c("C86", "partial", ["C86_count", "C86_chunks_partial", "C86_time_grid", "C86_counterexample"],
  "Count proved for every positive number of systems. Chunk length proved when it divides the trajectory length; false otherwise (8 points, chunk_len 3 gives chunks of 4; 7 points raise).")
c("C87", "partial", ["C87_train", "C87_history_partial", "C87_train_to_less", "C87_counterexample"],
  "Proved for every history of calls that each ask for at least one more epoch. False for train(0)/train_to(current epoch): the counter advances without a pass.")
c("C88", "partial", ["C88_checkpoint_best_partial", "C88_no_metric", "C88_nan_freezes"],
  "Proved for every history of non-NaN values. With a NaN in the history the checkpoint is frozen from then on (proved), so the claim fails there.")
c("C89", "proved", ["C89_mean", "C89_per_sample", "C89_short_batch"])
c("C90", "proved", ["C90_convert", "C90_round_trip", "C90_minibatch"],
  "minibatch_to is shown to succeed exactly on containers of arrays/tensors that are not named tuples.")
c("C17", "proved", ["C17_typed_parts", "C17_partition", "C17_equivariant"],
  "For every sum of well-formed representations, in any order of its arguments.")
c("C20", "proved", ["C20_constraint_matrix", "C20_no_generators", "C20_composite_raises"],
  "For atoms, duals and tensor products of one group; direct sums and mixed products have no constraint_matrix (AttributeError, proved).")
c("C21", "proved", ["C21_equivariant_basis", "C21_expressions"],
  "After every history of calls; the numerical null space routine is a parameter assumed exact (see C28 for orthogonal_complement).")
c("C22", "proved", ["C22_equivariant_projector"])
c("C23", "partial", ["C23_real_solutions_partial", "C23_counterexample"],
  "False for complex solutions: .H of a dense operator does not conjugate. Proved when the numerical routine returns real solutions.")
c("C24", "partial", ["C24_cache_transparent_partial", "C24_repeat", "C24_counterexample"],
  "Proved for a deterministic routine when groups that compare equal have equal generators; false for two Embed groups with different slices.")
c("C25", "proved", ["C25_generated", "C25_samples"],
  "For V, its duals and user-defined representations that are multiplicative with rho(exp A) = exp(drho A) (derived from differentiability in AtomRep.ofDeriv).")
c("C26", "proved", ["C26_terminates", "C26_never_unbound", "C26_complete", "C26_basis"],
  "At most 29 rounds; the value returned is the outcome of a round; complete unless the memory guard fires (then twice the columns exceed 2e9 entries).")
c("C27", "proved", ["C27_retries_terminate", "C27_nan"],
  "At most six attempts for every family of loss sequences (NaN included); the outcome is that of the first converging attempt or ConvergenceError.")
c("C28", "proved", ["C28_orthogonal_complement", "C28_exact_iff", "C28_solver_ok"],
  "The SVD (its values) is a parameter with the contract IsSVD, which every matrix meets (exists_svd); the threshold logic and the slicing of VH are modelled. In C28_solver_ok the iterative routine is assumed exact on matrices of more than 3e7 entries.")
c("C29", "partial", ["C29_finish_partial", "C29_counterexample", "C29_all_invariant"],
  "Proved when at least one singular value is below the cutoff or the rank limit is reached; otherwise S[rank] raises IndexError, which happens for every large representation on which all vectors are invariant.")
c("C31", "proved", ["C31_builds", "C31_weights", "C31_layer"],
  "For every parameter vector, every random choice of copies and every group element; bilinear_weights raises AttributeError on a representation that is not a sum (proved).")
c("C32", "proved", ["C32_parameters", "C32_layout"])
c("C33", "proved", ["C33_gated", "C33_products_raise", "C33_no_block"])
c("C34", "partial", ["C34_gate_indices_partial", "C34_not_canonical", "C34_vector_plus_scalar"],
  "Proved for canonical sums; on other sums (e.g. V+Scalar) gate_indices raises AssertionError instead of returning (proved).")
c("C35", "partial", ["C35_gated_nonlinearity_partial", "C35_single"],
  "Proved for canonical sums; for a single representation the call raises (proved).")
c("C41", "proved", ["C41_batch"])
c("C30", "proved", ["C30_linear", "C30_linear_groups"],
  "For every element of the group generated by the exponentials of the Lie algebra and the discrete generators, after every history of calls; the null space routine is a parameter assumed exact.")
c("C36", "proved", ["C36_equivariant", "C36_total", "C36_raises"],
  "Equivariant whenever it returns, for every depth, parameters and hidden representations; returns always when the hidden representations are sums in canonical order, and raises otherwise (proved).")
c("C12", "proved", ["C12_deferred", "C12_tensor", "C12_mixed_raises"],
  "For every expression built from the group-less V, user-defined representations, Scalar, +, *, **, .T and integers; mixing in a product that already has its group raises (proved).")
c("C13", "partial", ["C13_same_group_partial", "C13_dual_merged", "C13_groups_merged", "C13_stale_ordering"],
  "Calling a sum on its own group changes nothing, and raises if a summand is a product. The full statement (any target group) is false: three counterexamples are proved.")
c("C37", "proved", ["C37_uniform", "C37_uniform_ge_two", "C37_uniform_one", "C37_one", "C37_none"],
  "Exact size for every outcome of the draws; in dimension 1 for any hashes and any iteration order of sets, in dimension at least 2 in the absence of hash collisions.")
c("C38", "proved", ["C38_lambertW", "C38_largest", "C38_zero_diverges"])
c("C40", "proved", ["C40_widths", "C40_equivariant", "C40_total", "C40_one_channel"],
  "From the user's arguments (expressions, integers, lists) to widths, totality for integer channels of at least 2, and equivariance end to end; ch=1 always raises (proved).")
c("C39", "partial", ["C39_train_partial", "C39_test", "C39_composite_raises", "C39_default_aug_counterexample", "C39_emlp_partial"],
  "Test-time wrapper is the identity for every model. In training the model's own output is returned for representations whose rho is a plain array (Scalar, V, duals, user-defined); for sums, products and the datasets' own deferred representations the wrapper raises (both proved), so the full statement is false.")
c("C70", "partial", ["C70_dense_partial", "C70_denotes_partial", "C70_mismatch", "C70_constructors", "C70_counterexample_rectangular", "C70_counterexample_nested", "C70_counterexample_empty"],
  "Every expression tree of the library's operator classes, on vectors and matrices, down to reshape/moveaxis/split/concatenate. Three counterexamples are proved: direct sums of rectangular operators, a Kronecker product of a single Kronecker product, and Kronecker factors without columns; the positive theorems exclude exactly those.")
c("C71", "partial", ["C71_partial", "C71_apply_partial", "C71_concat_partial", "C71_counterexample_complex", "C71_counterexample_kron", "C71_counterexample_raises"],
  "Proved for real arrays and classes with an adjoint. False for complex arrays (T and H are swapped) and for direct sums, quarter turns and closures (they raise): proved.")
c("C72", "partial", ["C72_partial", "C72_counterexample_scaled", "C72_counterexample_sum", "C72_counterexample_raises"],
  "Proved for Lazy, identity, permutations, shifts, quarter turns, Kronecker products, products and powers, with np.linalg.inv assumed exact. False for multiples, sums, direct sums and Kronecker products of plain arrays: proved.")
c("C73", "proved", ["C73_rho", "C73_expressions_rho", "C73_products_rho", "C73_sums_rho", "C73_drho", "C73_expressions_drho", "C73_products_drho", "C73_sums_drho", "C73_constraint_matrix", "C73_counterexample_one_factor"],
  "np.linalg.inv assumed exact. Group elements are arrays, or operators whose class has an inverse transpose when the group is not orthogonal (C72). No hash collisions (C15). A ProductRep of a single factor, which the operators never build, raises: proved.")
c("C74", "proved", ["C74_basis", "C74_basis_direct", "C74_projector", "C74_expressions"],
  "The null space routine is assumed exact on the constraint matrices that occur (see C28). Real scalars for the projector; complex is C23.")
c("C42", "proved", ["C42_construction", "C42_function", "C42_equivariant", "C42_linear", "C42_torchify"],
  "Initial parameter values, which differ between the front ends, are not compared. jax.vjp and jit are assumed to return the value and the pullback.")
c("C43", "proved", ["C43_equivariant", "C43_vectors", "C43_datasets", "C43_emlp", "C43_counterexample", "C43_no_training"],
  "Exact real arithmetic; scales must not vanish. The comment in O5Synthetic that arbitrary tensors may be added and subtracted is false in general: C43_counterexample.")
c("C91", "proved", ["C91_network", "C91_scalar_out", "C91_phase_space", "C91_symplectic", "C91_dynamics", "C91_emlph", "C91_batch", "C91_pendulum",
  "C91_pendulum_stretched", "C91_needs_symplectic", "C91_needs_scalar"],
  "jax.grad is the gradient at the states considered (IsGradAt); that the network is differentiable there is a hypothesis, proved only for the pendulum at stretched states. Two counterexamples show which conditions on the representations cannot be dropped.")
c("C92", "proved", ["C92_equivariant", "C92_unique", "C92_hamiltonian", "C92_energy", "C92_momentum", "C92_ode_network", "C92_emlpode"],
  "odeint is assumed exact (Odeint.Exact: the values of a solution); equivariance also assumes a locally Lipschitz field, so that the solution is unique, and a field that ignores the time. Times are not before the first one.")
c("C93", "proved", ["C93_batch", "C93_hamiltonian"],
  "odeint is assumed exact on the rows and on the flattened batch; locally Lipschitz field.")
c("C94", "proved", ["C94_range", "C94_equivariance_error", "C94_empty_basis", "C94_trivial_samples", "C94_small_weights", "C94_basis", "C94_rel_err", "C94_trainer", "C94_network"],
  "Exact real arithmetic; the null space routine is assumed exact (C28). jnp.inf from a division by zero is not distinguished from nan.")
c("C95", "proved", ["C95_rollout", "C95_perfect", "C95_test"],
  "Stated for the rollouts as given arrays; what the integrator returns is C92 and C93. C95_test is for minibatches whose values are numbers.")
c("C96", "proved", ["C96_keeps_solutions", "C96_converges", "C96_loss", "C96_test", "C96_diverges", "C96_complete", "C96_round", "C96_residual", "C96_limit_solve",
  "C96_complex_loss", "C96_counterexample_complex"],
  "Exact real arithmetic. optax.sgd is modelled as momentum 0.9 with the gradient of the loss, which is shown to be C^T C W. That 20000 iterations suffice is not claimed; C96_limit_solve idealises the rounds to their limits. The economy SVD is a parameter with the contract IsEconSVD.")
c("C97", "partial", ["C97_entries", "C97_returns", "C97_span_partial", "C97_counterexample_span"],
  "The Adam steps are a parameter (losses and final W of each attempt). That the span is kept is proved when the optimum is a matrix of signs up to column scales, and refuted in general.")
c("C98", "proved", ["C98_mse", "C98_vector_labels", "C98_counterexample_vector_labels", "C98_refused", "C98_mse_symmetric", "C98_cross_entropy", "C98_accuracy", "C98_shift",
  "C98_counterexample_negative_label"],
  "Exact real arithmetic. Labels out of range in take_along_axis are a parameter. The datasets of the library have labels of the right shape.")
c("C101", "proved", ["C101_trivial", "C101_scaling", "C101_scaling_not_orthogonal"])
c("C103", "partial", ["C103_operator", "C103_contract", "C103_constraint", "C103_so2_irreps", "C103_pseudoscalar", "C103_schur", "C103_dual_partial", "C103_counterexample_dual_vector", "C103_counterexample_dual"], "real groups; proved for the representation itself. Fails for its dual (non-orthogonal groups): the operator cannot be applied to vectors, and its dense form cannot be computed when the representation has dimension 1")
c("C106", "partial", ["C106_inverted", "C106_rubiks", "C106_counterexample_rubiks", "C106_rubiks_accuracy"], "Everything proved for InvertedCube; for BrokenRubiksCube balance and orbits are proved, but the labels are not those of solvability: every item is solvable by the group of the library, so that an invariant classifier is right on exactly half of the test set.")
c("C102", "proved", ["C102_items", "C102_loss", "C102_true_model", "C102_loss_symmetric"], "for trajectories whose number of time points is a multiple of chunk_len (C86), an exact integrator and targets of the shape of the predictions")
c("C100", "proved", ["C100_group", "C100_card", "C100_card_real_cube", "C100_orbits", "C100_invariants", "C100_broken_reachable", "C100_object", "C100_weights", "C100_bias"],
  "Describes the group of the library as implemented, which is not the group of the physical cube (see C59).")
c("C99", "partial", ["C99_history", "C99_own_symmetry_partial", "C99_explicit", "C99_counterexample_default"],
  "False in general: makeTrainer writes the group into the shared default dictionary, so that later calls with the default use the symmetry of the first dataset. Proved for calls that bring their own configuration and for the first call.")

c("C104", "proved", ["C104_layers", "C104_vector_layers", "C104_basis", "C104_so", "C104_so2", "C104_o", "C104_sp", "C104_gl", "C104_sl",
  "C104_u", "C104_su", "C104_lorentz", "C104_so11p", "C104_o11", "C104_unconstrained", "C104_symmetric", "C104_shift", "C104_cyclic",
  "C104_dihedral", "C104_rubiks", "C104_cube", "C104_grid", "C104_sets", "C104_sequences"],
  "The layer statements are over the reals and for exact solver results; C104_basis also covers complex groups.")

c("C105", "partial", ["C105_content", "C105_created", "C105_same_partial", "C105_torn", "C105_filename", "C105_counterexample_crash",
  "C105_counterexample_race", "C105_counterexample_class"],
  "Proved once a construction that had the file to itself has returned. False otherwise: torch.save writes in place, so a process killed while saving leaves a file that makes all later constructions raise, a simultaneous construction may read an unfinished file, and classes that share their name share their data.")

c("C107", "partial", ["C107_basis", "C107_projector", "C107_projector_agree", "C107_deterministic", "C107_completes", "C107_single_thread", "C107_counterexample_basis"],
  "Proved for every schedule: correct bases and projectors, no exception of the cache, projectors equal everywhere, termination. The last clause (repeating a call in a thread returns the very same basis matrix) is false with a randomised routine: two threads that miss the cache both store, and the later solution replaces the one already handed out. It holds for deterministic routines (C107_deterministic).")

c("C109", "partial", ["C109_make_trainer", "C109_success", "C109_no_partial_file", "C109_strict", "C109_lenient", "C109_lenient_partial", "C109_file_names", "C109_file_names_net",
  "C109_counterexample_lenient", "C109_counterexample_save", "C109_counterexample_nested", "C109_counterexample_overwrite"],
  "Proved: when a trial succeeds and what it then writes; failed trials write no file; strict trials raise; file names are injective in the trial number. False: with strict=False an exception of make_trainer surfaces as UnboundLocalError (del trainer), save=True makes every trial fail after training (no save_checkpoint), repeated trials on one dictionary log in nested directories, and trials on different data share their file name.")

c("C108", "partial", ["C108_markers", "C108_trails", "C108_limits", "C108_init", "C108_positions", "C108_springs_partial", "C108_frames_partial", "C108_ends",
  "C108_width", "C108_counterexample_springs", "C108_counterexample_sho", "C108_counterexample_bodies"],
  "Proved for the data handed to the plotting library, over the reals. False: a spring that hangs straight down is not drawn (0/0 in align2ref), SHO cannot be animated, more than ten bodies raise ValueError.")

c("C110", "proved", ["C110_solver", "C110_basis", "C110_projector", "C110_projector_real", "C110_elements", "C110_samples", "C110_layer", "C110_layer_samples",
  "C110_counterexample_scalings"],
  "Exact real arithmetic apart from the threshold. C110_solver proves the threshold 1e-5 for the SVD route; on matrices of more than 3e7 entries the iterative routine is assumed to achieve it or raise. C110_counterexample_scalings shows that orthogonality is needed in (2) and (3).")

c("C113", "proved", ["C113_network", "C113_samples", "C113_solver_independent"],
  "Exact real arithmetic apart from the threshold. The constant is not computed; it grows with the bounds. Iterative routine on large matrices as in C110.")

c("C111", "proved", ["C111_network", "C111_input", "C111_sigmoid", "C111_loss"],
  "Over the reals. The cross-entropy of the classification scripts is not included.")

c("C112", "proved", ["C112_emlpode", "C112_emlph", "C112_momentum", "C112_emlpode_exists", "C112_emlph_exists"],
  "odeint enters as the contract Odeint.Sound (returns the rollout when there is one); C112_emlpode_exists and C112_emlph_exists show that it can be met and that rollouts exist for some time. Solutions may leave every bounded set in finite time, so existence for all times is not claimed.")
c("C114", "proved", ["C114_mlp", "C114_wrong_size", "C114_smooth", "C114_lipschitz", "C114_mlpode", "C114_mlph", "C114_not_equivariant"],
  "The dense layers of the frameworks are modelled after their documentation; jax.grad and odeint are parameters with contracts, as in C91 and C92.")
c("C115", "proved", ["C115_so", "C115_o", "C115_sp", "C115_gl", "C115_gl_counterexample", "C115_sl", "C115_u", "C115_su", "C115_so13p", "C115_so13", "C115_o13", "C115_so11p", "C115_o11", "C115_network_so", "C115_network_o", "C115_network_o13"],
  "Finding: GL(n) has only infinitesimal generators, so reflections are not generated by it (C115_gl_counterexample). Single precision of the stored arrays is not modelled.")
c("C116", "proved", ["C116_so", "C116_so_small", "C116_o", "C116_o_small", "C116_gl", "C116_gl_counterexample", "C116_sl", "C116_sp", "C116_linear_small", "C116_so13p", "C116_so13", "C116_o13", "C116_so11p", "C116_o11", "C116_parity", "C116_time_reversal", "C116_o2eR3", "C116_so2eR3", "C116_dkeR3", "C116_u", "C116_su", "C116_unitary_small"],
  "Findings: the trivial groups SO(1) and SL(1) cannot be constructed (no dimension can be read off an empty table); the relative test for orthogonality would accept GL(n) for n above 1.4 million (C116_gl_counterexample), far beyond what fits in memory. SU(1) cannot be constructed either: the trivial group is returned from __init__.")

c("C117", "proved", ["C117_invariants", "C117_same_invariants", "C117_so13", "C117_linear", "C117_network", "C117_counterexample_sign"],
  "C117_counterexample_sign shows that the condition on user-defined representations (Laurent polynomials along curves) cannot be dropped.")

c("C118", "proved", ["C118_invariants", "C118_same_invariants", "C118_linear", "C118_network", "C118_sharp"],
  "User-defined representations must have a rank: on diagonal sign matrices they are diagonal with entries products of at most that many signs.")

c("C119", "proved", ["C119_samples", "C119_so", "C119_o", "C119_u", "C119_one_parameter", "C119_scale", "C119_z", "C119_c", "C119_missed", "C119_su", "C119_count", "C119_s", "C119_d"],
  "Findings: Z(n) and C(k) with more than 28 elements, D(k) with k >= 32, S(n) with n >= 22, GL(n), SL(n) (n >= 2) and Sp(m) have elements that are never sampled (C119_z, C119_c, C119_d, C119_s, C119_missed); which of D(29), D(30), D(31) are covered depends on the random orders. U(n) and SU(n) are treated on their generator tables, not as group objects.")

c("C120", "partial", ["C120_apply_partial", "C120_mismatch", "C120_adjoint_partial", "C120_double", "C120_no_adjoint", "C120_counterexample_empty", "C120_combine", "C120_arithmetic", "C120_swap", "C120_matrix", "C120_identity"],
  "Partial because the full statement is false: without a matmat, op@V raises for a V without columns and to_dense() raises for an operator on the zero-dimensional space (C120_counterexample_empty); IdentityOperator accepts shapes that are not square and then raises or returns an array of the wrong shape (C120_identity).")

c("C121", "partial", ["C121_training", "C121_network", "C121_classifier", "C121_orthogonal", "C121_relabelled", "C121_datasets", "C121_augment_partial", "C121_counterexample_scaling"],
  "Partial because GroupAugmentation raises for other representations than Scalar, V, V* and user-defined ones (C39), so its part is proved for those. For output representations that are not orthogonal training does see the symmetry (C121_counterexample_scaling). Automatic differentiation and the optimizer are arbitrary functions of the loss and of the gradient.")
c("C122", "proved", ["C122_training", "C122_emlpode", "C122_emlph", "C122_truth"],
  "The integrator is a parameter assumed to commute with orthogonal symmetries of the field (an exact one does, exists_natural); the true dynamics enter by the hypothesis that its rollouts move "
  "with the initial states, met by C122_truth for twice differentiable invariant Hamiltonians.  DoubleSpringPendulum.H is not differentiable where a spring has length zero.")
c("C123", "proved", ["C123_regressor", "C123_classifier", "C123_network"],
  "Over the reals, where sums do not depend on the order.  Models that are row-wise on batches of the right size are the predicate RowWise; C123_network shows it for the networks of all front ends.")
c("C124", "proved", ["C124_gradient", "C124_descent", "C124_network", "C124_training", "C124_regressor"],
  "Over the reals, with exact derivatives.  C124_meets shows that the squared error on any data has the gradients of the hypotheses.  Optimizers that add their updates are the predicate Learner.Translates, "
  "which gradient descent meets (gradientDescent_translates); weight decay does not.")
c("C125", "proved", ["C125_training", "C125_names", "C125_log", "C125_detects", "C125_missing", "C125_rows", "C125_standardize", "C125_network", "C125_moved"],
  "Over the reals.  The samples are a parameter of the trainer: any elements of the group.  That group.samples draws from NumPy's generator, which a shuffling loader may share, is not modelled; batches are a parameter too.  "
  "The trainers need a model with the attribute model (such as Standardize): that a bare EMLP raises AttributeError is not modelled.")
c("C126", "proved", ["C126_parameters", "C126_raises", "C126_pieces", "C126_epoch", "C126_same", "C126_last", "C126_metrics", "C126_regressor"],
  "Over the reals.  The training data of an epoch are a function of the epoch and the number of the minibatch; gradients and optimizer are parameters.  The rows that a subclass adds to the log are covered by RowOK.")
c("C127", "proved", ["C127_characters", "C127_permutations", "C127_symmetric", "C127_cyclic"],
  "Over the reals, under the contract of the numerical solver (C21) and for hashes that do not collide.  The finite group is given as the finite set of all products of generators and their inverses.")
c("C128", "proved", ["C128_curie", "C128_homogeneous", "C128_dead", "C128_empty", "C128_rigid", "C128_multiples", "C128_minus_one"],
  "Over the reals, for networks built by EMLP(...) under the hypotheses of C40 (the numerical solver fulfils its contract, hashes do not collide).  Differentiable means continuously differentiable, as swish is.")
c("C129", "proved", ["C129_network", "C129_basis"],
  "Networks over the reals under the hypotheses of C40; both numerical routines fulfil their contract exactly (for thresholds see C113).  That Scalar remembers the same group is a hypothesis.  Bases over any field with conjugation.")
c("C130", "proved", ["C130_determinant", "C130_sharp", "C130_sl_maps", "C130_sl_unique"],
  "Over the reals, under the contract of the numerical solver (C21) and for hashes that do not collide.  The group SL(n) is given by the generators of its constructor.")
c("C131", "proved", ["C131_generators", "C131_basis", "C131_network", "C131_same_group"],
  "Over the reals, under the hypotheses of C40 and with the same random draws.  Networks: coordinates changed by orthogonal matrices (renumberings, if the group is a permutation group); bases: any invertible change that the flags of the group allow.  "
  "That Scalar remembers the same group is a hypothesis.")
c("C132", "proved", ["C132_dimension", "C132_sum", "C132_multiple", "C132_integer", "C132_swap", "C132_distributes", "C132_maps", "C132_transpose", "C132_subgroup", "C132_groups", "C132_counterexample_dual"],
  "Over the reals, under the contract of the numerical solver (C21) and for hashes that do not collide.")
c("C133", "proved", ["C133_subgroup", "C133_generated", "C133_detects", "C133_layers"],
  "Over the reals, under the hypotheses of C40 and with the same random draws; that the two groups have the same orthogonality and permutation flags is a hypothesis (the flags decide which gates a network has).")
c("C134", "proved", ["C134_deeper"],
  "Over the reals, under the hypotheses of C40 and with the same random draws.  With scalars or permutation representations among the summands the nonlinearity is applied to the components themselves, and a layer need not be able to compute the identity: nothing is claimed then.")
c("C135", "proved", ["C135_compose", "C135_space", "C135_identity", "C135_inputs", "C135_outputs"],
  "Over the reals, under the contract of the numerical solver (C21) and for hashes that do not collide; the layers may be constructed in any order, after any history.")
c("C136", "proved", ["C136_wrap", "C136_plain"],
  "Over the reals, under the hypotheses of C40.  For C136_wrap the networks are constructed with the same random draws while Scalar already belongs to the group, so that calling other representations leaves no difference behind for the hidden ones.")
c("C137", "proved", ["C137_standardize"],
  "Over the reals, under the hypotheses of C40; the scale of the outputs may be zero in the direction from Standardize to the network.")
c("C138", "proved", ["C138_projector", "C138_linear", "C138_nearest"],
  "Over the reals, under the contract of the numerical solver (C21) and for hashes that do not collide.")
c("C139", "proved", ["C139_projector", "C139_characters", "C139_linear", "C139_exists", "C139_classical", "C139_plane"],
  "Over the reals, under the contract of the numerical solver (C21) and for hashes that do not collide; user-defined representations are measurable functions of the element. That a uniform distribution exists (UniformLaw) is proved for closed groups of orthogonal matrices, in particular SO(n) and O(n).")
c("C140", "proved", ["C140_mean", "C140_expect", "C140_linear", "C140_linear_expect"],
  "Over the reals; C140_linear and C140_linear_expect under the contract of the numerical solver (C21). The network is any function of a row; the mean over a finite group counts each element once, and C140_expect takes the elements uniformly distributed (invariant under multiplication on the right); the distribution of G.samples itself is not claimed to be uniform.")
