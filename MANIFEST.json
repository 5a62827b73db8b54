{
 "claims": [
  {
   "property": "C01",
   "status": "proved",
   "theorems": [
    "Verif.C01_sum_keeps_order",
    "Verif.C01_add",
    "Verif.C01_terms",
    "Verif.C01_counterexample_groups",
    "Verif.C01_counterexample_scalar",
    "Verif.C01_counterexample_dim1"
   ],
   "note": "For every strict total order of the summands; no order hypothesis for operands that are not sums (C01_terms). Across groups the library's comparison need not be a total order, and then nested sums misplace coordinates (C01_counterexample_groups); nor after the global Scalar was called on another group (C01_counterexample_scalar), nor in dimension 1 (C01_counterexample_dim1)."
  },
  {
   "property": "C02",
   "status": "proved",
   "theorems": [
    "Verif.C02_product_is_kron",
    "Verif.C02_product_list"
   ],
   "note": ""
  },
  {
   "property": "C03",
   "status": "proved",
   "theorems": [
    "Verif.C03_products_of_sums"
   ],
   "note": "Representations of one group; several groups: C04_sums_partial."
  },
  {
   "property": "C04",
   "status": "partial",
   "theorems": [
    "Verif.C04_product_rep_raises",
    "Verif.C04_distinct_groups",
    "Verif.C04_pair",
    "Verif.C04_products_partial",
    "Verif.C04_dual_partial",
    "Verif.C04_sums_partial",
    "Verif.C04_counterexample_raises",
    "Verif.C04_counterexample_order"
   ],
   "note": "Proved: products of any representations of pairwise different groups (no assumption on the comparison); arbitrary repeated products, duals and sums when each group contributes one representation. False when a representation and its dual are mixed over several groups: an AssertionError and a wrong matrix are proved."
  },
  {
   "property": "C05",
   "status": "proved",
   "theorems": [
    "Verif.C05_orderings_are_permutations"
   ],
   "note": ""
  },
  {
   "property": "C06",
   "status": "proved",
   "theorems": [
    "Verif.C06_canonicalize"
   ],
   "note": ""
  },
  {
   "property": "C07",
   "status": "proved",
   "theorems": [
    "Verif.C07_sum_canonical_form",
    "Verif.C07_product_canonical_form"
   ],
   "note": ""
  },
  {
   "property": "C08",
   "status": "proved",
   "theorems": [
    "Verif.C08_dual"
   ],
   "note": ""
  },
  {
   "property": "C09",
   "status": "proved",
   "theorems": [
    "Verif.C09_linear_maps_row_major"
   ],
   "note": ""
  },
  {
   "property": "C10",
   "status": "proved",
   "theorems": [
    "Verif.C10_expressions_denote"
   ],
   "note": ""
  },
  {
   "property": "C11",
   "status": "proved",
   "theorems": [
    "Verif.C11_homomorphism",
    "Verif.C11_expressions_wf"
   ],
   "note": ""
  },
  {
   "property": "C14",
   "status": "partial",
   "theorems": [
    "Verif.C14_sum_canonical_iff",
    "Verif.C14_product_canonical_iff_partial",
    "Verif.C14_product_canonical_counterexample"
   ],
   "note": "Proved for sums. For products the code tests perm==invperm, i.e. an involution; the counterexample is V.T*V in dimension 2."
  },
  {
   "property": "C15",
   "status": "partial",
   "theorems": [
    "Verif.C15_lt_strict_total_partial",
    "Verif.C15_eq_sum",
    "Verif.C15_eq_product",
    "Verif.C15_counterexample_cycle",
    "Verif.C15_counterexample_both",
    "Verif.C15_counterexample_custom",
    "Verif.C15_counterexample_scalar",
    "Verif.C15_counterexample_dim1"
   ],
   "note": "Equality and hashing proved in general. The comparison is a strict total order on the summands of one group; across groups it is cyclic, and user-defined representations of non-orthogonal groups are incomparable with their duals, as is Scalar with everything once it was called on a group with a larger hash, and V of dimension one (proved)."
  },
  {
   "property": "C16",
   "status": "proved",
   "theorems": [
    "Verif.C16_add_int",
    "Verif.C16_mul_int",
    "Verif.C16_pow"
   ],
   "note": ""
  },
  {
   "property": "C50",
   "status": "proved",
   "theorems": [
    "Verif.C50_so_generators",
    "Verif.C50_so_samples",
    "Verif.C50_o_samples",
    "Verif.C50_o_reflection"
   ],
   "note": ""
  },
  {
   "property": "C51",
   "status": "proved",
   "theorems": [
    "Verif.C51_so13p",
    "Verif.C51_so13",
    "Verif.C51_o13",
    "Verif.C51_so11p",
    "Verif.C51_o11",
    "Verif.C51_so13p_generators",
    "Verif.C51_so11p_generators",
    "Verif.C51_parity",
    "Verif.C51_time_reversal",
    "Verif.C51_o13_generators",
    "Verif.C51_o11_generators"
   ],
   "note": ""
  },
  {
   "property": "C52",
   "status": "proved",
   "theorems": [
    "Verif.C52_sp_generators",
    "Verif.C52_sp_samples"
   ],
   "note": ""
  },
  {
   "property": "C53",
   "status": "proved",
   "theorems": [
    "Verif.C53_gl_generators",
    "Verif.C53_sl_generators",
    "Verif.C53_sl_samples",
    "Verif.C53_u_generators",
    "Verif.C53_u_samples",
    "Verif.C53_su_generators",
    "Verif.C53_su_samples"
   ],
   "note": ""
  },
  {
   "property": "C62",
   "status": "proved",
   "theorems": [
    "Verif.C62_matrix_power"
   ],
   "note": ""
  },
  {
   "property": "C63",
   "status": "proved",
   "theorems": [
    "Verif.C63_motions",
    "Verif.C63_semidirect",
    "Verif.C63_simply_transitive",
    "Verif.C63_order",
    "Verif.C63_convolution",
    "Verif.C63_weights",
    "Verif.C63_refused"
   ],
   "note": ""
  },
  {
   "property": "C59",
   "status": "partial",
   "theorems": [
    "Verif.C59_rubiks_order",
    "Verif.C59_opposite_commute",
    "Verif.C59_corners_edges",
    "Verif.C59_cube",
    "Verif.C59_cubies_counterexample",
    "Verif.C59_no_cubies",
    "Verif.C59_generated",
    "Verif.C59_cube_object"
   ],
   "note": "Everything but the cubie claim is proved; the cubie claim is false for RubiksCube: its generators respect no grouping of stickers into cubies (the full cube rotations used to derive the other faces do not rotate the stickers within faces)."
  },
  {
   "property": "C83",
   "status": "partial",
   "theorems": [
    "Verif.C83_inverted_cube",
    "Verif.C83_inverted_state",
    "Verif.C83_rubiks_counterexample",
    "Verif.C83_rubiks_not_separable"
   ],
   "note": "Proved for InvertedCube. False for BrokenRubiksCube: the state labelled 0 is in the orbit of the solved state under the library's RubiksCube group."
  },
  {
   "property": "C54",
   "status": "proved",
   "theorems": [
    "Verif.C54_symmetric",
    "Verif.C54_cyclic"
   ],
   "note": ""
  },
  {
   "property": "C55",
   "status": "proved",
   "theorems": [
    "Verif.C55_sound",
    "Verif.C55_complete",
    "Verif.C55_tolerance",
    "Verif.C55_permutation_flag",
    "Verif.C55_converse"
   ],
   "note": "The hypothesis of exact orthogonality is needed: C55_tolerance is a flagged generator that is not a permutation."
  },
  {
   "property": "C56",
   "status": "partial",
   "theorems": [
    "Verif.C56_orthogonal_is_flagged",
    "Verif.C56_flag_partial",
    "Verif.C56_counterexample"
   ],
   "note": "Orthogonal generators are always flagged. The converse is proved for generators with entries in {-1,0,1} and bounded size; in general it is false because the test has a tolerance (counterexample proved)."
  },
  {
   "property": "C57",
   "status": "partial",
   "theorems": [
    "Verif.C57_constructor_partial",
    "Verif.C57_permutation_orthogonal",
    "Verif.C57_preset",
    "Verif.C57_dihedral",
    "Verif.C57_counterexample"
   ],
   "note": "Proved for every group whose generators are not changed after construction (exactly orthogonal generators) and for D(k), k>=2. False for D(1): the flag is computed before the reflection is appended."
  },
  {
   "property": "C58",
   "status": "partial",
   "theorems": [
    "Verif.C58_equality_partial",
    "Verif.C58_product_assoc",
    "Verif.C58_embed_counterexample"
   ],
   "note": "Proved for all classes of the library and their products. False for Embed, whose printed form omits the slice."
  },
  {
   "property": "C60",
   "status": "proved",
   "theorems": [
    "Verif.C60_direct_product",
    "Verif.C60_embed"
   ],
   "note": ""
  },
  {
   "property": "C61",
   "status": "proved",
   "theorems": [
    "Verif.C61_cyclic",
    "Verif.C61_dihedral"
   ],
   "note": ""
  },
  {
   "property": "C80",
   "status": "proved",
   "theorems": [
    "Verif.C80_inertia",
    "Verif.C80_symmetry"
   ],
   "note": ""
  },
  {
   "property": "C81",
   "status": "proved",
   "theorems": [
    "Verif.C81_o5",
    "Verif.C81_symmetry"
   ],
   "note": ""
  },
  {
   "property": "C82",
   "status": "proved",
   "theorems": [
    "Verif.C82_particle",
    "Verif.C82_symmetry"
   ],
   "note": ""
  },
  {
   "property": "C84",
   "status": "proved",
   "theorems": [
    "Verif.C84_unpack_pack",
    "Verif.C84_pack_unpack",
    "Verif.C84_JJ",
    "Verif.C84_conserves",
    "Verif.C84_energy",
    "Verif.C84_sho"
   ],
   "note": ""
  },
  {
   "property": "C85",
   "status": "proved",
   "theorems": [
    "Verif.C85_symmetry",
    "Verif.C85_pendulum",
    "Verif.C85_O2",
    "Verif.C85_not_O3"
   ],
   "note": ""
  },
  {
   "property": "C86",
   "status": "partial",
   "theorems": [
    "Verif.C86_count",
    "Verif.C86_chunks_partial",
    "Verif.C86_time_grid",
    "Verif.C86_counterexample"
   ],
   "note": "Count proved for every positive number of systems. Chunk length proved when it divides the trajectory length; false otherwise (8 points, chunk_len 3 gives chunks of 4; 7 points raise)."
  },
  {
   "property": "C87",
   "status": "partial",
   "theorems": [
    "Verif.C87_train",
    "Verif.C87_history_partial",
    "Verif.C87_train_to_less",
    "Verif.C87_counterexample"
   ],
   "note": "Proved for every history of calls that each ask for at least one more epoch. False for train(0)/train_to(current epoch): the counter advances without a pass."
  },
  {
   "property": "C88",
   "status": "partial",
   "theorems": [
    "Verif.C88_checkpoint_best_partial",
    "Verif.C88_no_metric",
    "Verif.C88_nan_freezes"
   ],
   "note": "Proved for every history of non-NaN values. With a NaN in the history the checkpoint is frozen from then on (proved), so the claim fails there."
  },
  {
   "property": "C89",
   "status": "proved",
   "theorems": [
    "Verif.C89_mean",
    "Verif.C89_per_sample",
    "Verif.C89_short_batch"
   ],
   "note": ""
  },
  {
   "property": "C90",
   "status": "proved",
   "theorems": [
    "Verif.C90_convert",
    "Verif.C90_round_trip",
    "Verif.C90_minibatch"
   ],
   "note": "minibatch_to is shown to succeed exactly on containers of arrays/tensors that are not named tuples."
  },
  {
   "property": "C17",
   "status": "proved",
   "theorems": [
    "Verif.C17_typed_parts",
    "Verif.C17_partition",
    "Verif.C17_equivariant"
   ],
   "note": "For every sum of well-formed representations, in any order of its arguments."
  },
  {
   "property": "C20",
   "status": "proved",
   "theorems": [
    "Verif.C20_constraint_matrix",
    "Verif.C20_no_generators",
    "Verif.C20_composite_raises"
   ],
   "note": "For atoms, duals and tensor products of one group; direct sums and mixed products have no constraint_matrix (AttributeError, proved)."
  },
  {
   "property": "C21",
   "status": "proved",
   "theorems": [
    "Verif.C21_equivariant_basis",
    "Verif.C21_expressions"
   ],
   "note": "After every history of calls; the numerical null space routine is a parameter assumed exact (see C28 for orthogonal_complement)."
  },
  {
   "property": "C22",
   "status": "proved",
   "theorems": [
    "Verif.C22_equivariant_projector"
   ],
   "note": ""
  },
  {
   "property": "C23",
   "status": "partial",
   "theorems": [
    "Verif.C23_real_solutions_partial",
    "Verif.C23_counterexample"
   ],
   "note": "False for complex solutions: .H of a dense operator does not conjugate. Proved when the numerical routine returns real solutions."
  },
  {
   "property": "C24",
   "status": "partial",
   "theorems": [
    "Verif.C24_cache_transparent_partial",
    "Verif.C24_repeat",
    "Verif.C24_counterexample"
   ],
   "note": "Proved for a deterministic routine when groups that compare equal have equal generators; false for two Embed groups with different slices."
  },
  {
   "property": "C25",
   "status": "proved",
   "theorems": [
    "Verif.C25_generated",
    "Verif.C25_samples"
   ],
   "note": "For V, its duals and user-defined representations that are multiplicative with rho(exp A) = exp(drho A) (derived from differentiability in AtomRep.ofDeriv)."
  },
  {
   "property": "C26",
   "status": "proved",
   "theorems": [
    "Verif.C26_terminates",
    "Verif.C26_never_unbound",
    "Verif.C26_complete",
    "Verif.C26_basis"
   ],
   "note": "At most 29 rounds; the value returned is the outcome of a round; complete unless the memory guard fires (then twice the columns exceed 2e9 entries)."
  },
  {
   "property": "C27",
   "status": "proved",
   "theorems": [
    "Verif.C27_retries_terminate",
    "Verif.C27_nan"
   ],
   "note": "At most six attempts for every family of loss sequences (NaN included); the outcome is that of the first converging attempt or ConvergenceError."
  },
  {
   "property": "C28",
   "status": "proved",
   "theorems": [
    "Verif.C28_orthogonal_complement",
    "Verif.C28_exact_iff",
    "Verif.C28_solver_ok"
   ],
   "note": "The SVD (its values) is a parameter with the contract IsSVD, which every matrix meets (exists_svd); the threshold logic and the slicing of VH are modelled. In C28_solver_ok the iterative routine is assumed exact on matrices of more than 3e7 entries."
  },
  {
   "property": "C29",
   "status": "partial",
   "theorems": [
    "Verif.C29_finish_partial",
    "Verif.C29_counterexample",
    "Verif.C29_all_invariant"
   ],
   "note": "Proved when at least one singular value is below the cutoff or the rank limit is reached; otherwise S[rank] raises IndexError, which happens for every large representation on which all vectors are invariant."
  },
  {
   "property": "C31",
   "status": "proved",
   "theorems": [
    "Verif.C31_builds",
    "Verif.C31_weights",
    "Verif.C31_layer"
   ],
   "note": "For every parameter vector, every random choice of copies and every group element; bilinear_weights raises AttributeError on a representation that is not a sum (proved)."
  },
  {
   "property": "C32",
   "status": "proved",
   "theorems": [
    "Verif.C32_parameters",
    "Verif.C32_layout"
   ],
   "note": ""
  },
  {
   "property": "C33",
   "status": "proved",
   "theorems": [
    "Verif.C33_gated",
    "Verif.C33_products_raise",
    "Verif.C33_no_block"
   ],
   "note": ""
  },
  {
   "property": "C34",
   "status": "partial",
   "theorems": [
    "Verif.C34_gate_indices_partial",
    "Verif.C34_not_canonical",
    "Verif.C34_vector_plus_scalar"
   ],
   "note": "Proved for canonical sums; on other sums (e.g. V+Scalar) gate_indices raises AssertionError instead of returning (proved)."
  },
  {
   "property": "C35",
   "status": "partial",
   "theorems": [
    "Verif.C35_gated_nonlinearity_partial",
    "Verif.C35_single"
   ],
   "note": "Proved for canonical sums; for a single representation the call raises (proved)."
  },
  {
   "property": "C41",
   "status": "proved",
   "theorems": [
    "Verif.C41_batch"
   ],
   "note": ""
  },
  {
   "property": "C30",
   "status": "proved",
   "theorems": [
    "Verif.C30_linear",
    "Verif.C30_linear_groups"
   ],
   "note": "For every element of the group generated by the exponentials of the Lie algebra and the discrete generators, after every history of calls; the null space routine is a parameter assumed exact."
  },
  {
   "property": "C36",
   "status": "proved",
   "theorems": [
    "Verif.C36_equivariant",
    "Verif.C36_total",
    "Verif.C36_raises"
   ],
   "note": "Equivariant whenever it returns, for every depth, parameters and hidden representations; returns always when the hidden representations are sums in canonical order, and raises otherwise (proved)."
  },
  {
   "property": "C12",
   "status": "proved",
   "theorems": [
    "Verif.C12_deferred",
    "Verif.C12_tensor",
    "Verif.C12_mixed_raises"
   ],
   "note": "For every expression built from the group-less V, user-defined representations, Scalar, +, *, **, .T and integers; mixing in a product that already has its group raises (proved)."
  },
  {
   "property": "C13",
   "status": "partial",
   "theorems": [
    "Verif.C13_same_group_partial",
    "Verif.C13_dual_merged",
    "Verif.C13_groups_merged",
    "Verif.C13_stale_ordering"
   ],
   "note": "Calling a sum on its own group changes nothing, and raises if a summand is a product. The full statement (any target group) is false: three counterexamples are proved."
  },
  {
   "property": "C37",
   "status": "proved",
   "theorems": [
    "Verif.C37_uniform",
    "Verif.C37_uniform_ge_two",
    "Verif.C37_uniform_one",
    "Verif.C37_one",
    "Verif.C37_none"
   ],
   "note": "Exact size for every outcome of the draws; in dimension 1 for any hashes and any iteration order of sets, in dimension at least 2 in the absence of hash collisions."
  },
  {
   "property": "C38",
   "status": "proved",
   "theorems": [
    "Verif.C38_lambertW",
    "Verif.C38_largest",
    "Verif.C38_zero_diverges"
   ],
   "note": ""
  },
  {
   "property": "C40",
   "status": "proved",
   "theorems": [
    "Verif.C40_widths",
    "Verif.C40_equivariant",
    "Verif.C40_total",
    "Verif.C40_one_channel"
   ],
   "note": "From the user's arguments (expressions, integers, lists) to widths, totality for integer channels of at least 2, and equivariance end to end; ch=1 always raises (proved)."
  },
  {
   "property": "C39",
   "status": "partial",
   "theorems": [
    "Verif.C39_train_partial",
    "Verif.C39_test",
    "Verif.C39_composite_raises",
    "Verif.C39_default_aug_counterexample",
    "Verif.C39_emlp_partial"
   ],
   "note": "Test-time wrapper is the identity for every model. In training the model's own output is returned for representations whose rho is a plain array (Scalar, V, duals, user-defined); for sums, products and the datasets' own deferred representations the wrapper raises (both proved), so the full statement is false."
  },
  {
   "property": "C70",
   "status": "partial",
   "theorems": [
    "Verif.C70_dense_partial",
    "Verif.C70_denotes_partial",
    "Verif.C70_mismatch",
    "Verif.C70_constructors",
    "Verif.C70_counterexample_rectangular",
    "Verif.C70_counterexample_nested",
    "Verif.C70_counterexample_empty"
   ],
   "note": "Every expression tree of the library's operator classes, on vectors and matrices, down to reshape/moveaxis/split/concatenate. Three counterexamples are proved: direct sums of rectangular operators, a Kronecker product of a single Kronecker product, and Kronecker factors without columns; the positive theorems exclude exactly those."
  },
  {
   "property": "C71",
   "status": "partial",
   "theorems": [
    "Verif.C71_partial",
    "Verif.C71_apply_partial",
    "Verif.C71_concat_partial",
    "Verif.C71_counterexample_complex",
    "Verif.C71_counterexample_kron",
    "Verif.C71_counterexample_raises"
   ],
   "note": "Proved for real arrays and classes with an adjoint. False for complex arrays (T and H are swapped) and for direct sums, quarter turns and closures (they raise): proved."
  },
  {
   "property": "C72",
   "status": "partial",
   "theorems": [
    "Verif.C72_partial",
    "Verif.C72_counterexample_scaled",
    "Verif.C72_counterexample_sum",
    "Verif.C72_counterexample_raises"
   ],
   "note": "Proved for Lazy, identity, permutations, shifts, quarter turns, Kronecker products, products and powers, with np.linalg.inv assumed exact. False for multiples, sums, direct sums and Kronecker products of plain arrays: proved."
  },
  {
   "property": "C73",
   "status": "proved",
   "theorems": [
    "Verif.C73_rho",
    "Verif.C73_expressions_rho",
    "Verif.C73_products_rho",
    "Verif.C73_sums_rho",
    "Verif.C73_drho",
    "Verif.C73_expressions_drho",
    "Verif.C73_products_drho",
    "Verif.C73_sums_drho",
    "Verif.C73_constraint_matrix",
    "Verif.C73_counterexample_one_factor"
   ],
   "note": "np.linalg.inv assumed exact. Group elements are arrays, or operators whose class has an inverse transpose when the group is not orthogonal (C72). No hash collisions (C15). A ProductRep of a single factor, which the operators never build, raises: proved."
  },
  {
   "property": "C74",
   "status": "proved",
   "theorems": [
    "Verif.C74_basis",
    "Verif.C74_basis_direct",
    "Verif.C74_projector",
    "Verif.C74_expressions"
   ],
   "note": "The null space routine is assumed exact on the constraint matrices that occur (see C28). Real scalars for the projector; complex is C23."
  },
  {
   "property": "C42",
   "status": "proved",
   "theorems": [
    "Verif.C42_construction",
    "Verif.C42_function",
    "Verif.C42_equivariant",
    "Verif.C42_linear",
    "Verif.C42_torchify"
   ],
   "note": "Initial parameter values, which differ between the front ends, are not compared. jax.vjp and jit are assumed to return the value and the pullback."
  },
  {
   "property": "C43",
   "status": "proved",
   "theorems": [
    "Verif.C43_equivariant",
    "Verif.C43_vectors",
    "Verif.C43_datasets",
    "Verif.C43_emlp",
    "Verif.C43_counterexample",
    "Verif.C43_no_training"
   ],
   "note": "Exact real arithmetic; scales must not vanish. The comment in O5Synthetic that arbitrary tensors may be added and subtracted is false in general: C43_counterexample."
  },
  {
   "property": "C91",
   "status": "proved",
   "theorems": [
    "Verif.C91_network",
    "Verif.C91_scalar_out",
    "Verif.C91_phase_space",
    "Verif.C91_symplectic",
    "Verif.C91_dynamics",
    "Verif.C91_emlph",
    "Verif.C91_batch",
    "Verif.C91_pendulum",
    "Verif.C91_pendulum_stretched",
    "Verif.C91_needs_symplectic",
    "Verif.C91_needs_scalar"
   ],
   "note": "jax.grad is the gradient at the states considered (IsGradAt); that the network is differentiable there is a hypothesis, proved only for the pendulum at stretched states. Two counterexamples show which conditions on the representations cannot be dropped."
  },
  {
   "property": "C92",
   "status": "proved",
   "theorems": [
    "Verif.C92_equivariant",
    "Verif.C92_unique",
    "Verif.C92_hamiltonian",
    "Verif.C92_energy",
    "Verif.C92_momentum",
    "Verif.C92_ode_network",
    "Verif.C92_emlpode"
   ],
   "note": "odeint is assumed exact (Odeint.Exact: the values of a solution); equivariance also assumes a locally Lipschitz field, so that the solution is unique, and a field that ignores the time. Times are not before the first one."
  },
  {
   "property": "C93",
   "status": "proved",
   "theorems": [
    "Verif.C93_batch",
    "Verif.C93_hamiltonian"
   ],
   "note": "odeint is assumed exact on the rows and on the flattened batch; locally Lipschitz field."
  },
  {
   "property": "C94",
   "status": "proved",
   "theorems": [
    "Verif.C94_range",
    "Verif.C94_equivariance_error",
    "Verif.C94_empty_basis",
    "Verif.C94_trivial_samples",
    "Verif.C94_small_weights",
    "Verif.C94_basis",
    "Verif.C94_rel_err",
    "Verif.C94_trainer",
    "Verif.C94_network"
   ],
   "note": "Exact real arithmetic; the null space routine is assumed exact (C28). jnp.inf from a division by zero is not distinguished from nan."
  },
  {
   "property": "C95",
   "status": "proved",
   "theorems": [
    "Verif.C95_rollout",
    "Verif.C95_perfect",
    "Verif.C95_test"
   ],
   "note": "Stated for the rollouts as given arrays; what the integrator returns is C92 and C93. C95_test is for minibatches whose values are numbers."
  },
  {
   "property": "C96",
   "status": "proved",
   "theorems": [
    "Verif.C96_keeps_solutions",
    "Verif.C96_converges",
    "Verif.C96_loss",
    "Verif.C96_test",
    "Verif.C96_diverges",
    "Verif.C96_complete",
    "Verif.C96_round",
    "Verif.C96_residual",
    "Verif.C96_limit_solve",
    "Verif.C96_complex_loss",
    "Verif.C96_counterexample_complex"
   ],
   "note": "Exact real arithmetic. optax.sgd is modelled as momentum 0.9 with the gradient of the loss, which is shown to be C^T C W. That 20000 iterations suffice is not claimed; C96_limit_solve idealises the rounds to their limits. The economy SVD is a parameter with the contract IsEconSVD."
  },
  {
   "property": "C97",
   "status": "partial",
   "theorems": [
    "Verif.C97_entries",
    "Verif.C97_returns",
    "Verif.C97_span_partial",
    "Verif.C97_counterexample_span"
   ],
   "note": "The Adam steps are a parameter (losses and final W of each attempt). That the span is kept is proved when the optimum is a matrix of signs up to column scales, and refuted in general."
  },
  {
   "property": "C98",
   "status": "proved",
   "theorems": [
    "Verif.C98_mse",
    "Verif.C98_vector_labels",
    "Verif.C98_counterexample_vector_labels",
    "Verif.C98_refused",
    "Verif.C98_mse_symmetric",
    "Verif.C98_cross_entropy",
    "Verif.C98_accuracy",
    "Verif.C98_shift",
    "Verif.C98_counterexample_negative_label"
   ],
   "note": "Exact real arithmetic. Labels out of range in take_along_axis are a parameter. The datasets of the library have labels of the right shape."
  },
  {
   "property": "C101",
   "status": "proved",
   "theorems": [
    "Verif.C101_trivial",
    "Verif.C101_scaling",
    "Verif.C101_scaling_not_orthogonal"
   ],
   "note": ""
  },
  {
   "property": "C103",
   "status": "partial",
   "theorems": [
    "Verif.C103_operator",
    "Verif.C103_contract",
    "Verif.C103_constraint",
    "Verif.C103_so2_irreps",
    "Verif.C103_pseudoscalar",
    "Verif.C103_schur",
    "Verif.C103_dual_partial",
    "Verif.C103_counterexample_dual_vector",
    "Verif.C103_counterexample_dual"
   ],
   "note": "real groups; proved for the representation itself. Fails for its dual (non-orthogonal groups): the operator cannot be applied to vectors, and its dense form cannot be computed when the representation has dimension 1"
  },
  {
   "property": "C106",
   "status": "partial",
   "theorems": [
    "Verif.C106_inverted",
    "Verif.C106_rubiks",
    "Verif.C106_counterexample_rubiks",
    "Verif.C106_rubiks_accuracy"
   ],
   "note": "Everything proved for InvertedCube; for BrokenRubiksCube balance and orbits are proved, but the labels are not those of solvability: every item is solvable by the group of the library, so that an invariant classifier is right on exactly half of the test set."
  },
  {
   "property": "C102",
   "status": "proved",
   "theorems": [
    "Verif.C102_items",
    "Verif.C102_loss",
    "Verif.C102_true_model",
    "Verif.C102_loss_symmetric"
   ],
   "note": "for trajectories whose number of time points is a multiple of chunk_len (C86), an exact integrator and targets of the shape of the predictions"
  },
  {
   "property": "C100",
   "status": "proved",
   "theorems": [
    "Verif.C100_group",
    "Verif.C100_card",
    "Verif.C100_card_real_cube",
    "Verif.C100_orbits",
    "Verif.C100_invariants",
    "Verif.C100_broken_reachable",
    "Verif.C100_object",
    "Verif.C100_weights",
    "Verif.C100_bias"
   ],
   "note": "Describes the group of the library as implemented, which is not the group of the physical cube (see C59)."
  },
  {
   "property": "C99",
   "status": "partial",
   "theorems": [
    "Verif.C99_history",
    "Verif.C99_own_symmetry_partial",
    "Verif.C99_explicit",
    "Verif.C99_counterexample_default"
   ],
   "note": "False in general: makeTrainer writes the group into the shared default dictionary, so that later calls with the default use the symmetry of the first dataset. Proved for calls that bring their own configuration and for the first call."
  },
  {
   "property": "C104",
   "status": "proved",
   "theorems": [
    "Verif.C104_layers",
    "Verif.C104_vector_layers",
    "Verif.C104_basis",
    "Verif.C104_so",
    "Verif.C104_so2",
    "Verif.C104_o",
    "Verif.C104_sp",
    "Verif.C104_gl",
    "Verif.C104_sl",
    "Verif.C104_u",
    "Verif.C104_su",
    "Verif.C104_lorentz",
    "Verif.C104_so11p",
    "Verif.C104_o11",
    "Verif.C104_unconstrained",
    "Verif.C104_symmetric",
    "Verif.C104_shift",
    "Verif.C104_cyclic",
    "Verif.C104_dihedral",
    "Verif.C104_rubiks",
    "Verif.C104_cube",
    "Verif.C104_grid",
    "Verif.C104_sets",
    "Verif.C104_sequences"
   ],
   "note": "The layer statements are over the reals and for exact solver results; C104_basis also covers complex groups."
  },
  {
   "property": "C105",
   "status": "partial",
   "theorems": [
    "Verif.C105_content",
    "Verif.C105_created",
    "Verif.C105_same_partial",
    "Verif.C105_torn",
    "Verif.C105_filename",
    "Verif.C105_counterexample_crash",
    "Verif.C105_counterexample_race",
    "Verif.C105_counterexample_class"
   ],
   "note": "Proved once a construction that had the file to itself has returned. False otherwise: torch.save writes in place, so a process killed while saving leaves a file that makes all later constructions raise, a simultaneous construction may read an unfinished file, and classes that share their name share their data."
  },
  {
   "property": "C107",
   "status": "partial",
   "theorems": [
    "Verif.C107_basis",
    "Verif.C107_projector",
    "Verif.C107_projector_agree",
    "Verif.C107_deterministic",
    "Verif.C107_completes",
    "Verif.C107_single_thread",
    "Verif.C107_counterexample_basis"
   ],
   "note": "Proved for every schedule: correct bases and projectors, no exception of the cache, projectors equal everywhere, termination. The last clause (repeating a call in a thread returns the very same basis matrix) is false with a randomised routine: two threads that miss the cache both store, and the later solution replaces the one already handed out. It holds for deterministic routines (C107_deterministic)."
  },
  {
   "property": "C109",
   "status": "partial",
   "theorems": [
    "Verif.C109_make_trainer",
    "Verif.C109_success",
    "Verif.C109_no_partial_file",
    "Verif.C109_strict",
    "Verif.C109_lenient",
    "Verif.C109_lenient_partial",
    "Verif.C109_file_names",
    "Verif.C109_file_names_net",
    "Verif.C109_counterexample_lenient",
    "Verif.C109_counterexample_save",
    "Verif.C109_counterexample_nested",
    "Verif.C109_counterexample_overwrite"
   ],
   "note": "Proved: when a trial succeeds and what it then writes; failed trials write no file; strict trials raise; file names are injective in the trial number. False: with strict=False an exception of make_trainer surfaces as UnboundLocalError (del trainer), save=True makes every trial fail after training (no save_checkpoint), repeated trials on one dictionary log in nested directories, and trials on different data share their file name."
  },
  {
   "property": "C108",
   "status": "partial",
   "theorems": [
    "Verif.C108_markers",
    "Verif.C108_trails",
    "Verif.C108_limits",
    "Verif.C108_init",
    "Verif.C108_positions",
    "Verif.C108_springs_partial",
    "Verif.C108_frames_partial",
    "Verif.C108_ends",
    "Verif.C108_width",
    "Verif.C108_counterexample_springs",
    "Verif.C108_counterexample_sho",
    "Verif.C108_counterexample_bodies"
   ],
   "note": "Proved for the data handed to the plotting library, over the reals. False: a spring that hangs straight down is not drawn (0/0 in align2ref), SHO cannot be animated, more than ten bodies raise ValueError."
  },
  {
   "property": "C110",
   "status": "proved",
   "theorems": [
    "Verif.C110_solver",
    "Verif.C110_basis",
    "Verif.C110_projector",
    "Verif.C110_projector_real",
    "Verif.C110_elements",
    "Verif.C110_samples",
    "Verif.C110_layer",
    "Verif.C110_layer_samples",
    "Verif.C110_counterexample_scalings"
   ],
   "note": "Exact real arithmetic apart from the threshold. C110_solver proves the threshold 1e-5 for the SVD route; on matrices of more than 3e7 entries the iterative routine is assumed to achieve it or raise. C110_counterexample_scalings shows that orthogonality is needed in (2) and (3)."
  },
  {
   "property": "C113",
   "status": "proved",
   "theorems": [
    "Verif.C113_network",
    "Verif.C113_samples",
    "Verif.C113_solver_independent"
   ],
   "note": "Exact real arithmetic apart from the threshold. The constant is not computed; it grows with the bounds. Iterative routine on large matrices as in C110."
  },
  {
   "property": "C111",
   "status": "proved",
   "theorems": [
    "Verif.C111_network",
    "Verif.C111_input",
    "Verif.C111_sigmoid",
    "Verif.C111_loss"
   ],
   "note": "Over the reals. The cross-entropy of the classification scripts is not included."
  },
  {
   "property": "C112",
   "status": "proved",
   "theorems": [
    "Verif.C112_emlpode",
    "Verif.C112_emlph",
    "Verif.C112_momentum",
    "Verif.C112_emlpode_exists",
    "Verif.C112_emlph_exists"
   ],
   "note": "odeint enters as the contract Odeint.Sound (returns the rollout when there is one); C112_emlpode_exists and C112_emlph_exists show that it can be met and that rollouts exist for some time. Solutions may leave every bounded set in finite time, so existence for all times is not claimed."
  },
  {
   "property": "C114",
   "status": "proved",
   "theorems": [
    "Verif.C114_mlp",
    "Verif.C114_wrong_size",
    "Verif.C114_smooth",
    "Verif.C114_lipschitz",
    "Verif.C114_mlpode",
    "Verif.C114_mlph",
    "Verif.C114_not_equivariant"
   ],
   "note": "The dense layers of the frameworks are modelled after their documentation; jax.grad and odeint are parameters with contracts, as in C91 and C92."
  },
  {
   "property": "C115",
   "status": "proved",
   "theorems": [
    "Verif.C115_so",
    "Verif.C115_o",
    "Verif.C115_sp",
    "Verif.C115_gl",
    "Verif.C115_gl_counterexample",
    "Verif.C115_sl",
    "Verif.C115_u",
    "Verif.C115_su",
    "Verif.C115_so13p",
    "Verif.C115_so13",
    "Verif.C115_o13",
    "Verif.C115_so11p",
    "Verif.C115_o11",
    "Verif.C115_network_so",
    "Verif.C115_network_o",
    "Verif.C115_network_o13"
   ],
   "note": "Finding: GL(n) has only infinitesimal generators, so reflections are not generated by it (C115_gl_counterexample). Single precision of the stored arrays is not modelled."
  },
  {
   "property": "C116",
   "status": "proved",
   "theorems": [
    "Verif.C116_so",
    "Verif.C116_so_small",
    "Verif.C116_o",
    "Verif.C116_o_small",
    "Verif.C116_gl",
    "Verif.C116_gl_counterexample",
    "Verif.C116_sl",
    "Verif.C116_sp",
    "Verif.C116_linear_small",
    "Verif.C116_so13p",
    "Verif.C116_so13",
    "Verif.C116_o13",
    "Verif.C116_so11p",
    "Verif.C116_o11",
    "Verif.C116_parity",
    "Verif.C116_time_reversal",
    "Verif.C116_o2eR3",
    "Verif.C116_so2eR3",
    "Verif.C116_dkeR3",
    "Verif.C116_u",
    "Verif.C116_su",
    "Verif.C116_unitary_small"
   ],
   "note": "Findings: the trivial groups SO(1) and SL(1) cannot be constructed (no dimension can be read off an empty table); the relative test for orthogonality would accept GL(n) for n above 1.4 million (C116_gl_counterexample), far beyond what fits in memory. SU(1) cannot be constructed either: the trivial group is returned from __init__."
  },
  {
   "property": "C117",
   "status": "proved",
   "theorems": [
    "Verif.C117_invariants",
    "Verif.C117_same_invariants",
    "Verif.C117_so13",
    "Verif.C117_linear",
    "Verif.C117_network",
    "Verif.C117_counterexample_sign"
   ],
   "note": "C117_counterexample_sign shows that the condition on user-defined representations (Laurent polynomials along curves) cannot be dropped."
  },
  {
   "property": "C118",
   "status": "proved",
   "theorems": [
    "Verif.C118_invariants",
    "Verif.C118_same_invariants",
    "Verif.C118_linear",
    "Verif.C118_network",
    "Verif.C118_sharp"
   ],
   "note": "User-defined representations must have a rank: on diagonal sign matrices they are diagonal with entries products of at most that many signs."
  },
  {
   "property": "C119",
   "status": "proved",
   "theorems": [
    "Verif.C119_samples",
    "Verif.C119_so",
    "Verif.C119_o",
    "Verif.C119_u",
    "Verif.C119_one_parameter",
    "Verif.C119_scale",
    "Verif.C119_z",
    "Verif.C119_c",
    "Verif.C119_missed",
    "Verif.C119_su",
    "Verif.C119_count",
    "Verif.C119_s",
    "Verif.C119_d"
   ],
   "note": "Findings: Z(n) and C(k) with more than 28 elements, D(k) with k >= 32, S(n) with n >= 22, GL(n), SL(n) (n >= 2) and Sp(m) have elements that are never sampled (C119_z, C119_c, C119_d, C119_s, C119_missed); which of D(29), D(30), D(31) are covered depends on the random orders. U(n) and SU(n) are treated on their generator tables, not as group objects."
  },
  {
   "property": "C120",
   "status": "partial",
   "theorems": [
    "Verif.C120_apply_partial",
    "Verif.C120_mismatch",
    "Verif.C120_adjoint_partial",
    "Verif.C120_double",
    "Verif.C120_no_adjoint",
    "Verif.C120_counterexample_empty",
    "Verif.C120_combine",
    "Verif.C120_arithmetic",
    "Verif.C120_swap",
    "Verif.C120_matrix",
    "Verif.C120_identity"
   ],
   "note": "Partial because the full statement is false: without a matmat, op@V raises for a V without columns and to_dense() raises for an operator on the zero-dimensional space (C120_counterexample_empty); IdentityOperator accepts shapes that are not square and then raises or returns an array of the wrong shape (C120_identity)."
  },
  {
   "property": "C121",
   "status": "partial",
   "theorems": [
    "Verif.C121_training",
    "Verif.C121_network",
    "Verif.C121_classifier",
    "Verif.C121_orthogonal",
    "Verif.C121_relabelled",
    "Verif.C121_datasets",
    "Verif.C121_augment_partial",
    "Verif.C121_counterexample_scaling"
   ],
   "note": "Partial because GroupAugmentation raises for other representations than Scalar, V, V* and user-defined ones (C39), so its part is proved for those. For output representations that are not orthogonal training does see the symmetry (C121_counterexample_scaling). Automatic differentiation and the optimizer are arbitrary functions of the loss and of the gradient."
  },
  {
   "property": "C122",
   "status": "proved",
   "theorems": [
    "Verif.C122_training",
    "Verif.C122_emlpode",
    "Verif.C122_emlph",
    "Verif.C122_truth"
   ],
   "note": "The integrator is a parameter assumed to commute with orthogonal symmetries of the field (an exact one does, exists_natural); the true dynamics enter by the hypothesis that its rollouts move with the initial states, met by C122_truth for twice differentiable invariant Hamiltonians.  DoubleSpringPendulum.H is not differentiable where a spring has length zero."
  },
  {
   "property": "C123",
   "status": "proved",
   "theorems": [
    "Verif.C123_regressor",
    "Verif.C123_classifier",
    "Verif.C123_network"
   ],
   "note": "Over the reals, where sums do not depend on the order.  Models that are row-wise on batches of the right size are the predicate RowWise; C123_network shows it for the networks of all front ends."
  },
  {
   "property": "C124",
   "status": "proved",
   "theorems": [
    "Verif.C124_gradient",
    "Verif.C124_descent",
    "Verif.C124_network",
    "Verif.C124_training",
    "Verif.C124_regressor"
   ],
   "note": "Over the reals, with exact derivatives.  C124_meets shows that the squared error on any data has the gradients of the hypotheses.  Optimizers that add their updates are the predicate Learner.Translates, which gradient descent meets (gradientDescent_translates); weight decay does not."
  },
  {
   "property": "C125",
   "status": "proved",
   "theorems": [
    "Verif.C125_training",
    "Verif.C125_names",
    "Verif.C125_log",
    "Verif.C125_detects",
    "Verif.C125_missing",
    "Verif.C125_rows",
    "Verif.C125_standardize",
    "Verif.C125_network",
    "Verif.C125_moved"
   ],
   "note": "Over the reals.  The samples are a parameter of the trainer: any elements of the group.  That group.samples draws from NumPy's generator, which a shuffling loader may share, is not modelled; batches are a parameter too.  The trainers need a model with the attribute model (such as Standardize): that a bare EMLP raises AttributeError is not modelled."
  },
  {
   "property": "C126",
   "status": "proved",
   "theorems": [
    "Verif.C126_parameters",
    "Verif.C126_raises",
    "Verif.C126_pieces",
    "Verif.C126_epoch",
    "Verif.C126_same",
    "Verif.C126_last",
    "Verif.C126_metrics",
    "Verif.C126_regressor"
   ],
   "note": "Over the reals.  The training data of an epoch are a function of the epoch and the number of the minibatch; gradients and optimizer are parameters.  The rows that a subclass adds to the log are covered by RowOK."
  },
  {
   "property": "C127",
   "status": "proved",
   "theorems": [
    "Verif.C127_characters",
    "Verif.C127_permutations",
    "Verif.C127_symmetric",
    "Verif.C127_cyclic"
   ],
   "note": "Over the reals, under the contract of the numerical solver (C21) and for hashes that do not collide.  The finite group is given as the finite set of all products of generators and their inverses."
  },
  {
   "property": "C128",
   "status": "proved",
   "theorems": [
    "Verif.C128_curie",
    "Verif.C128_homogeneous",
    "Verif.C128_dead",
    "Verif.C128_empty",
    "Verif.C128_rigid",
    "Verif.C128_multiples",
    "Verif.C128_minus_one"
   ],
   "note": "Over the reals, for networks built by EMLP(...) under the hypotheses of C40 (the numerical solver fulfils its contract, hashes do not collide).  Differentiable means continuously differentiable, as swish is."
  },
  {
   "property": "C129",
   "status": "proved",
   "theorems": [
    "Verif.C129_network",
    "Verif.C129_basis"
   ],
   "note": "Networks over the reals under the hypotheses of C40; both numerical routines fulfil their contract exactly (for thresholds see C113).  That Scalar remembers the same group is a hypothesis.  Bases over any field with conjugation."
  },
  {
   "property": "C130",
   "status": "proved",
   "theorems": [
    "Verif.C130_determinant",
    "Verif.C130_sharp",
    "Verif.C130_sl_maps",
    "Verif.C130_sl_unique"
   ],
   "note": "Over the reals, under the contract of the numerical solver (C21) and for hashes that do not collide.  The group SL(n) is given by the generators of its constructor."
  },
  {
   "property": "C131",
   "status": "proved",
   "theorems": [
    "Verif.C131_generators",
    "Verif.C131_basis",
    "Verif.C131_network",
    "Verif.C131_same_group"
   ],
   "note": "Over the reals, under the hypotheses of C40 and with the same random draws.  Networks: coordinates changed by orthogonal matrices (renumberings, if the group is a permutation group); bases: any invertible change that the flags of the group allow.  That Scalar remembers the same group is a hypothesis."
  },
  {
   "property": "C132",
   "status": "proved",
   "theorems": [
    "Verif.C132_dimension",
    "Verif.C132_sum",
    "Verif.C132_multiple",
    "Verif.C132_integer",
    "Verif.C132_swap",
    "Verif.C132_distributes",
    "Verif.C132_maps",
    "Verif.C132_transpose",
    "Verif.C132_subgroup",
    "Verif.C132_groups",
    "Verif.C132_counterexample_dual"
   ],
   "note": "Over the reals, under the contract of the numerical solver (C21) and for hashes that do not collide."
  },
  {
   "property": "C133",
   "status": "proved",
   "theorems": [
    "Verif.C133_subgroup",
    "Verif.C133_generated",
    "Verif.C133_detects",
    "Verif.C133_layers"
   ],
   "note": "Over the reals, under the hypotheses of C40 and with the same random draws; that the two groups have the same orthogonality and permutation flags is a hypothesis (the flags decide which gates a network has)."
  },
  {
   "property": "C134",
   "status": "proved",
   "theorems": [
    "Verif.C134_deeper"
   ],
   "note": "Over the reals, under the hypotheses of C40 and with the same random draws.  With scalars or permutation representations among the summands the nonlinearity is applied to the components themselves, and a layer need not be able to compute the identity: nothing is claimed then."
  },
  {
   "property": "C135",
   "status": "proved",
   "theorems": [
    "Verif.C135_compose",
    "Verif.C135_space",
    "Verif.C135_identity",
    "Verif.C135_inputs",
    "Verif.C135_outputs"
   ],
   "note": "Over the reals, under the contract of the numerical solver (C21) and for hashes that do not collide; the layers may be constructed in any order, after any history."
  },
  {
   "property": "C136",
   "status": "proved",
   "theorems": [
    "Verif.C136_wrap",
    "Verif.C136_plain"
   ],
   "note": "Over the reals, under the hypotheses of C40.  For C136_wrap the networks are constructed with the same random draws while Scalar already belongs to the group, so that calling other representations leaves no difference behind for the hidden ones."
  },
  {
   "property": "C137",
   "status": "proved",
   "theorems": [
    "Verif.C137_standardize"
   ],
   "note": "Over the reals, under the hypotheses of C40; the scale of the outputs may be zero in the direction from Standardize to the network."
  },
  {
   "property": "C138",
   "status": "proved",
   "theorems": [
    "Verif.C138_projector",
    "Verif.C138_linear",
    "Verif.C138_nearest"
   ],
   "note": "Over the reals, under the contract of the numerical solver (C21) and for hashes that do not collide."
  },
  {
   "property": "C139",
   "status": "proved",
   "theorems": [
    "Verif.C139_projector",
    "Verif.C139_characters",
    "Verif.C139_linear",
    "Verif.C139_exists",
    "Verif.C139_classical",
    "Verif.C139_plane"
   ],
   "note": "Over the reals, under the contract of the numerical solver (C21) and for hashes that do not collide; user-defined representations are measurable functions of the element. That a uniform distribution exists (UniformLaw) is proved for closed groups of orthogonal matrices, in particular SO(n) and O(n)."
  },
  {
   "property": "C140",
   "status": "proved",
   "theorems": [
    "Verif.C140_mean",
    "Verif.C140_expect",
    "Verif.C140_linear",
    "Verif.C140_linear_expect"
   ],
   "note": "Over the reals; C140_linear and C140_linear_expect under the contract of the numerical solver (C21). The network is any function of a row; the mean over a finite group counts each element once, and C140_expect takes the elements uniformly distributed (invariant under multiplication on the right); the distribution of G.samples itself is not claimed to be uniform."
  }
 ]
}