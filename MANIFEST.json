{
 "claims": [
  {
   "property": "C01",
   "status": "proved",
   "theorems": [
    "C01_matmul_exact"
   ],
   "note": ""
  },
  {
   "property": "C02",
   "status": "proved",
   "theorems": [
    "C02_matmul_tensor_exact"
   ],
   "note": ""
  },
  {
   "property": "C03",
   "status": "partial",
   "theorems": [
    "C03_rmatmat_partial",
    "C03_block_iff_symmetric",
    "C03_false"
   ],
   "note": "True for every class except block-diagonal, whose rmatmat omits the transpose; negation proved with a witness."
  },
  {
   "property": "C04",
   "status": "partial",
   "theorems": [
    "C04_inplace_exact",
    "C04_add_smul_exact_partial",
    "C04_nested_hier_false",
    "C04_add_nested",
    "C04_smul_nested",
    "C04_smul_iff",
    "C04_inplace_frame",
    "C04_inplace_memory",
    "C04_alias_false"
   ],
   "note": "In-place variants exact for all classes; +,* exact for all classes without a hierarchical sub-block; negation proved for nested hierarchical, where the result is, exactly, the true result with doubled B and D of the nested hierarchical blocks, so exact if and only if those vanish. In-place variants change no matrix with disjoint memory; matrices made by from_dense can share memory, for which the last clause is refuted (see C58 for exactly when)."
  },
  {
   "property": "C05",
   "status": "partial",
   "theorems": [
    "C05_from_inner_partial",
    "C05_block",
    "C05_false"
   ],
   "note": "False for block-diagonal (missing transpose); proved for all other classes."
  },
  {
   "property": "C06",
   "status": "proved",
   "theorems": [
    "C06_from_mat_inner",
    "C06_from_inner2"
   ],
   "note": ""
  },
  {
   "property": "C07",
   "status": "proved",
   "theorems": [
    "C07_from_dense_projection"
   ],
   "note": ""
  },
  {
   "property": "C08",
   "status": "partial",
   "theorems": [
    "C08_round_trip_partial",
    "C08_hier_iff",
    "C08_false",
    "C08_doubled",
    "C08_iff",
    "C08_den_injective"
   ],
   "note": "False for hierarchical matrices with non-zero B or D; proved for all others. For every class and nesting the round trip is characterised exactly: it doubles B and D of every hierarchical part and changes nothing else."
  },
  {
   "property": "C09",
   "status": "proved",
   "theorems": [
    "C09_average_trace",
    "C09_from_dense_trace",
    "C09_from_inner_trace_nonneg"
   ],
   "note": ""
  },
  {
   "property": "C10",
   "status": "partial",
   "theorems": [
    "C10_diag_add_partial",
    "C10_nested_hier_false",
    "C10_nested",
    "C10_iff"
   ],
   "note": "Proved for all classes except recursive templates with hierarchical diagonal sub-blocks, where it is false; there it holds if and only if B and D of the nested hierarchical blocks are zero."
  },
  {
   "property": "C11",
   "status": "proved",
   "theorems": [
    "C11_infinity_norm",
    "C11_frobenius_norm",
    "C11_empty"
   ],
   "note": ""
  },
  {
   "property": "C12",
   "status": "proved",
   "theorems": [
    "C12_eye_zeros"
   ],
   "note": ""
  },
  {
   "property": "C13",
   "status": "partial",
   "theorems": [
    "C13_recursive_laws_partial",
    "C13_nested_hier_corrupts_product",
    "C13_matmul_nested"
   ],
   "note": "Laws proved for all nestings of retractable classes; the clause about nested hierarchical classes is false and refuted. For any nesting the product is, exactly, the true product with doubled B and D of the nested hierarchical blocks."
  },
  {
   "property": "C14",
   "status": "proved",
   "theorems": [
    "C14_hier_layout",
    "C14_boundary"
   ],
   "note": ""
  },
  {
   "property": "C15",
   "status": "partial",
   "theorems": [
    "C15_hier_init",
    "C15_block_init_partial",
    "C15_block_false"
   ],
   "note": "Hierarchical constructor proved; the block-diagonal constructor accepts wrong shapes (chained comparison)."
  },
  {
   "property": "C16",
   "status": "partial",
   "theorems": [
    "C16_toeplitz_matmul",
    "C16_rejects_partial",
    "C16_even_length_accepted"
   ],
   "note": "Product proved; even coefficient length 2N is accepted by the code."
  },
  {
   "property": "C17",
   "status": "proved",
   "theorems": [
    "C17_all_traces"
   ],
   "note": ""
  },
  {
   "property": "C18",
   "status": "proved",
   "theorems": [
    "C18_lowest_precision_min",
    "C18_lowest_precision_error",
    "C18_lowest_precision_empty",
    "C18_lowest_precision_perm"
   ],
   "note": ""
  },
  {
   "property": "C19",
   "status": "proved",
   "theorems": [
    "Obj.C19_register",
    "Obj.C19_names_unique",
    "Obj.C19_named_tensors_complete",
    "Obj.C19_named_tensors_nodup",
    "Obj.C19_dotted_names_clash"
   ],
   "note": ""
  },
  {
   "property": "C20",
   "status": "proved",
   "theorems": [
    "C20_linear_input"
   ],
   "note": ""
  },
  {
   "property": "C21",
   "status": "proved",
   "theorems": [
    "C21_linear_grad",
    "C21_conv_grad",
    "C21_unsupported"
   ],
   "note": ""
  },
  {
   "property": "C22",
   "status": "proved",
   "theorems": [
    "C22_patches"
   ],
   "note": ""
  },
  {
   "property": "C23",
   "status": "proved",
   "theorems": [
    "C23_averaged_patches"
   ],
   "note": ""
  },
  {
   "property": "C24",
   "status": "proved",
   "theorems": [
    "C24_valid",
    "C24_same_expand",
    "C24_same_reduce"
   ],
   "note": ""
  },
  {
   "property": "C29",
   "status": "partial",
   "theorems": [
    "C29_factors_change_only_on_update_steps",
    "C29_statistics_change",
    "C29_hooks_change",
    "C29_counter",
    "C29_collection_partial",
    "C29_late_backward_false"
   ],
   "note": "Proved for arbitrary histories incl. failing operations, except that statistics may be collected in a later, non-update step by a backward pass through an older graph (refuted with a witness)."
  },
  {
   "property": "C30",
   "status": "proved",
   "theorems": [
    "C30_infs"
   ],
   "note": ""
  },
  {
   "property": "C31",
   "status": "proved",
   "theorems": [
    "C31_scale_memory"
   ],
   "note": ""
  },
  {
   "property": "C33",
   "status": "proved",
   "theorems": [
    "C33_explicit_scale_wins",
    "C33_announced_scale"
   ],
   "note": ""
  },
  {
   "property": "C36",
   "status": "proved",
   "theorems": [
    "C36_no_grad",
    "C36_off_step",
    "C36_evaluation"
   ],
   "note": ""
  },
  {
   "property": "C37",
   "status": "proved",
   "theorems": [
    "C37_flushed",
    "C37_missing"
   ],
   "note": ""
  },
  {
   "property": "C44",
   "status": "partial",
   "theorems": [
    "C44_changed_parameters_partial",
    "C44_complete_layers",
    "C44_bias_false"
   ],
   "note": "False for the bias of a layer of which only the weight was handed over (witness); proved otherwise."
  },
  {
   "property": "C25",
   "status": "proved",
   "theorems": [
    "C25_initial_state",
    "C25_gradient_descent"
   ],
   "note": ""
  },
  {
   "property": "C26",
   "status": "partial",
   "theorems": [
    "C26_update_rule_partial",
    "C26_block",
    "C26_block_false"
   ],
   "note": "Published rule proved for all non-block classes and all hyper-parameters; block-diagonal factors use K K in place of K^T K and m m^T, a reachable state where the rule is violated is given."
  },
  {
   "property": "C27",
   "status": "partial",
   "theorems": [
    "C27_direction_partial",
    "C27_direction_as_computed",
    "C27_false"
   ],
   "note": "Proved for all non-block classes; false for block-diagonal ones (reachable witness where the step ascends)."
  },
  {
   "property": "C45",
   "status": "partial",
   "theorems": [
    "C45_wrapped",
    "C45_negative_float_partial",
    "C45_validation_exact",
    "C45_false"
   ],
   "note": "Only negative floats given as constructor arguments are rejected; exact condition proved; zero, negative ints and group entries are accepted (witness)."
  },
  {
   "property": "C46",
   "status": "partial",
   "theorems": [
    "C46_rejects",
    "C46_accepted",
    "C46_nonleaf_false"
   ],
   "note": "Proved for leaf modules; supported modules with children escape the group-conflict check (witness)."
  },
  {
   "property": "C51",
   "status": "proved",
   "theorems": [
    "C51_dimensions",
    "C51_training_never_fails"
   ],
   "note": ""
  },
  {
   "property": "C54",
   "status": "proved",
   "theorems": [
    "C54_default_selection",
    "C54_nothing_to_train"
   ],
   "note": ""
  },
  {
   "property": "C28",
   "status": "proved",
   "theorems": [
    "C28_heavy_ball"
   ],
   "note": ""
  },
  {
   "property": "C49",
   "status": "proved",
   "theorems": [
    "C49_bounded_change",
    "C49_invertible"
   ],
   "note": ""
  },
  {
   "property": "C52",
   "status": "proved",
   "theorems": [
    "C52_factor_momenta"
   ],
   "note": ""
  },
  {
   "property": "C35",
   "status": "proved",
   "theorems": [
    "C35_order_irrelevant"
   ],
   "note": "Equality of the whole optimizer state for any permutation of backward passes over registered hooks."
  },
  {
   "property": "C47",
   "status": "proved",
   "theorems": [
    "C47_K_independent",
    "C47_C_independent",
    "C47_no_momenta"
   ],
   "note": ""
  },
  {
   "property": "C53",
   "status": "proved",
   "theorems": [
    "C53_only_steps",
    "C53_next_step",
    "C53_lr_cov",
    "C53_alpha1_turned_on"
   ],
   "note": ""
  },
  {
   "property": "C32",
   "status": "proved",
   "theorems": [
    "C32_two_scalings",
    "C32_scale_invariance"
   ],
   "note": "Two runs whose gradients, output gradients and scales differ by any non-zero factors per step stay equal in every layer, parameter and buffer. Backward passes of a layer happen in steps that update it, and T is not changed while statistics wait."
  },
  {
   "property": "C34",
   "status": "partial",
   "theorems": [
    "C34_statistics",
    "C34_accumulation",
    "C34_same_start",
    "C34_kfac_like_deviation",
    "C34_sum_deviation",
    "C34_false"
   ],
   "note": "True for averaged losses with the default (coupled) rule: any run split into k equal micro-batches keeps the same parameters, factors and buffers (C34_accumulation). False for kfac_like and for loss_average=None (C34_false over the reals); the deviation of K is given exactly."
  },
  {
   "property": "C38",
   "status": "partial",
   "theorems": [
    "C38_checkpoint",
    "C38_shared",
    "C38_unlisted_keyError",
    "C38_unlisted_bias"
   ],
   "note": "Proved for every save point, continuation and placement of the model in memory if biases of trained layers are listed (an unlisted bias makes state_dict() raise KeyError: witness). Loading without serialising shares state between optimizers (C38_shared)."
  },
  {
   "property": "C39",
   "status": "partial",
   "theorems": [
    "C39_consumed",
    "C39_rest",
    "C39_false"
   ],
   "note": "False: load_state_dict pops the entries; proved for every dictionary that a second load raises KeyError and that nothing else is removed."
  },
  {
   "property": "C40",
   "status": "partial",
   "theorems": [
    "C40_mixture",
    "C40_false"
   ],
   "note": "False: for every continuation the dictionary holds the old step count, hyper-parameters and buffers with the new factors and statistics; witness where this is neither the old nor the new state."
  },
  {
   "property": "C43",
   "status": "proved",
   "theorems": [
    "C43_groups",
    "C43_complete"
   ],
   "note": "For every grouping and history without exceptions, on models whose supported modules are leaves and whose groups share no layer parameters (shown to hold if weights and biases are handed over)."
  },
  {
   "property": "C41",
   "status": "partial",
   "theorems": [
    "C41_data_parallel_partial",
    "C41_library_partial",
    "C41_sum_accumulates",
    "C41_sum_statistics",
    "C41_sum_deviation",
    "C41_false"
   ],
   "note": "True for averaged losses and contiguous statistics, so for all registered classes (C41_library_partial). False for loss_average=None: the ranks behave like gradient accumulation over the shares, H_K is R times too large (C41_sum_statistics, C41_false). Network, timing and parameter broadcast are not modelled."
  },
  {
   "property": "C42",
   "status": "partial",
   "theorems": [
    "C42_all_reduce_partial",
    "C42_from_inner_partial",
    "C42_from_inner_iff",
    "C42_dense_block",
    "C42_false",
    "C42_library"
   ],
   "note": "True for every structured matrix whose parts are contiguous in memory, in particular for the statistics of all registered classes. False for a recursive matrix with a dense block of dimension two or more: all_reduce works on a copy of the slice (C42_false)."
  },
  {
   "property": "C48",
   "status": "proved",
   "theorems": [
    "C48_kfac",
    "kfac_identity"
   ],
   "note": "For dense and diagonal factors, K and C alike, every state, history of passes, gradient scale, damping and rate (kfac_like, alpha1 = 0, normalize_lr_cov off); the second order term is given exactly."
  },
  {
   "property": "C50",
   "status": "partial",
   "theorems": [
    "Dt.C50_exact",
    "Dt.C50_factors_keep_type",
    "Dt.C50_buffers_keep_type",
    "Dt.C50_conversions",
    "Dt.C50_low_precision",
    "Dt.C50_double_precision",
    "Dt.C50_false",
    "Dt.C50_conversion_false"
   ],
   "note": "False as stated: float64 weights fail for Toeplitz, block-diagonal and hierarchical factors, and (float32, None) fails with half-precision weights and a dense, hierarchical or recursive C. C50_exact gives the complete condition (if and only if) for all classes, types and histories; factors always keep their types. C50_conversions is about types: that a converted model's parameters are no longer found is C75."
  },
  {
   "property": "C56",
   "status": "proved",
   "theorems": [
    "C56_memory"
   ],
   "note": ""
  },
  {
   "property": "C57",
   "status": "proved",
   "theorems": [
    "C57_others",
    "C57_step",
    "C57_hooks",
    "C04_inplace_frame"
   ],
   "note": ""
  },
  {
   "property": "C58",
   "status": "proved",
   "theorems": [
    "C58_results_new",
    "C58_from_dense_shares"
   ],
   "note": ""
  },
  {
   "property": "C59",
   "status": "partial",
   "theorems": [
    "C59_updates_per_layer",
    "C59_sum",
    "C59_false",
    "C59_constructed"
   ],
   "note": "False of the code: _step loops over layers, so a parameter is updated once per layer that uses it, each time with the full gradient (C59_false). C59_updates_per_layer gives the exact effect of a step for arbitrary sharing; C59_sum is its closed form without momentum and weight decay."
  },
  {
   "property": "C60",
   "status": "partial",
   "theorems": [
    "C60_later_groups_no_effect",
    "C60_never_trained",
    "C60_false"
   ],
   "note": "False of the code: modules are found and hooked in __init__ only, so a group added later is accepted without an error and has no effect (C60_later_groups_no_effect, C60_never_trained for all histories; witness C60_false)."
  },
  {
   "property": "C61",
   "status": "partial",
   "theorems": [
    "C61_padding_mode",
    "C61_false"
   ],
   "note": "False of the code: padding_mode is not passed on. C61_padding_mode: the claim holds exactly for zero padding mode or no padding."
  },
  {
   "property": "C62",
   "status": "proved",
   "theorems": [
    "C62_kronecker",
    "C62_scaled_state",
    "C62_rescale_invariance",
    "C62_kfac_like_false"
   ],
   "note": "C62_kfac_like_false is the negative part: a concrete kfac_like run whose result changes."
  },
  {
   "property": "C63",
   "status": "proved",
   "theorems": [
    "C63_change_of_basis",
    "C63_equivariance",
    "C63_permutation",
    "C63_rotation",
    "C63_diagonal_false",
    "C63_normalize_false",
    "C63_toeplitz_false"
   ],
   "note": "C63_change_of_basis is the general form for any two runs that correspond operation by operation; C63_*_false are the negative parts with concrete runs."
  },
  {
   "property": "C64",
   "status": "proved",
   "theorems": [
    "C64_stationary",
    "C64_input",
    "C64_output",
    "C64_from_construction",
    "C64_blow_up"
   ],
   "note": "C64_blow_up is the negative part: a concrete training with bounded, constant data whose factor is unbounded."
  },
  {
   "property": "C65",
   "status": "proved",
   "theorems": [
    "C65_bounded",
    "C65_converges",
    "C65_blow_up"
   ],
   "note": "C65_blow_up shows that the condition on the dimension cannot be dropped."
  },
  {
   "property": "C66",
   "status": "partial",
   "theorems": [
    "C66_exceptions_partial",
    "C66_exceptions_exact",
    "C66_exceptions_false",
    "C66_operation",
    "C66_silent",
    "C66_constructed",
    "C66_toeplitz",
    "C66_exact"
   ],
   "note": "The claim about silent classes is proved (C66_silent, C66_constructed, exact per operation in C66_operation); the claim about listed exceptions is false for three methods (C66_exceptions_false), with the exact condition in C66_exceptions_exact."
  },
  {
   "property": "C67",
   "status": "proved",
   "theorems": [
    "C67_divergence",
    "C67_descent",
    "C67_descent_plain",
    "C67_stationary",
    "C67_unique",
    "C67_exists",
    "C67_converges",
    "C67_converges_plain",
    "C67_diverges",
    "C67_from_construction",
    "C67_blow_up"
   ],
   "note": "Descent per round for arbitrary data, stationary points are exactly the minima, existence and uniqueness of the best preconditioner, convergence under steady statistics with and without normalisation, divergence for large data without normalisation. Dense and diagonal factors; other structures: see C77."
  },
  {
   "property": "C68",
   "status": "partial",
   "theorems": [
    "C68_contract_iff",
    "C68_dense_methods",
    "C68_in_place",
    "C68_agrees",
    "C68_library",
    "C68_hier_breaks_contract",
    "C68_minimum_false"
   ],
   "note": "The claim is false as documented (C68_minimum_false: mul_, add_ and infinity_vector_norm are wrong for a class with the documented minimum). Exact condition for methods that make new objects (C68_contract_iff), sufficient layout for in-place methods (C68_in_place), methods reading to_dense are right for every class (C68_dense_methods)."
  },
  {
   "property": "C69",
   "status": "proved",
   "theorems": [
    "C69_size",
    "C69_unique",
    "C69_free",
    "C69_le",
    "C69_owned",
    "C69_training"
   ],
   "note": "Numbers stored in tensors of structured matrices; storage that views keep alive and temporary tensors are counted in C88."
  },
  {
   "property": "C70",
   "status": "proved",
   "theorems": [
    "Rounding.C70_error",
    "Rounding.C70_exact",
    "Rounding.C70_model",
    "Rounding.C70_admits",
    "Rounding.C70_binary",
    "Rounding.C70_diagonal",
    "Rounding.C70_diagonal_descent",
    "Rounding.C70_descent",
    "Rounding.C70_ascent",
    "Rounding.C70_ascent_bfloat16",
    "Rounding.C70_param"
   ],
   "note": "Relative error model with unbounded exponents: overflow, underflow and nan are excluded. Single process. Intermediate types may differ, u is the coarsest unit round-off."
  },
  {
   "property": "C71",
   "status": "proved",
   "theorems": [
    "Invertible.C71_pattern",
    "Invertible.C71_bounded_change",
    "Invertible.C71_invertible",
    "Invertible.C71_positive",
    "Invertible.C71_library",
    "Invertible.C71_limit",
    "Invertible.C71_limit_dense",
    "Invertible.C71_rounded_error",
    "Invertible.C71_rounded_exact",
    "Invertible.C71_rounded_triangular",
    "Invertible.C71_rounded_invertible",
    "Invertible.C71_rounded_admits",
    "Invertible.C71_rounded_singular"
   ],
   "note": "Strengthens C49: block size instead of dimension. Rounded update of a factor: the momentum is any matrix of the class (its computation: C90); no hierarchical classes inside recursive ones."
  },
  {
   "property": "C72",
   "status": "proved",
   "theorems": [
    "Errors.C72_input",
    "Errors.C72_grad",
    "Errors.C72_dims",
    "Errors.C72_grad_matrix",
    "Errors.groups_fit",
    "Errors.C72_group",
    "Errors.C72_add_group",
    "Errors.C72_from_dense",
    "Errors.C72_from_mat_inner",
    "Errors.C72_eye_zeros",
    "Errors.C72_matmul",
    "Errors.C72_recursive_init",
    "Errors.C72_period",
    "Errors.C72_zero_scale",
    "Errors.C72_negative_scale"
   ],
   "note": "Kinds of exceptions raised by torch and einops follow those libraries (EinopsError is a RuntimeError). Broadcasting of axes of size 1 is not modelled; C72_matmul leaves it out for diagonal matrices."
  },
  {
   "property": "C73",
   "status": "proved",
   "theorems": [
    "Failure.C73_forward",
    "Failure.C73_backward",
    "Failure.C73_step_raises",
    "Failure.C73_failed_step",
    "Failure.C73_live",
    "Failure.C73_recover",
    "Failure.C73_retry",
    "Failure.C73_not_atomic"
   ],
   "note": "Extends C37_missing. Gradients that exist are assumed to have the parameter's shape (torch enforces this)."
  },
  {
   "property": "C74",
   "status": "proved",
   "theorems": [
    "Dt.C74_promote",
    "Dt.C74_to_dense",
    "Dt.C74_to_dense_loses",
    "Dt.C74_hier_matmul",
    "Dt.C74_hier_rmatmat",
    "Dt.C74_hier_product",
    "Dt.C74_hier_from_inner",
    "Dt.C74_block_matmul"
   ],
   "note": "Rules of torch for operands of different types are part of the model (Verif/Model/DtypeFlow.lean)."
  },
  {
   "property": "C75",
   "status": "proved",
   "theorems": [
    "C75_construct",
    "C75_construct_distinct",
    "C75_history",
    "C75_moves",
    "C75_unknown",
    "C75_swapped",
    "C75_shared_address"
   ],
   "note": "Finding 29. The model of construction by addresses is Construct.initAt (Verif/Model/Address.lean). Memory contents are kept per object."
  },
  {
   "property": "C76",
   "status": "proved",
   "theorems": [
    "C76_interchange",
    "C76_rotated",
    "C76_reversed",
    "C76_library",
    "C76_names",
    "C76_table",
    "C76_exchange_iff",
    "C76_block_false"
   ],
   "note": "Exact arithmetic. C76_block_false: same matrices as dense but other updates (finding 1)."
  },
  {
   "property": "C77",
   "status": "proved",
   "theorems": [
    "C77_gradient",
    "C77_stationary",
    "C77_descent",
    "C77_descent_plain",
    "C77_settles",
    "C77_settles_plain"
   ],
   "note": "Real arithmetic. Block-diagonal structures are excluded because their from_inner computes another product (finding 1). For dense and diagonal factors C67 says more: critical points are the minima."
  },
  {
   "property": "C78",
   "status": "proved",
   "theorems": [
    "C78_affine",
    "C78_outputs",
    "C78_shift",
    "C78_reparametrised",
    "C78_damping_false",
    "C78_block_false",
    "C78_identity_false"
   ],
   "note": "Holds exactly where the claim says; the three `_false` theorems are witnesses for the limits it names (damping, block-diagonal structures, identities at the start)."
  },
  {
   "property": "C79",
   "status": "proved",
   "theorems": [
    "Dv.C79_one_device",
    "Dv.C79_exact",
    "Dv.C79_stuck",
    "Dv.C79_map_location",
    "Dv.C79_cpu_false",
    "Dv.C79_bias_false",
    "Dv.C79_scattered_apply",
    "Dv.C79_scattered_dense",
    "Dv.C79_scattered_product",
    "Dv.C79_parameter",
    "Dv.C79_counter",
    "Dv.C79_restored_buffers"
   ],
   "note": "In a model of its own in which tensors are represented by their device (`Model/Device.lean`); the two `_false` theorems are witnesses for the misplacements the claim names."
  },
  {
   "property": "C80",
   "status": "proved",
   "theorems": [
    "C80_flow",
    "C80_zero_grad",
    "C80_skip_discards",
    "C80_discard_false"
   ],
   "note": "`runOk` is the run that stops at exceptions; `World.preconditioner` lists everything the optimizer stores apart from momentum buffers and groups. `C80_discard_false` is the witness that discarding gradients does not discard the batch."
  },
  {
   "property": "C81",
   "status": "proved",
   "theorems": [
    "Cc.C81_same_end",
    "Cc.C81_unique_end",
    "Cc.C81_lockstep",
    "Cc.C81_exact",
    "Cc.C81_waits",
    "Cc.C81_calls",
    "Cc.C81_deadlock",
    "Cc.C81_mispaired_false"
   ],
   "note": "Processes are programs with internal steps and collectives (`Cc.Prog`); a schedule is a list of ranks. `C81_mispaired_false` is the witness of two ranks that run their backward passes in different orders."
  },
  {
   "property": "C82",
   "status": "proved",
   "theorems": [
    "C82_process_input",
    "C82_process_grad",
    "C82_backward",
    "C82_read_only",
    "C82_history",
    "C82_undisturbed",
    "C82_overwritten_false"
   ],
   "note": "Memory model `Model/Activation.lean`; what copies is a parameter of every operation. `C82_overwritten_false` is the witness of an input overwritten between forward and backward pass."
  },
  {
   "property": "C83",
   "status": "proved",
   "theorems": [
    "C83_linear_expand",
    "C83_linear_reduce",
    "C83_conv_expand",
    "C83_conv_reduce",
    "C83_linear_expand_exact",
    "C83_linear_reduce_exact",
    "C83_conv_expand_exact",
    "C83_conv_reduce_exact",
    "C83_nonlinear_false"
   ],
   "note": "Over the reals, with Frechet derivatives. The first four give the exact error for all differentiable networks; `C83_nonlinear_false` is the witness that exactness needs linearity."
  },
  {
   "property": "C84",
   "status": "proved",
   "theorems": [
    "C84_noninterference",
    "C84_sound",
    "C84_exact",
    "C84_parameter_local",
    "C84_layer_local",
    "C84_never_forgotten",
    "C84_spreads",
    "C84_skip_drops"
   ],
   "note": "Labels are read off the statements of the code and know nothing of cancellation: on update steps the gradient scale of the previous step is listed, although it cancels over exact numbers (C32). With the label `computed from data that are nan` the theorems about labels say how nan spreads, if the torch operations propagate it."
  },
  {
   "property": "C85",
   "status": "proved",
   "theorems": [
    "C85_checkpoint_batch",
    "C85_checkpointing",
    "C85_same_passes"
   ],
   "note": "C85_checkpointing is unconditional (no invariant assumed). That recomputed inputs equal the original ones (no dropout without preserved random state) is part of what a mini-batch is."
  },
  {
   "property": "C86",
   "status": "proved",
   "theorems": [
    "C86_statistics",
    "C86_shares",
    "C86_false"
   ],
   "note": "The hook cannot know whether it fires for another batch or for another loss; see finding 34 in DESIGN.md."
  },
  {
   "property": "C87",
   "status": "proved",
   "theorems": [
    "As.C87_wait",
    "As.C87_tensors",
    "As.C87_all_reduce",
    "As.C87_no_deadlock",
    "As.C87_early_false",
    "As.C87_write_false"
   ],
   "note": "The optimizer itself only makes synchronous calls (C19, C75). That the library reads only after the call, stores only after all contributions were read, and that wait returns only after all stores, is the documented contract of torch.distributed and part of the model."
  },
  {
   "property": "C88",
   "status": "proved",
   "theorems": [
    "Sto.C88_frugal",
    "Sto.C88_objects",
    "C88_held",
    "C88_no_saving",
    "Sto.C88_training",
    "Sto.C88_iterations"
   ],
   "note": "The claim that structured factors save memory is false for recursive classes with dense, block-diagonal or hierarchical blocks (C88_no_saving; finding 35). Sizes are numbers of entries; what torch copies depending on types and layouts is counted as copied, workspace within torch functions is not counted."
  },
  {
   "property": "C89",
   "status": "proved",
   "theorems": [
    "Nn.C89_healthy",
    "Nn.C89_default",
    "Nn.C89_default_exact",
    "Nn.C89_permanent",
    "Nn.C89_parameter_stays",
    "Nn.C89_kfac_exact",
    "Nn.C89_skip"
   ],
   "note": "Tensors are represented by their NaN entries; arithmetic is strict (0*nan is nan), infinities and overflow are left out. Finding 36."
  },
  {
   "property": "C90",
   "status": "proved",
   "theorems": [
    "RoundUpd.C90_scales",
    "RoundUpd.C90_statistic",
    "RoundUpd.C90_statistic_exact",
    "RoundUpd.C90_momenta",
    "RoundUpd.C90_factors",
    "RoundUpd.C90_exact",
    "RoundUpd.C90_exists",
    "RoundUpd.C90_uniform"
   ],
   "note": "Relative error model as in C70 (no overflow, underflow, nan), single process. Starts with processed inputs and gradients, which may have rounding errors themselves (l roundings per entry). Sums list products with zeros, too, which classes may skip."
  },
  {
   "property": "C91",
   "status": "proved",
   "theorems": [
    "Multi.C91_view",
    "Multi.C91_reachable",
    "Multi.C91_constructor",
    "Multi.C91_half",
    "Multi.C91_half_kind",
    "Multi.C91_failed",
    "Multi.C91_raises",
    "Multi.C91_abandoned",
    "Multi.C91_disjoint"
   ],
   "note": "All optimizers see the same model (same modules). Outputs of forward passes whose hooks raised are lost. (4) is a finding: a failed constructor poisons the model."
  },
  {
   "property": "C92",
   "status": "proved",
   "theorems": [
    "Amp.C92_dynamic",
    "Amp.C92_unscale_raises",
    "Amp.C92_explicit",
    "Amp.C92_explicit_between",
    "Amp.C92_explicit_deviation",
    "Amp.C92_explicit_wrong",
    "Amp.Ex.C92_explicit_normalized",
    "Amp.C92_scale",
    "Amp.C92_growth",
    "Amp.C92_two_scalers",
    "Amp.C92_plain"
   ],
   "note": "The behaviour of GradScaler is that of torch 2.2 (trusted; not part of the repository). (2), (3), (5) are findings. (3) for update steps is stated without normalisation; `C92_explicit_normalized` shows that this is needed."
  },
  {
   "property": "C93",
   "status": "proved",
   "theorems": [
    "C93_band",
    "C93_from_construction"
   ],
   "note": "For dense and diagonal factors without factor momentum. That lr_cov has to be small is C64_blow_up. The bounds are sufficient, not the best ones."
  },
  {
   "property": "C94",
   "status": "proved",
   "theorems": [
    "C94_noise",
    "C94_descent",
    "C94_sum_noise",
    "C94_sum",
    "C94_gradients",
    "C94_linear_rate",
    "C94_threshold_descent",
    "C94_threshold_gradients",
    "C94_threshold_sharp",
    "C94_from_construction"
   ],
   "note": "Exact arithmetic, no momentum (C95), no weight decay; the bound L lr < 2 q^2 is sharp (C94_threshold_sharp); errors of the gradients (mini-batches) in C94_noise and C94_sum_noise. The loss is any function with the stated inequality (Smooth); that autograd computes its gradient is a hypothesis."
  },
  {
   "property": "C95",
   "status": "proved",
   "theorems": [
    "C95_energy",
    "C95_sum",
    "C95_gradients",
    "C95_slow",
    "C95_from_construction"
   ],
   "note": "Exact gradients, exact arithmetic, no weight decay; momentum positive (zero is C94). The condition is sufficient; with factors that do not change it reads L lr < 2 (1 - momentum) q^2."
  },
  {
   "property": "C96",
   "status": "proved",
   "theorems": [
    "C96_convex",
    "C96_entries",
    "C96_norm",
    "C96_from_construction",
    "C96_drift",
    "C96_sharp",
    "C96_oscillates",
    "C96_sharp_momentum",
    "C96_rest"
   ],
   "note": "Exact arithmetic. Sharpness is shown for momentum below 1."
  },
  {
   "property": "C97",
   "status": "proved",
   "theorems": [
    "Ov.C97_exact",
    "Ov.C97_spread",
    "Ov.C97_permanent",
    "Ov.C97_default",
    "Ov.C97_rules",
    "Ov.C97_trace",
    "Ov.C97_statistics",
    "Ov.C97_trace_of_diagonal",
    "Ov.C97_normalized",
    "Ov.C97_safe",
    "Ov.C97_unnoticed",
    "Ov.C97_values",
    "Ov.C97_backward",
    "Ov.C97_update",
    "Ov.C97_move"
   ],
   "note": "No rounding; what is stored passes through an arbitrary function (clip at the largest number in the instances); sums are accumulated in a wider type; one layer in one process; one floating point type. (5) is for dense factors. Where all entries are numbers and nothing overflows, the model is proved to compute the values of the exact model, for all classes (C97_values, C97_backward, C97_update, C97_move)."
  },
  {
   "property": "C98",
   "status": "proved",
   "theorems": [
    "Ov.C98_never_silent",
    "Ov.C98_finite_right",
    "Ov.C98_normalize_false",
    "Ov.C98_computed_norms",
    "Ov.C98_computed_norms_false",
    "Ov.C98_stalled",
    "Ov.C98_not_normalized",
    "Ov.C98_sign"
   ],
   "note": "In the model of C97 (no rounding, one layer, one type). The exception for normalize_lr_cov is proved by a witness."
  },
  {
   "property": "C99",
   "status": "proved",
   "theorems": [
    "Ov.C99_rounding",
    "Ov.C99_vanish",
    "Ov.C99_exact_curvature",
    "Ov.C99_lost_curvature",
    "Ov.C99_small_error"
   ],
   "note": "In the model of C97 with a store that replaces numbers below eps by zero; (3) and (4) for a layer with one weight, without damping and momenta, with the rule of KFAC."
  },
  {
   "property": "C100",
   "status": "proved",
   "theorems": [
    "Fl.C100_norm",
    "Fl.C100_infinite",
    "Fl.C100_empty",
    "Ov.C100_values",
    "Ov.C100_history",
    "Ov.C100_update",
    "Ov.C100_position_false",
    "Ov.C100_infinity_false"
   ],
   "note": "The two `_false` theorems are witnesses that the norm overlooks NaN and infinities."
  },
  {
   "property": "C55",
   "status": "proved",
   "theorems": [
    "C55_conv_input"
   ],
   "note": ""
  }
 ]
}