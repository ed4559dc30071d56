{"id": "C01", "title": "Structured product is exact and closed", "statement": "For two matrices A, B of the same structured class and dimension, `A @ B` succeeds, is again a valid instance of that class, and `(A @ B).to_dense()` equals the dense product `A.to_dense() @ B.to_dense()`.", "quantifier": "every structured class (dense, diagonal, block-diagonal of any block size, hierarchical of any K1/K2, lower/upper Toeplitz, recursive templates of any nesting over retractable sub-classes), every dimension >= 1, all stored values", "why_tests_cant": "Tests sample dims 1 and 10 with random values built from symmetric inputs; equality must hold for every dimension (every block remainder) and every stored value.", "anchors": ["singd/structures/*.py: __matmul__ (structured operand)"]}
{"id": "C02", "title": "Structured-times-tensor product is exact", "statement": "For a structured A of dimension n and any n x k tensor X, `A @ X` equals `A.to_dense() @ X`.", "quantifier": "every class, every n >= 1, every k >= 1, all values", "why_tests_cant": "Sampled sizes and values only.", "anchors": ["singd/structures/*.py: __matmul__ (Tensor operand)", "singd/structures/utils.py: toeplitz_matmul"]}
{"id": "C03", "title": "rmatmat multiplies with the transpose", "statement": "For a structured A of dimension n and any n x k tensor X, `A.rmatmat(X)` equals `A.to_dense().T @ X`, for every matrix the class can hold, in particular those the optimizer reaches.", "quantifier": "every class, every n, k >= 1, all values, including non-symmetric blocks reached by training", "why_tests_cant": "Tests only build A from symmetric matrices, so a missing transpose is invisible for block-diagonal matrices.", "anchors": ["singd/structures/*.py: rmatmat", "singd/structures/blockdiagonal.py: BlockDiagonalMatrixTemplate.rmatmat"]}
{"id": "C04", "title": "Linear operations agree with dense arithmetic", "statement": "`A + B`, `A * s`, `A.add_(B, alpha=s)` and `A.mul_(s)` represent `A+B`, `s*A`, `A+s*B`, `s*A` as dense matrices and stay in the class; the in-place variants change no other matrix.", "quantifier": "every class, every dimension, all values and scalars", "why_tests_cant": "Sampled only; in-place versions go through the tensor registry generically.", "anchors": ["singd/structures/base.py: mul_, add_, __add__, __mul__", "singd/structures/*.py"]}
{"id": "C05", "title": "from_inner extracts the structure of A^T X X^T A", "statement": "`A.from_inner(X)` equals `from_dense(A^T X X^T A)` and `A.from_inner()` equals `from_dense(A^T A)` although the structured implementations never form these matrices.", "quantifier": "every class, every n, k, all values of A and X", "why_tests_cant": "Needs all block remainders and non-symmetric A; tests only use symmetric sources.", "anchors": ["singd/structures/*.py: from_inner"]}
{"id": "C06", "title": "from_mat_inner and from_inner2 agree with from_dense", "statement": "`cls.from_mat_inner(X)` equals `cls.from_dense(X X^T)`; `A.from_inner2(M)` equals `cls.from_dense(A^T M A)` for symmetric M.", "quantifier": "every class, every n, k, all values", "why_tests_cant": "Sampled only.", "anchors": ["singd/structures/*.py: from_mat_inner, from_inner2"]}
{"id": "C07", "title": "from_dense is the best symmetric approximation", "statement": "For symmetric M, the symmetric part of `cls.from_dense(M)` is the orthogonal (Frobenius) projection of M onto the symmetric parts of matrices of the class: no other member of the class has a symmetric part closer to M.", "quantifier": "every class incl. nested recursive ones, every dimension, every symmetric M, every competitor in the class", "why_tests_cant": "Optimality ranges over all competitors; a test can only compare with samples.", "anchors": ["singd/structures/*.py: from_dense"]}
{"id": "C08", "title": "from_dense inverts to_dense", "statement": "`cls.from_dense(A.to_dense())` represents the same matrix as A for every A of the class. (The naive base-class operations rely on this.)", "quantifier": "every class, every dimension, all values", "why_tests_cant": "Sampled only; fails for hierarchical matrices with non-zero off-diagonal blocks.", "anchors": ["singd/structures/*.py: from_dense, to_dense", "singd/structures/hierarchical.py: from_dense"]}
{"id": "C09", "title": "average_trace is the trace over the dimension, and from_dense preserves it", "statement": "`A.average_trace()` equals trace(A.to_dense())/n, and trace(from_dense(M).to_dense()) = trace(M); hence average_trace of any from_inner result is a mean of squares and never negative.", "quantifier": "every class, every n >= 1, all values", "why_tests_cant": "Sampled only.", "anchors": ["singd/structures/*.py: average_trace"]}
{"id": "C10", "title": "diag_add_ adds exactly to the main diagonal", "statement": "`A.diag_add_(v)` turns the represented matrix into A + v*I, keeps class and shape and touches no off-diagonal entry.", "quantifier": "every class, every n, all values", "why_tests_cant": "Sampled only.", "anchors": ["singd/structures/*.py: diag_add_"]}
{"id": "C11", "title": "Norms of the stored tensors are norms of the represented matrix", "statement": "`A.infinity_vector_norm()` is the largest absolute entry of A.to_dense() and `A.frobenius_norm()` is its Frobenius norm, although both are computed from the compressed representation.", "quantifier": "every class, every n >= 1, all values", "why_tests_cant": "Sampled only; multiplicities of Toeplitz diagonals and empty blocks vary with n.", "anchors": ["singd/structures/base.py: infinity_vector_norm", "singd/structures/*.py: frobenius_norm"]}
{"id": "C12", "title": "eye and zeros represent identity and zero", "statement": "`cls.eye(n).to_dense()` is the identity and `cls.zeros(n).to_dense()` the zero matrix of dimension n, for every n, and both are valid instances.", "quantifier": "every class, every n >= 1", "why_tests_cant": "All dimensions; tests use 1 and 10.", "anchors": ["singd/structures/*.py: eye, zeros"]}
{"id": "C13", "title": "Recursive templates compose", "statement": "A recursive template built from any sub-classes that satisfy the round trip (incl. other recursive templates, to any depth) satisfies product, transpose-product, sum, scaling, inner-product and norm laws. Nesting a hierarchical class inside a template must not corrupt products.", "quantifier": "every nesting depth, every split of MAX_DIMS, every dimension", "why_tests_cant": "Unbounded nesting; only four depth-1 templates are tested.", "anchors": ["singd/structures/recursive.py", "singd/structures/tri*diag.py"]}
{"id": "C14", "title": "Block layout always tiles the dimension", "statement": "The hierarchical layout (K1, diag, K2) always sums to the dimension, respects MAX_K1/MAX_K2 and fills A first, then E, then C; the recursive boundary lies in [0, dim] and respects MAX_DIMS; MAX_DIMS without exactly one infinite entry is rejected with ValueError.", "quantifier": "every dim, MAX_K1, MAX_K2, MAX_DIMS", "why_tests_cant": "Boundary cases for all parameters.", "anchors": ["singd/structures/hierarchical.py: _compute_block_dims", "singd/structures/recursive.py: _get_boundary"]}
{"id": "C15", "title": "Constructors reject wrongly shaped parts", "statement": "Constructing a block-diagonal or hierarchical matrix from parts whose shapes do not fit the documented layout raises ValueError; constructing from fitting parts succeeds.", "quantifier": "all tensor shapes", "why_tests_cant": "All shape combinations; the chained comparison in the block-diagonal check lets wrong shapes through.", "anchors": ["singd/structures/blockdiagonal.py: __init__", "singd/structures/hierarchical.py: __init__"]}
{"id": "C16", "title": "toeplitz_matmul multiplies with the Toeplitz matrix of its coefficients", "statement": "For 2N-1 coefficients c and an N x M matrix X the result is T X with T[i,j] = c[j-i+N-1]; any other coefficient length is rejected with RuntimeError.", "quantifier": "every N, M >= 1, all values; all lengths for the rejection", "why_tests_cant": "All sizes; even coefficient lengths are never tested.", "anchors": ["singd/structures/utils.py: toeplitz_matmul"]}
{"id": "C17", "title": "all_traces sums every diagonal once", "statement": "Entry k of `all_traces(M)` is the sum of M[i,j] over j-i = k-(rows-1); every matrix entry contributes to exactly one trace.", "quantifier": "all rectangular shapes with >= 1 row and column, all values", "why_tests_cant": "All shapes.", "anchors": ["singd/structures/utils.py: all_traces"]}
{"id": "C18", "title": "lowest_precision is a minimum", "statement": "`lowest_precision` returns one of its arguments, is the minimum in float16 < bfloat16 < float32, is independent of argument order, and raises NotImplementedError iff some argument is another dtype.", "quantifier": "all non-empty argument lists", "why_tests_cant": "Argument lists of arbitrary length.", "anchors": ["singd/structures/utils.py: lowest_precision"]}
{"id": "C19", "title": "Tensor registry enumerates each part exactly once", "statement": "After any sequence of register_tensor/register_substructure calls, names are unique, duplicates are rejected with ValueError without changing the object, and named_tensors yields every tensor of the object and of all nested substructures exactly once, own tensors first.", "quantifier": "all registration histories, all nesting depths", "why_tests_cant": "Histories and nesting are unbounded.", "anchors": ["singd/structures/base.py: register_tensor, named_tensors", "singd/structures/recursive.py: register_substructure, named_tensors"]}
{"id": "C20", "title": "Processed layer inputs give the input second moment", "statement": "For a linear layer, the processed input X satisfies X^T X = (1/N) sum of outer products of the (bias-extended) inputs over all N = batch*shared rows for 'expand', and over the batch of inputs averaged over shared positions for 'reduce'; row and column counts are as documented.", "quantifier": "all batch sizes, shared sizes, feature sizes >= 1, with/without bias, all values", "why_tests_cant": "Sizes and values unbounded.", "anchors": ["singd/optim/utils.py: linear_process_input"]}
{"id": "C21", "title": "Processed output gradients undo the loss average", "statement": "With loss_average matching how the loss was averaged, the processed gradient G satisfies G^T G = (1/N) sum of outer products of un-averaged per-term gradients, N being the number of averaged terms; with None it is the plain sum. Unsupported loss_average/kfac_approx raise AssertionError.", "quantifier": "all sizes, modes and values, linear and convolution layers", "why_tests_cant": "Sizes, modes and values unbounded.", "anchors": ["singd/optim/utils.py: process_grad_output, linear_process_grad_output, conv2d_process_grad_output"]}
{"id": "C22", "title": "Extracted patches reproduce the convolution", "statement": "For a convolution without grouping, the output at sample b, channel c, location o equals the inner product of the flattened kernel c with the extracted patch of (b, o), for every stride, padding and dilation; with groups the patch is the channel-group average.", "quantifier": "all batch/channel/image/kernel sizes, strides, paddings, dilations, values", "why_tests_cant": "Hyper-parameter space is infinite.", "anchors": ["singd/optim/utils.py: _extract_patches"]}
{"id": "C23", "title": "Reduce patches are averages of expand patches", "statement": "The averaged patches used for 'reduce' equal the mean over all output locations of the patches used for 'expand'.", "quantifier": "all conv hyper-parameters (with at least one output location) and values", "why_tests_cant": "Two entirely different code paths must agree for every hyper-parameter setting.", "anchors": ["singd/optim/utils.py: _extract_patches, _extract_averaged_patches"]}
{"id": "C24", "title": "String paddings", "statement": "For 'expand', padding='valid' equals zero padding, padding='same' works exactly when dilation*(kernel-1) is even along each axis and raises NotImplementedError otherwise; 'reduce' has no such restriction.", "quantifier": "all kernel sizes and dilations", "why_tests_cant": "All kernel/dilation parities.", "anchors": ["singd/optim/utils.py: _extract_patches, _extract_averaged_patches"]}
{"id": "C25", "title": "Optimizer construction starts from the identity pre-conditioner", "statement": "After construction each trained layer has identity factors, zero factor momenta (none if alpha1=0), no accumulated statistics, step counter 0; one step whose pre-conditioner update is off then equals plain gradient descent.", "quantifier": "all models, structures, groups", "why_tests_cant": "All architectures and dimensions.", "anchors": ["singd/optim/optimizer.py: __init__, _initialize_buffers"]}
{"id": "C26", "title": "The pre-conditioner update is the published update rule", "statement": "On an update step the dense factor becomes K(I - b*m) with m = alpha1*m_old + s/2*(tr(H_C)/d_C H_K + lambda tr(C^T C)/d_C Pi(K^T K) - I) (and symmetrically for C, with its own traces; un-coupled for kfac_like), computed from values before the step, whatever structure stores it.", "quantifier": "all structures, dimensions, hyper-parameters and states", "why_tests_cant": "A refinement statement for all states.", "anchors": ["singd/optim/optimizer.py: _update_preconditioner"]}
{"id": "C27", "title": "The applied direction is C C^T G K K^T, a descent direction", "statement": "The pre-conditioned gradient equals C C^T G K K^T, so its inner product with the gradient is never negative.", "quantifier": "all layers (with/without bias), structures, reachable factor values and gradients", "why_tests_cant": "Positivity for all reachable states; fails for block-diagonal factors after two updates.", "anchors": ["singd/optim/optimizer.py: _compute_natural_gradient"]}
{"id": "C28", "title": "Parameter update is heavy-ball with weight decay", "statement": "With constant hyper-parameters, after n non-skipped steps the momentum buffer is the geometric sum of the (weight-decayed) directions and each parameter has moved by -lr times the sum of the buffers.", "quantifier": "all n, all direction sequences, all hyper-parameter values incl. momentum = 0 and weight_decay = 0", "why_tests_cant": "Closed form over all histories.", "anchors": ["singd/optim/optimizer.py: _step"]}
{"id": "C29", "title": "Pre-conditioner updates happen exactly every T steps", "statement": "The factors of a layer change only in steps whose index is a multiple of its T, and only then are statistics collected or consumed; the step counter equals the number of completed step calls.", "quantifier": "all T >= 1, all histories of operations", "why_tests_cant": "All histories and schedules.", "anchors": ["singd/optim/optimizer.py: _update_preconditioner, _register_tensor_hook_on_output_to_accumulate_H_terms, step"]}
{"id": "C30", "title": "A step with infinite gradients changes nothing but the counters", "statement": "If the scaler reports infs, parameters, momentum buffers, factors and factor momenta are unchanged, all accumulated statistics are dropped and the step counter advances by one.", "quantifier": "all states", "why_tests_cant": "All states.", "anchors": ["singd/optim/optimizer.py: step"]}
{"id": "C31", "title": "Gradient-scale memory is bounded and always sufficient", "statement": "After any sequence of operations at most two gradient scales are stored (for the previous and possibly the current step), the previous one is always present, so neither backward hooks nor steps fail for a missing scale.", "quantifier": "all operation histories", "why_tests_cant": "All histories.", "anchors": ["singd/optim/optimizer.py: _get_grad_scale, _remove_used_grad_scales, set_current_grad_scale, step"]}
{"id": "C32", "title": "Training is invariant to gradient scaling", "statement": "If every loss of step t is multiplied by a positive scale s_t that is reported to the optimizer, then factors, momenta and parameters after every step equal those of un-scaled training, for any scale sequence and any init_grad_scale.", "quantifier": "all positive scale sequences, all training histories", "why_tests_cant": "All scale sequences; tests use a constant and a 4-cycle.", "anchors": ["singd/optim/optimizer.py: _accumulate_H_terms, _update_preconditioner, _compute_natural_gradient"]}
{"id": "C33", "title": "An explicitly supplied gradient scale wins", "statement": "If the user sets the current scale before step, step uses it and ignores the scaler's attribute; otherwise the attribute is used, and 1.0 if there is none.", "quantifier": "all states and values", "why_tests_cant": "All histories of set calls.", "anchors": ["singd/optim/optimizer.py: step, set_current_grad_scale"]}
{"id": "C34", "title": "Gradient accumulation equals the full batch", "statement": "Splitting a mini-batch into m equal micro-batches (losses rescaled by 1/m for averaged losses) and accumulating before step gives the same factors and parameters as one full batch.", "quantifier": "all m, batch sizes, data, histories, structures, both update rules and loss averages", "why_tests_cant": "All splits and histories; holds for the default rule with averaged loss, fails for kfac_like and summed losses.", "anchors": ["singd/optim/optimizer.py: _accumulate_H_terms, _update_preconditioner"]}
{"id": "C35", "title": "Order of backward passes is irrelevant", "statement": "Accumulated statistics do not depend on the order in which backward passes between two steps arrive.", "quantifier": "all permutations of all finite sets of backward passes", "why_tests_cant": "Factorially many schedules.", "anchors": ["singd/optim/optimizer.py: _accumulate_H_terms"]}
{"id": "C36", "title": "Evaluation passes leave no trace", "statement": "Forward passes without gradient tracking, and forward/backward passes in steps that are not update steps, do not change the optimizer's state.", "quantifier": "all histories", "why_tests_cant": "All histories.", "anchors": ["singd/optim/optimizer.py: _register_tensor_hook_on_output_to_accumulate_H_terms"]}
{"id": "C37", "title": "Statistics are flushed by each update and missing statistics are an error", "statement": "After a completed update step no statistics remain; an update step for a layer that saw no backward pass raises KeyError without advancing the step counter, and layers processed earlier have already been updated.", "quantifier": "all histories and layer orders", "why_tests_cant": "All crash points within a step.", "anchors": ["singd/optim/optimizer.py: _update_preconditioner, step"]}
{"id": "C38", "title": "Checkpoint round trip at any point", "statement": "Saving the (serialised) state at any point - also between backward and step - and loading it into a freshly constructed optimizer over an equal model yields the same behaviour under every continuation as not interrupting.", "quantifier": "all save points, all continuations", "why_tests_cant": "All histories and continuations.", "anchors": ["singd/optim/optimizer.py: state_dict, load_state_dict"]}
{"id": "C39", "title": "Loading a checkpoint does not consume it", "statement": "load_state_dict leaves the passed dictionary usable: loading the same dictionary a second time behaves like the first time.", "quantifier": "all states", "why_tests_cant": "Needs the dictionary's fate; the code pops the entries.", "anchors": ["singd/optim/optimizer.py: load_state_dict"]}
{"id": "C40", "title": "A state dictionary is a consistent snapshot", "statement": "The object returned by state_dict() keeps describing the optimizer at the time of the call while training goes on (or at least changes consistently).", "quantifier": "all continuations after the call", "why_tests_cant": "Aliasing shows only under later mutation.", "anchors": ["singd/optim/optimizer.py: state_dict"]}
{"id": "C41", "title": "Data-parallel training equals single-process training", "statement": "With R ranks holding equal shares of the batch and identical initial states, all ranks keep identical factors, momenta and parameters, equal to those of one process on the whole batch.", "quantifier": "all R, batch sizes, data, histories, structures, loss averages", "why_tests_cant": "All worlds and histories; no multi-process test runs in CI.", "anchors": ["singd/optim/optimizer.py: _accumulate_H_terms, _compute_natural_gradient", "singd/structures/base.py: all_reduce"]}
{"id": "C42", "title": "all_reduce reduces every part in place", "statement": "After `all_reduce`, every rank's structured matrix represents the reduction (mean or sum) over ranks.", "quantifier": "all classes, all ranks, all memory layouts", "why_tests_cant": "Depends on memory layout of every part; non-contiguous parts are silently skipped.", "anchors": ["singd/structures/base.py: all_reduce"]}
{"id": "C43", "title": "Parameter groups behave like separate optimizers", "statement": "Training layers in several groups with one optimizer gives each layer the same factors, momenta and parameters as training each group with its own optimizer.", "quantifier": "all groupings and histories", "why_tests_cant": "All groupings and histories.", "anchors": ["singd/optim/optimizer.py: _get_param_group_entry, _step"]}
{"id": "C44", "title": "Parameters not handed to the optimizer are never changed", "statement": "step changes only parameters contained in a parameter group.", "quantifier": "all models, parameter selections and histories", "why_tests_cant": "All selections; fails if a layer's weight but not its bias is passed.", "anchors": ["singd/optim/optimizer.py: _install_hooks, _step"]}
{"id": "C45", "title": "Hyper-parameter validation", "statement": "Construction raises ValueError for non-positive lr, lr_cov, alpha1, momentum or weight_decay (as documented), and TypeError for wrapped models.", "quantifier": "all values, ints and floats, defaults and group entries", "why_tests_cant": "All values; zero, negative ints and per-group values slip through.", "anchors": ["singd/optim/optimizer.py: __init__"]}
{"id": "C46", "title": "Group validation", "statement": "A layer whose trained parameters lie in different groups, an unsupported kfac_approx or an unsupported loss_average is rejected with ValueError; otherwise each layer is governed by exactly its weight's group; kfac_like groups end up with alpha1 = 0.", "quantifier": "all models and group lists", "why_tests_cant": "All partitions of parameters into groups.", "anchors": ["singd/optim/optimizer.py: _check_param_groups"]}
{"id": "C47", "title": "KFAC-like mode decouples the factors", "statement": "With kfac_like the update of K does not depend on output gradients or C, and that of C not on inputs or K; no factor momenta are ever allocated.", "quantifier": "all states and histories", "why_tests_cant": "Non-interference over all pairs of histories.", "anchors": ["singd/optim/optimizer.py: _update_preconditioner"]}
{"id": "C48", "title": "KFAC-like mode tracks KFAC to second order", "statement": "For dense invertible K, K'K'^T times KFAC's running average (1-b)(K K^T)^-1 + b(S + lambda I) equals I up to an explicit term of order b^2.", "quantifier": "all dimensions, K, S, b, lambda", "why_tests_cant": "An identity over all matrices.", "anchors": ["singd/optim/optimizer.py: _update_preconditioner"]}
{"id": "C49", "title": "normalize_lr_cov bounds the factor change and keeps factors invertible", "statement": "With normalize_lr_cov each update multiplies the factor by I - D with all |D_ij| <= lr_cov; if lr_cov * dim < 1 the factors stay invertible for ever.", "quantifier": "all histories, structures and dimensions", "why_tests_cant": "All histories.", "anchors": ["singd/optim/optimizer.py: _update_preconditioner"]}
{"id": "C50", "title": "Data types: supported combinations never fail and factors keep their type", "statement": "For weights and pre-conditioner types among the supported floating-point types, no operation of a training step fails for a type mismatch and factors keep their data type.", "quantifier": "all structures and dtype combinations (float64 included), all histories", "why_tests_cant": "All combinations; (float32, None) with half-precision weights and float64 weights are untested.", "anchors": ["singd/optim/optimizer.py: _compute_natural_gradient, _get_preconditioner_dtypes_and_device", "singd/structures/utils.py: lowest_precision"]}
{"id": "C51", "title": "Factor dimensions match the processed quantities", "statement": "For every supported layer the factor dimensions equal the column counts of processed inputs and output gradients and the shape of the bias-extended gradient matrix, so no well-shaped training step fails for a shape mismatch and shapes never change.", "quantifier": "all layers, with/without bias, groups, kfac_approx", "why_tests_cant": "All layer hyper-parameters.", "anchors": ["singd/optim/optimizer.py: preconditioner_dims", "singd/optim/utils.py"]}
{"id": "C52", "title": "Factor momenta are exponential sums", "statement": "With constant alpha1 != 0 the factor momentum after n updates is the alpha1-geometric sum of the n un-momentumed update directions; with alpha1 = 0 it is the last direction.", "quantifier": "all n and all direction sequences", "why_tests_cant": "All histories.", "anchors": ["singd/optim/optimizer.py: _update_preconditioner"]}
{"id": "C53", "title": "Scheduled hyper-parameters take effect at the next step", "statement": "Changing lr, momentum, damping, weight_decay, lr_cov (or giving lr_cov as a function of the step) affects exactly the following steps; turning alpha1 on after construction with alpha1 = 0 raises KeyError at the next update.", "quantifier": "all schedules and histories", "why_tests_cant": "All schedules.", "anchors": ["singd/optim/optimizer.py: _get_param_group_entry, _update_preconditioner"]}
{"id": "C54", "title": "Default parameter selection", "statement": "Without an explicit selection exactly the gradient-requiring parameters of the model's leaf linear/convolution layers are trained, each once per layer, in order; a warning is emitted per unsupported leaf layer with gradient-requiring parameters iff warnings are enabled.", "quantifier": "all models", "why_tests_cant": "All architectures.", "anchors": ["singd/optim/optimizer.py: _get_trainable_parameters"]}
{"id": "C55", "title": "Processed convolution inputs give the patch second moment", "statement": "For a convolution layer, the processed input X satisfies X^T X = average outer product of the (bias-extended) patches over batch and output locations for 'expand', and over the batch of location-averaged patches for 'reduce'; row and column counts are as documented.", "quantifier": "all conv hyper-parameters, string or integer paddings, sizes, with/without bias, all values", "why_tests_cant": "Hyper-parameter space and values are infinite.", "anchors": ["singd/optim/utils.py: conv2d_process_input, _extract_patches, _extract_averaged_patches"]}
{"id": "C56", "title": "Optimizer state owns its memory", "statement": "After construction and any history without exceptions, no two of the factors, factor momenta, accumulated statistics, momentum buffers, parameters and gradients share memory, and the optimizer that works with references and in-place updates gives the same values as the mathematical (value-level) one.", "quantifier": "all models with non-overlapping parameters, all structures, all hyper-parameters, all operation sequences", "why_tests_cant": "Aliasing bugs appear only for particular sequences of operations and structures; tests compare a few runs.", "anchors": ["singd/optim/optimizer.py: _initialize_buffers, _update_preconditioner, _accumulate_H_terms, _step", "singd/structures/base.py: add_, mul_, diag_add_"]}
{"id": "C57", "title": "Writes are confined", "statement": "step, hooks and structured in-place operations write only to memory owned by the optimizer and the parameters: step changes no gradient and keeps the addresses of parameters and factors; forward and backward passes change only accumulated statistics; other tensors of the program are never changed, also if an exception is raised.", "quantifier": "all states, all operation sequences, all outcomes including exceptions", "why_tests_cant": "A test observes a few tensors; the claim is about all memory.", "anchors": ["singd/optim/optimizer.py: step, _step, _save_input, _accumulate_H_terms"]}
{"id": "C58", "title": "Memory shared by structured matrices", "statement": "Results of A @ B, A + B, A * s, from_inner, zeros and eye share memory with nothing that existed before; from_dense shares exactly: the whole tensor for DenseMatrix, the last block for block-diagonal matrices, the corner blocks A and E for hierarchical matrices, and recursively for recursive templates; nothing for diagonal and Toeplitz matrices.", "quantifier": "every class, all nestings, every dimension", "why_tests_cant": "Sharing depends on class, dimension and nesting; tests do not look at addresses.", "anchors": ["singd/structures/*.py: from_dense, to_dense"]}
{"id": "C59", "title": "Shared parameters are updated once", "statement": "A step updates every trained parameter once, also if several layers use it (tied weights): with identity factors, no momentum and no weight decay a step is a step of gradient descent, p - lr * grad.", "quantifier": "all models including those whose layers share parameters, all states", "why_tests_cant": "Tests train models whose layers own their parameters.", "anchors": ["singd/optim/optimizer.py: _step (loop over modules)", "singd/optim/optimizer.py: _initialize_buffers"]}
{"id": "C60", "title": "Groups added later are trained", "statement": "A parameter group added to a constructed optimizer with add_param_group is trained like a group handed over at construction.", "quantifier": "all reachable states, all later operation sequences mixing group additions with passes and steps", "why_tests_cant": "No test adds a group after construction; the claim is about all later histories.", "anchors": ["singd/optim/optimizer.py: __init__, _install_hooks, _check_param_groups, _step", "torch.optim.Optimizer.add_param_group"]}
{"id": "C61", "title": "Padding modes of convolutions", "statement": "The patches computed from a convolution's input are those the layer multiplies with its weight, for every padding mode (zeros, reflect, replicate, circular).", "quantifier": "all images, kernels, strides, dilations, paddings, padding modes", "why_tests_cant": "Tests use zero padding only.", "anchors": ["singd/optim/utils.py: extract_patches, process_input"]}
{"id": "C62", "title": "Only the Kronecker product of the factors matters", "statement": "With kfac_like=False, multiplying the inputs of a layer without bias by c and dividing the gradients of its output by c (which does not change the weight gradient) changes nothing: parameters, momenta and factors are the same after every history. More generally, replacing K by k*K and C by C/k at any time keeps all later parameters and momenta, and the factors keep the ratio. With kfac_like=True this fails.", "quantifier": "all models, structures, hyper-parameters with kfac_like=False, histories without misuse, all non-zero scales per layer", "why_tests_cant": "The claim compares pairs of whole trainings, for all real scales.", "anchors": ["singd/optim/optimizer.py: _update_preconditioner, _compute_H_terms, _compute_natural_gradient"]}
{"id": "C63", "title": "Training commutes with a change of basis of the layers", "statement": "If the input and output spaces of the linear layers are expressed in another orthonormal basis (weights, biases, inputs, output gradients and parameter gradients transformed accordingly), training gives the transformed parameters and factors: for dense factors without normalize_lr_cov with any orthogonal change of basis, for dense and diagonal factors (also with normalize_lr_cov) with any signed permutation of the units. For diagonal factors and rotations, for normalize_lr_cov and rotations, and for Toeplitz factors and permutations it fails.", "quantifier": "all models of linear layers, all hyper-parameters, all orthogonal matrices or signed permutations per layer, all histories without misuse", "why_tests_cant": "The claim compares pairs of whole trainings, for all orthogonal matrices and all histories.", "anchors": ["singd/optim/optimizer.py: _update_preconditioner, _compute_H_terms, _compute_natural_gradient", "singd/structures/dense.py", "singd/structures/diagonal.py"]}
{"id": "C64", "title": "Limit of the kfac_like factors under steady statistics", "statement": "If with kfac_like (no factor momentum, no normalize_lr_cov, constant 0 < lr_cov <= 1, dense or diagonal factor) the second moment U of a layer's inputs is the same at every update, then with S = U + damping (its diagonal for a diagonal factor): K stays as it is exactly if K K^T = S^-1; started at construction, K converges with K K^T -> S^-1 if all eigenvalues of S are below 1 + 2/lr_cov, and is bounded if and only if none is above 1 + 4/lr_cov. Per eigen-direction the behaviour is: convergence, loss of the direction, alternation, or divergence. The same for C and the output gradients.", "quantifier": "all models, histories in rounds of passes and steps, all T, starts, data, dampings, lr_cov in (0,1]", "why_tests_cant": "Limits over infinitely many steps for all real statistics; an exact threshold.", "anchors": ["singd/optim/optimizer.py: _update_preconditioner, _compute_H_terms, step"]}
{"id": "C65", "title": "normalize_lr_cov bounds the kfac_like factors unless the layer is wide", "statement": "With kfac_like, normalize_lr_cov, no factor momentum and positive damping, a factor stays below an explicit bound for arbitrary, even exploding, data if lr_cov is nonnegative and n * lr_cov <= 2 - k at all steps for some k > 0 (n the dimension of a dense factor, 1 for a diagonal one). If moreover the statistics are the same at every update, lr_cov is a constant in (0, 1] and n * lr_cov < 1, an invertible factor converges to a root of the inverse damped second moment, however large that is. Without the condition on n the claim is false: for n * lr_cov > 2 (for lr_cov = 0.01: more than 200 inputs) constant bounded inputs make the dense factor grow beyond every bound.", "quantifier": "all models, trainings in rounds, all data, all T, dampings > 0, lr_cov schedules; all dimensions in the negative part", "why_tests_cant": "Bounds for all data over infinitely many steps, and an exact dependence on the dimension that small tests do not reach.", "anchors": ["singd/optim/optimizer.py: _update_preconditioner, lines 496-500 and 541-549"]}
{"id": "C66", "title": "Warnings about naive implementations", "statement": "Training with dense, diagonal, block-diagonal and hierarchical factors never issues a warning about a naive implementation, and a method listed in WARN_NAIVE_EXCEPTIONS does not trigger one. The second part is false of the code for from_inner (which calls from_mat_inner), average_trace and zeros (which warn under the names trace and zero); in particular Toeplitz factors, which list from_inner, warn in every backward pass and every update.", "quantifier": "all class configurations and methods; all models, trainings and operations", "why_tests_cant": "Whether a warning is issued depends on the class, the method and the nesting of calls; tests usually ignore warnings.", "anchors": ["singd/structures/base.py: _warn_naive_implementation and its callers, lines 40-53, 99-413", "singd/structures/triltoeplitz.py: lines 42-45", "singd/structures/triutoeplitz.py: lines 42-45", "singd/optim/optimizer.py: lines 422-428, 488-546, 609-620, 707-710"]}
{"id": "C67", "title": "The default update decreases a divergence and converges to its minimum", "statement": "Dense or diagonal factors without factor momentum, positive damping. With normalize_lr_cov and lr_cov at most 1/(9n+4) (n the dimension of a dense factor, 1 for a diagonal one), every update keeps the factors invertible and does not increase the Kullback-Leibler divergence of the preconditioner C C^T (x) K K^T from the inverse of the damped curvature G (x) U + damping, whatever the data; it decreases it unless the factors do not change, and invertible factors stay as they are exactly if no other factors of their classes have a smaller divergence. Under steady second moments the preconditioner converges to the unique best one. Without normalize_lr_cov the same holds if lr_cov is small compared with the data, and the preconditioner diverges if the data are large compared with 1/lr_cov.", "quantifier": "all models, hyper-parameters (within the stated ranges), data and trainings in rounds; all second moments for existence and uniqueness of the best preconditioner", "why_tests_cant": "Monotonicity must hold for every data set and every state, convergence is a statement about infinitely many steps, and optimality quantifies over all pairs of factors.", "anchors": ["singd/optim/optimizer.py: _update_preconditioner, lines 430-567", "singd/optim/optimizer.py: _accumulate_H_terms, lines 569-647", "singd/optim/optimizer.py: documentation of lr_cov and normalize_lr_cov, lines 141-149, 183-193"]}
{"id": "C68", "title": "Base-class methods for new structures", "statement": "A new class that implements to_dense and from_dense and registers its tensors (base.py:20-38) gets correct versions of all other methods from the base class: products, sums, scalings, in-place updates, norms, identity and zero. False of the code: methods that make new objects are exact if and only if the matrices of the class are closed under the operations and from_dense inverts to_dense for all of them, symmetric or not; mul_, add_ and infinity_vector_norm additionally need every entry of the matrix to be zero or a registered entry.", "quantifier": "all classes, dimensions, objects and arguments", "why_tests_cant": "The claim is about classes that do not exist yet.", "anchors": ["singd/structures/base.py: class docstring, lines 17-38", "singd/structures/base.py: methods, lines 85-209, 270-414"]}
{"id": "C69", "title": "What structures and optimizer store", "statement": "Every object of a class and dimension stores the same number of scalars, given by the documented shapes (dense n^2, diagonal and Toeplitz n, blocks n/D*D^2+(n%D)^2, hierarchical k1*n+d+k2*(d+k2), recursive the sum of its parts). The number is minimal: objects representing the same matrix have the same tensors and all values of the stored numbers occur. No class needs more than n^2; block-diagonal needs at most n*D, hierarchical at most n*(m1+m2+1). Training never changes the sizes of factors, momenta and statistics, and no operation, successful or not, stores anything for other layers or parameters.", "quantifier": "all classes with all nestings, all dimensions, all objects; all models, all histories of operations", "why_tests_cant": "Sizes have to be the same for all dimensions and after all histories, and minimality is about all pairs of objects.", "anchors": ["README.md:4 (memory efficiency)", "singd/structures/base.py:39-84 (registered tensors)", "singd/structures/blockdiagonal.py:35-42", "singd/structures/hierarchical.py:36-48", "singd/structures/recursive.py:54-59, 107-111", "singd/optim/optimizer.py: _initialize_buffers, _update_preconditioner, _accumulate_H_terms"]}
{"id": "C70", "title": "Rounding errors of the applied direction", "statement": "If every operation and conversion in _compute_natural_gradient has a relative error of at most u, and sums of products are evaluated in any order, every entry of the computed natural gradient differs from the exact value 1/s CC^T G KK^T by at most (1+u)^k - 1 times the same product of absolute values, with k = 2(k_K + k_C) + 16 and k_K, k_C the number of terms in a dot product of the class (1 for diagonal, D for blocks, 2n-1 for Toeplitz, n or n+2 else). For diagonal factors the error is relative and the direction never points against the gradient for any floating point type; for the other classes (but block-diagonal) it is a descent direction if the errors are small compared with the cancellation in C^T G K. With u = 0 the only result is that of the exact model. The bound on cancellation is needed: for every u > 0 there are invertible dense factors for which a rounded result points uphill, also with bfloat16 rounding to nearest. Errors of parameter updates follow.", "quantifier": "all factors of all classes and dimensions, all gradients and scales, all unit round-offs, all rounding modes, all orders of summation, with or without fused multiply-add", "why_tests_cant": "Results depend on the library's order of summation and on the hardware; tests compare with a tolerance for one evaluation order on well-conditioned random data.", "anchors": ["singd/optim/optimizer.py:692-713 (_compute_natural_gradient)", "singd/optim/optimizer.py:797-814 (parameter update)", "singd/structures/blockdiagonal.py:176-208", "singd/structures/hierarchical.py:199-293", "singd/structures/utils.py:83-114 (toeplitz_matmul)", "singd/structures/base.py:99-103"]}
{"id": "C71", "title": "Structured factors stay invertible for lr_cov below 1 over the block size, also under rounding for triangular structures", "statement": "The matrices of a class are block-triangular for an order of the indices, with diagonal blocks of at most b(class, n) rows: 1 for diagonal and triangular classes, D for blocks, max(m1, m2, 1) for hierarchical ones, n for dense ones, the larger part for recursive ones. With normalize_lr_cov every update multiplies a factor by I - D, where D has the zeros of the class and |D_ij| <= lr_cov. So if lr_cov b < 1 factors stay invertible for ever, whatever the dimension; for the library's structures other than dense lr_cov < 1/30 suffices. For b = 1 the diagonal stays positive. The bound is sharp for b = 1 and for dense factors. With rounded arithmetic, classes with b = 1 keep the signs of the diagonal, and its entries shrink by at most (1-u)(1-lr_cov (1+u)^(4n+10)) per update, for any momenta and any number of updates. Dense factors can become singular by rounding (witness in bfloat16), and stay invertible if lr_cov and the rounding errors times the condition number are small.", "quantifier": "all histories, classes, dimensions, momenta; all unit round-offs, rounding modes and orders of summation", "why_tests_cant": "All histories, dimensions and rounding behaviours; singular results of rounding need special numbers.", "anchors": ["singd/optim/optimizer.py: _update_preconditioner", "singd/structures/base.py: infinity_vector_norm, __matmul__, add_"]}
{"id": "C72", "title": "Which exception is raised, when, and in which order of checks", "statement": "process_input and process_grad_output raise exactly in the listed situations, checked in the listed order, each with its Python exception: unknown kfac_approx or loss_average (AssertionError), unsupported layer (NotImplementedError), too few axes or not four (RuntimeError), groups = 0 (ZeroDivisionError), groups not dividing the channels, kernel not fitting into the padded image (RuntimeError), string padding unknown or 'same' with stride > 1 (ValueError), asymmetric 'same' padding with expand only (NotImplementedError), scalar gradient with averaging (IndexError). The dimensions, the gradient matrix, the look-up of hyper-parameters, add_param_group, from_dense of every class, products with a tensor of the wrong size, and the constructor of recursive structures are characterised in the same way. A rejected add_param_group changes nothing. No check refuses the period 0, a gradient scale of zero or a negative one. With period 0 forward passes of the layer (gradients enabled) and every step that gets to it raise ZeroDivisionError; with a current scale of zero so does every step that gets to a layer due for an update, which has lost its statistics then; with a negative previous scale the backward passes that would succeed otherwise raise ValueError. Layers before the failing one have been updated.", "quantifier": "all tensors, shapes, layer kinds and configurations, strings, reachable states, classes", "why_tests_cant": "Tests probe a few wrong arguments; that nothing else raises, and which check wins when several fail, concerns all arguments.", "anchors": ["singd/optim/utils.py: process_input, process_grad_output, linear_process_input, conv2d_process_input", "singd/optim/optimizer.py: _get_param_group_entry, preconditioner_dims", "singd/structures/recursive.py: __init__, _from_dense", "singd/structures/blockdiagonal.py: from_dense, __matmul__", "singd/optim/optimizer.py: _update_preconditioner, _accumulate_H_terms, set_current_grad_scale"]}
{"id": "C73", "title": "What is left behind when an operation raises; recovery and retries", "statement": "In a well-formed state a forward pass does not raise, and a backward pass that raises changes nothing, whatever tensors are passed. In a live state step() raises exactly if a closure is passed (NotImplementedError), or, when it is not skipped, some layer lacks statistics in a step that updates its factors (KeyError) or lacks a gradient (AttributeError); the first such layer decides. Layers before it are then updated as in a successful step, layers after it are untouched; at the layer itself no parameter moves, its statistics of the input are lost if those of the output gradients are missing, and its factors are already updated (and statistics consumed) if only a gradient is missing. The step counter does not advance. Every exception leaves a live state, so all later fitting histories succeed; but repeating the step at once raises KeyError if the factors of any layer up to the failing one are updated in this step. Steps are not atomic: retrying after supplying a missing gradient moves earlier layers twice.", "quantifier": "all live states, operations, payloads, positions of the failing layer", "why_tests_cant": "All states and all positions of the failing layer; tests do not look at the state after an exception.", "anchors": ["singd/optim/optimizer.py: step, _step, _update_preconditioner, _compute_natural_gradient, _accumulate_H_terms"]}
{"id": "C74", "title": "Structured matrices whose tensors have different types", "statement": "The constructors do not compare data types. For every assignment of floating point types to the tensors of a structured matrix: type promotion gives the smallest type with all numbers of both operands; to_dense raises (RuntimeError) exactly if a hierarchical matrix inside has A and C of different types, and otherwise its type is the smallest one for the leading tensors of the diagonal blocks, independent of all other tensors (so it can lose precision of an off-diagonal block); which types products, transposed products, products of two and from_inner() of hierarchical matrices and products of block-diagonal matrices accept, with the types of the results and the exceptions.", "quantifier": "all types of all tensors, all nestings of recursive classes", "why_tests_cant": "4^6 to 4^10 combinations of types per operation and unboundedly many nestings; the tests use one type per object.", "anchors": ["singd/structures/hierarchical.py: to_dense, __matmul__, rmatmat, from_inner", "singd/structures/recursive.py: to_dense", "singd/structures/blockdiagonal.py: __matmul__", "singd/structures/utils.py: lowest_precision"]}
{"id": "C75", "title": "Parameters are recognised by the address of their data", "statement": "Parameter groups are looked up by data_ptr() in a map made at construction. For all addresses: which layers are trained and the group of each layer (the last one with a parameter at the address of its weight); if different parameters have different addresses, construction is as described by the other properties. Parameters given new memory later (model.to, half, p.data = ...): no later operation of any history gives a different result iff every layer's weight is found in the same group as before. A weight at an unknown address makes forward and backward passes through its layer raise KeyError without effect, and makes step raise without counting and without touching this and later layers. Addresses of biases do not matter. With exchanged addresses, hyper-parameters of the wrong group are used without any error.", "quantifier": "all models, groups, assignments of addresses, moves at any time, histories", "why_tests_cant": "The tests never move parameters after constructing the optimizer, and which addresses are reused depends on the allocator.", "anchors": ["singd/optim/optimizer.py: _get_param_group_entry, __init__, _check_param_groups, _install_hooks"]}
{"id": "C76", "title": "Structures that represent the same matrices are interchangeable, and their names are only read by the constructor", "statement": "Two optimizers over the same model whose parameter groups differ only in the names of structures, where for every layer both structures represent the same set of matrices (and are both or neither block-diagonal, or these matrices are symmetric), stay in step: every history that fits one fits the other, with equal parameters, momenta, step counts and scales, and equal represented factors. In the library this applies to dense and hierarchical15_15 for dimensions up to 15 and to no other pair of different structures above dimension 1; block30diagonal represents the same matrices as dense up to dimension 30 but training differs from the second step on. Structures whose matrices are the same in another basis train alike in this basis: lower and upper triangular Toeplitz structures are mirror images (features reversed), also inside the recursive classes. Writing other names into param_groups after construction has no effect on training.", "quantifier": "all models, hyper-parameters, parameter groups, histories, classes incl. recursive ones, dimensions", "why_tests_cant": "Tests compare each structure with dense matrices for single operations and few sizes; they never compare whole training runs of different structures.", "anchors": ["singd/optim/optimizer.py: SUPPORTED_STRUCTURES, _initialize_K_C, _step, _update_preconditioner", "singd/structures/hierarchical.py", "singd/structures/blockdiagonal.py", "singd/structures/triltoeplitz.py", "singd/structures/triutoeplitz.py", "singd/structures/recursive.py"]}
{"id": "C77", "title": "With every structure except block-diagonal ones the default update is a gradient step of the divergence on the structure", "statement": "With the default update (not kfac_like, no Riemannian momentum, positive damping) and factors of any structure except block-diagonal ones, an update multiplies each factor by 1 - (rate/2) X, where X is a matrix of the structure: the gradient, along the directions of the structure, of the divergence of the preconditioner C C^T (x) K K^T from the inverse of the damped curvature of the round (divided by the dimension of the other factor, for the inner product with the symmetric part). Invertible factors are left unchanged exactly if they are a critical point of the divergence on their structures. With normalize_lr_cov and 18 n lr_cov <= 1 for the dimensions n of both factors, an update on any data keeps the factors invertible and does not increase the divergence, strictly decreasing it unless the factors are unchanged; without normalisation the same holds for lr_cov small compared with the curvature. If the second moments are the same at every update, the gradients tend to zero and every limit point of the preconditioners is a critical point with invertible factors of the structures.", "quantifier": "all models, layers, data, dimensions, classes (incl. recursive ones) other than block-diagonal, intervals T, schedules of lr_cov, numbers of rounds", "why_tests_cant": "A statement about derivatives of a divergence in all directions of a matrix class and about limits of infinite runs.", "anchors": ["singd/optim/optimizer.py: _accumulate_H_terms, _update_preconditioner, _normalized_lr_cov", "singd/structures/*.py: from_dense, from_inner"]}
{"id": "C78", "title": "Without damping, training does not depend on linear or affine changes of variables of the layers' inputs and outputs", "statement": "Two runs whose layers see inputs x P (P acts on the inputs with the constant feature of the bias, so shifts are included) and output gradients g Q instead of x and g, with gradients Q^T G P, stay in corresponding states when the preconditioner is updated without damping: the factors of the second are P and Q times those of the first, statistics, Riemannian momenta and rates are the same, and the parameters [W, b] (and momentum buffers) are related by Q . P^T, so that the layers compute corresponding outputs at all times. The matrices need be neither orthogonal nor invertible. For linear layers and a freshly constructed optimizer this gives an explicit transformed history, if the transformed run starts with the inverse matrices as factors. It fails with positive damping, for block-diagonal factors, and if both runs start with identities.", "quantifier": "all matrices P and Q per layer, models, layers, classes except block-diagonal ones, histories without misuse (any hyper-parameters but the damping at updates: kfac_like or not, Riemannian momentum, normalisation, momentum, weight decay, intervals, gradient scales)", "why_tests_cant": "Covariance under all linear maps over all histories; runs on samples only show it for finitely many matrices and up to rounding.", "anchors": ["singd/optim/optimizer.py:456-546 (_update_preconditioner)", "singd/optim/optimizer.py:578-635 (_accumulate_H_terms)", "singd/optim/optimizer.py:666-814 (_compute_natural_gradient, _step)"]}
{"id": "C79", "title": "All tensors of a layer stay on the device of its weight, and a restored checkpoint is usable exactly if it lies there", "statement": "If weight and bias of every layer are on one device (layers may be on different ones) and inputs and output gradients arrive there, no operation ever raises because of a device, and all tensors of all factors, momenta, statistics and momentum buffers of a layer are always on the device of its weight. After restoring matrices that lie on arbitrary devices, an iteration succeeds if and only if factors, statistics and (at an update with Riemannian momentum) momenta are on the device of the weight. A checkpoint read with map_location=f can be used exactly if f sends the devices of the old weights to those of the new ones; load_state_dict does not move factors (torch moves only the momentum buffers), so otherwise training raises later, and no operation but restoring another checkpoint ever repairs it. A bias on another device than the weight passes construction and backward pass and makes every step raise. A matrix whose own tensors are scattered over devices can be multiplied by a tensor only if all its tensors are on that tensor's device (classes that are not nested); two hierarchical matrices only if all their tensors are on one device.", "quantifier": "all lists of layers, devices, classes and nestings, intervals, hyper-parameters, runs (hooks, steps, skipped steps, restored checkpoints), device maps f", "why_tests_cant": "Tests need the hardware, and cover one placement and one class at a time; that no run ever mixes devices is a statement about all histories.", "anchors": ["singd/optim/optimizer.py:385-428 (_get_preconditioner_dtypes_and_device, _initialize_buffers)", "singd/optim/optimizer.py:456-546 (_update_preconditioner)", "singd/optim/optimizer.py:881-895 (load_state_dict)", "singd/structures/*.py (device= arguments)"]}
{"id": "C80", "title": "Parameters, gradients and step sizes never flow into the pre-conditioner; discarding gradients does not discard statistics", "statement": "In runs without exceptions, factors, Riemannian momenta, statistics, gradient scales and the step counter are functions of the inputs and output gradients the hooks see, the gradient scales and the hyper-parameters other than lr, momentum and weight_decay: two runs that differ in initial parameters, gradients, momentum buffers, these three hyper-parameters, and in any assignments of gradients or parameters at any place, have the same pre-conditioner at the end. In particular zero_grad() leaves the statistics of the backward passes before it to be merged with those of the next batch: discarding a batch by zero_grad() is not the same as not having seen it. A step that the gradient scaler reports as infinite does discard all of it.", "quantifier": "all reachable or unreachable starts, all lists of operations with any insertion of gradient and parameter assignments, all layers, structures and hyper-parameters", "why_tests_cant": "Non-interference quantifies over pairs of histories; the effect of a discarded batch on the factors is silent.", "anchors": ["singd/optim/optimizer.py:732-815 (step, _step)", "singd/optim/optimizer.py:456-546 (_update_preconditioner)", "singd/optim/optimizer.py:548-664 (hooks, _accumulate_H_terms)", "singd/optim/optimizer.py:666-730 (_compute_natural_gradient)"]}
{"id": "C81", "title": "Data-parallel ranks as concurrent processes: the schedule does not matter, ranks that communicate differently often hang, collectives are matched by position only", "statement": "Each rank is a process; collective operations block until all ranks take part. If some schedule ends (no process can go on), every schedule leads to the same end, in the same number of steps. For ranks that start alike and execute the same operations on different data, all processes finish with result W' under some schedule if and only if the lock-step execution succeeds with W'; then every schedule does. The number of collectives of a rank's program is a function of its list of operations and its layers alone: two per backward pass of a registered hook, and one per layer and step that is not skipped. A rank whose program has more collectives than that of another never finishes, under any schedule (e.g. if found_inf differs, or a layer is not used on one rank). Collectives carry no name: if ranks run the backward passes of their layers in different orders, statistics of different layers are averaged with each other without an error.", "quantifier": "all numbers of ranks, schedules, models, structures, states, histories and data", "why_tests_cant": "Tests observe a few schedules of a few ranks; deadlocks depend on data, and wrongly matched collectives raise nothing.", "anchors": ["singd/structures/base.py:230-264 (all_reduce)", "singd/optim/optimizer.py:578-635 (_accumulate_H_terms)", "singd/optim/optimizer.py:714-719 (all_reduce of the natural gradient)", "singd/optim/optimizer.py:732-815 (step, _step)"]}
{"id": "C82", "title": "Hooks never modify activations or gradients, and see a layer's input as it is in the backward pass", "statement": "Inputs and output gradients are tensors in memory; hooks keep references. Whatever conversions and reshapes copy or share: process_input and process_grad_output change nothing that existed before (the in-place division of the convolution never reaches the layer's input), return what they return for values, and raise the same exceptions; and no operation of the optimizer changes an activation or a gradient. A backward pass accumulates the statistics of the contents its layer's input has at that moment. Hence a history in which no code overwrites an input that a hook holds is the history on values, whatever else is overwritten in place. If an input is overwritten between forward and backward pass, statistics are silently those of an input the layer never saw.", "quantifier": "all layers, structures, tensors in memory, choices of what copies, states, and histories interleaved with writes by other code", "why_tests_cant": "Whether a view or a copy is made depends on strides and types; a wrong statistic raises nothing, and in-place operations of users are arbitrary.", "anchors": ["singd/optim/optimizer.py:548-576 (hook keeps inputs)", "singd/optim/optimizer.py:597-612 (inputs[0].data.to, grad_output.data.to)", "singd/optim/utils.py:140-205 (process_input)", "singd/optim/utils.py:176 (div_)", "singd/optim/utils.py:255-342 (process_grad_output)"]}
{"id": "C83", "title": "Kronecker factors and the Gauss-Newton matrix: exact for networks that are linear after the layer, off by a covariance otherwise", "statement": "Square loss, one backward pass per network output of the sum or mean of this output over all predictions. If each prediction depends on one position of a layer's output (expand), or on the sum of the outputs over the positions of a sample (reduce), through any differentiable functions, then the Kronecker product of the Gram matrices of the processed gradients and inputs equals the layer's Gauss-Newton matrix, defined through derivatives with respect to the layer's weight and bias, minus the covariance of products of derivatives and products of inputs, divided by the number of terms the loss is averaged over. If what follows the layer is affine (with mean pooling for reduce), the product is the Gauss-Newton matrix. For other networks it is not.", "quantifier": "all linear layers (any shared axes) and convolutions, with or without bias, all loss averages, weights, inputs, batch sizes, depths, and differentiable networks around the layer", "why_tests_cant": "test_kfac.py samples two small models with random data in floating point; the identity, and the exact error for all other networks, is an algebraic fact about all inputs.", "anchors": ["singd/optim/utils.py:122-205 (process_input)", "singd/optim/utils.py:208-342 (process_grad_output)", "test/optim/test_kfac.py:94-180"]}
{"id": "C84", "title": "Provenance: which data each tensor of the optimizer depends on", "statement": "Give the data of every operation (inputs, output gradients, assigned gradients and parameters, gradient scales) a label, and every tensor of the optimizer the join of the labels of what the code computes it from. Two executions without exceptions that differ in data only, and only in data with labels outside some ideal, agree on every tensor whose label is in the ideal. In particular the value and momentum buffer of a parameter influence only themselves, and layers do not influence each other even within a group. Labels are not too large: in a history with an update, a plain step and a further pass, an operation is listed exactly if other data for it change the tensor. What has entered a factor, a parameter or a buffer never leaves it unless the user assigns the parameter, and what is in a layer's factors is in its parameters after the next step that is not skipped; a skipped step forgets what is in the statistics and touches nothing else.", "quantifier": "all join-semilattices of labels, ideals, histories without exceptions, layers, structures, hyper-parameters; exactness on one concrete history", "why_tests_cant": "A test compares a few runs; that a tensor does not depend on something is a statement about all pairs of runs of any length.", "anchors": ["singd/optim/optimizer.py:456-546 (_update_preconditioner)", "singd/optim/optimizer.py:548-635 (hooks)", "singd/optim/optimizer.py:681-730 (_compute_natural_gradient)", "singd/optim/optimizer.py:732-834 (step)"]}
{"id": "C85", "title": "Only backward passes that fire matter; activation checkpointing changes nothing", "statement": "Activation checkpointing (a forward pass without gradients, then every segment run forward again with gradients and backward, beginning with the last segment), with any division into segments, leaves the optimizer, parameters and gradients in exactly the state that ordinary training leaves, after every script of mini-batches, steps, skipped steps and changes of gradients, parameters, hyper-parameters and scales, whatever the shapes and also if accumulation raises. More generally two runs without misuse in which the same pairs of inputs and output gradients reach every layer between two steps, in any order and with any forward passes in between, have the same factors, momenta, statistics, parameters and buffers.", "quantifier": "all states, scripts, segmentations; all pairs of histories with the same multisets of backward passes per layer and step", "why_tests_cant": "Segmentations, orders of passes and abandoned forward passes are unboundedly many, and a hook that fires once too often only shows in the statistics.", "anchors": ["singd/optim/optimizer.py:548-576 (forward hook)", "singd/optim/optimizer.py:578-635 (_accumulate_H_terms)", "singd/optim/optimizer.py:732-814 (step)"]}
{"id": "C86", "title": "Several backward passes through one graph", "statement": "When two losses share a graph, backpropagating their sum or one loss after the other (retain_graph=True) gives the same gradients, but other statistics: in the second case H_K has every input twice, and H_C lacks exactly the products of the gradients of different losses. Training is the same if the losses are k equal parts of one loss and the default rule is used; in general the factors after a step differ, with kfac_like even for two equal losses.", "quantifier": "all histories without misuse, layers, structures, loss averages, numbers of parts", "why_tests_cant": "That the deviation is exactly the cross moments, for every structure and history, is not visible from samples.", "anchors": ["singd/optim/optimizer.py:578-635 (_accumulate_H_terms)", "singd/optim/utils.py:208-299 (process_grad_output)"]}
{"id": "C87", "title": "Asynchronous all_reduce: right after waiting, unspecified before", "statement": "all_reduce(async_op=True) hands every tensor of a structured matrix to the communication library and returns handles. In every interleaving of the ranks and of the library's reads, intermediate uses of the memory and stores, once a rank has waited for all handles its matrix holds exactly what the synchronous all_reduce computes (also where a non-contiguous tensor silently keeps its local value), provided the memory of concurrent calls is disjoint and not written meanwhile. If every rank made calls of the same sizes and the library has nothing left to do, no wait blocks. Without waiting the matrix may hold anything, and a store before waiting makes the result of all ranks depend on timing.", "quantifier": "all numbers of ranks, structures, contents, layouts, reductions; all interleavings of calls, stores of the program, waits and actions of the library", "why_tests_cant": "Interleavings with a communication library cannot be enumerated and are not under the control of a test.", "anchors": ["singd/structures/base.py:230-264 (all_reduce)", "singd/structures/base.py:46-90 (named_tensors)"]}
{"id": "C88", "title": "Memory: what methods allocate and what the optimizer keeps alive", "statement": "With diagonal, block-diagonal and hierarchical factors no method of the optimizer allocates more than a fixed multiple of the numbers stored in its matrix and in its tensor argument, so no iteration allocates more than a fixed multiple of the factors, inputs, output gradients and the weight. Dense, Toeplitz and recursive classes make an n x n matrix in every backward pass. Over any course of training the factors, momenta and statistics of a layer share no memory and keep exactly `held` numbers each in memory: what they store for all classes without views, but a whole n x n matrix more for recursive templates with a dense, block-diagonal or hierarchical matrix inside (from_dense keeps views). The four triangular classes of the library built on the templates therefore store 2n-1 numbers and hold n^2+2(n-1), more than a dense matrix.", "quantifier": "all classes and nestings, dimensions, numbers of rows of inputs and gradients, options of an update, all sequences of backward passes, updates and natural gradients", "why_tests_cant": "Tests compare values. Storage that views keep alive is not visible in shapes or values, and the bound is on all dimensions and all histories.", "anchors": ["singd/structures/base.py:99-107, 199-209, 270-415", "singd/structures/recursive.py:168, 188-220, 306, 326-358", "singd/structures/dense.py:36-57", "singd/structures/hierarchical.py:145-183", "singd/structures/blockdiagonal.py:110-157", "singd/optim/optimizer.py:415-430, 467-546, 602-635, 676-712"]}
{"id": "C89", "title": "Spread of NaN through factors and parameters", "statement": "NaN is stored only if data, a gradient or an assigned parameter has one. With INGD's own rule (kfac_like=False) one NaN in the inputs or output gradients of any backward pass since the last update makes every entry of the layer's weight and bias and of one factor NaN in the update, whatever the structures, and even if the gradients of the step have no NaN; from a clean layer with clean gradients an entry is NaN exactly if there was a NaN in the data. The factor never recovers and every later step makes the parameters NaN again, also after good parameters are put back. With kfac_like=True entry (r, j) becomes NaN exactly if a NaN row of the inputs reaches j or a NaN row of the output gradients reaches r: the same index for diagonal factors, the same block for block-diagonal ones, everything for dense, Toeplitz and recursive ones, everything but other entries of the diagonal part for hierarchical ones. A step skipped for infinite or NaN gradients discards the statistics and nothing stays.", "quantifier": "all classes and nestings of both factors, dimensions, batches, positions of NaN, hyper-parameters and sequences of operations", "why_tests_cant": "Tests use finite data; the claims are about every position of NaN, every structure and all later steps.", "anchors": ["singd/optim/optimizer.py:466-546, 608-635, 681-712, 763-774, 783-814", "singd/structures/base.py:85-107, 181-209, 270-343", "singd/structures/hierarchical.py:146-341", "singd/structures/blockdiagonal.py:113-313", "singd/structures/triltoeplitz.py:59-181"]}
{"id": "C90", "title": "Rounding errors of a whole pre-conditioner update", "statement": "If every operation and conversion has a relative error of at most u <= 1/2, then after accumulating the statistics of any number of mini-batches and updating the pre-conditioner of a layer (from_inner, traces, grad_unscaling, momenta, normalized rate, factor update), every entry of the statistics and of the new momenta differs from the published rule by at most (1+u)^k - 1 times the same expression with absolute values and without cancellation, where k is linear in the dimensions, the number of columns and the number of mini-batches; the new factors differ from K (I - b M), with the exact M and its exact rate b, by at most (1+u)^k - 1 times |K| + |lr_cov| |K| (B + max B). No inverse of a factor and no condition number enters. Without rounding the results are those of the exact model.", "quantifier": "all classes without hierarchical ones inside recursive ones, dimensions, hyper-parameters, scales, mini-batches, momenta, unit round-offs, rounding modes and orders of summation", "why_tests_cant": "Tests compare with tolerances on a few inputs; the bound holds for all inputs and all ways of evaluating sums, and shows what it depends on.", "anchors": ["singd/optim/optimizer.py:466-548, 608-635", "singd/structures/base.py:85-107, 155-209, 270-343", "singd/structures/diagonal.py:131-193", "singd/structures/triltoeplitz.py:59-193", "singd/structures/recursive.py:188-205, 326-343"]}
{"id": "C91", "title": "Several optimizers on one model; abandoned and half-constructed optimizers", "statement": "Any number of SINGD instances are constructed for one model, used, abandoned and detached, in any order, with exceptions anywhere. (1) Each instance whose constructor returned is in a state that it could have reached as the only optimizer. (2) An abandoned instance whose hooks raise nothing changes neither parameters nor gradients nor other instances. (3) Instances without common parameters may step in any order. (4) A constructor that raises before its hooks are installed leaves nothing behind. If it raises afterwards (weight of a layer in no group, unregistered structure name), its hooks stay: whatever happens later, every backward pass through an output of one of its layers raises, and if the weight of the layer was not handed over every forward pass raises. The backward pass raises a KeyError where the layer's factors were not both made, an AttributeError where they were.", "quantifier": "all models, constructor arguments, registered structures, histories of operations on any number of optimizers", "why_tests_cant": "Tests use one optimizer per model; interactions through shared hooks over arbitrary histories cannot be enumerated.", "anchors": ["singd/optim/optimizer.py:203-266", "singd/optim/optimizer.py:396-430", "singd/optim/optimizer.py:548-611", "singd/optim/optimizer.py:637-664"]}
{"id": "C92", "title": "Training with torch's GradScaler: dynamic scales, gradient clipping with unscale_, two scalers", "statement": "(1) Training with a GradScaler (any positive initial scale, growth and backoff factor, any interval) gives the factors, factor momenta, parameters and momentum buffers of training without it in which the same iterations are skipped, whatever infs are found, and raises nothing. (2) Gradient clipping via scaler.unscale_, which a comment in step() mentions, raises AttributeError unless the scale was set with set_current_grad_scale; the optimizer stays unusable until the attribute is removed. (3) With an explicit scale, the step is right in steps that do not update factors if that scale is 1; in update steps without normalize_lr_cov no explicit scale gives the right result (with it, one can by chance). (4) The scale is the initial scale times backoff^(number of infs) times growth^j, with j bounded by the iterations without infs per interval. (5) Two scalers, one per optimizer as in the documentation, are out of step as soon as one finds infs the other does not, and gradients are divided by a wrong number from then on.", "quantifier": "all models, constructor arguments, scaler parameters, sequences of iterations and of iterations with infs", "why_tests_cant": "Tests run a few iterations with one scaler and no infs; the tests of the repository do not call unscale_.", "anchors": ["singd/optim/optimizer.py:55-63", "singd/optim/optimizer.py:748-781", "singd/optim/optimizer.py:783-840", "docs/examples/example_04_advanced.py:128-182"]}
{"id": "C93", "title": "Bounded data and a small lr_cov keep the kfac_like factors within fixed positive bounds", "statement": "With kfac_like, no factor momentum and positive damping, on data whose second moments are at most B (as quadratic forms) but otherwise change arbitrarily from step to step, and with any schedule of lr_cov between 0 and beta, with or without normalize_lr_cov: bounds 1/kappa and 1/q on the squared singular values of a dense or diagonal factor that suit beta, B and the damping hold at all later steps once they hold. From construction on, beta (B + damping) <= min(1, damping/2) suffices for 1/max(1, 3(B + damping)) and max(1, 2/damping): no factor diverges and none becomes singular.", "quantifier": "all models and layers with dense or diagonal factors, all bounded sequences of inputs and output gradients, all schedules of lr_cov within the bound, all update periods, all scales", "why_tests_cant": "The claim is about infinitely many steps with data chosen adversarially at each of them.", "anchors": ["singd/optim/optimizer.py:456-552"]}
{"id": "C94", "title": "Training decreases a smooth loss and drives its gradient to zero", "statement": "If the gradients are those of an L-smooth loss times the current scale, without momentum and weight decay, for all layers and all structures but the block-diagonal ones and any update rule: a step after which the squared singular values of the factors of each layer are between 1/kappa and 1/q, with L lr <= q^2, lowers the loss by at least the sum over the layers of lr/(2 kappa^2) times the squared gradient. So if the factors stay within bounds, the weighted squared gradients of all rounds sum to at most the decrease of the loss, they tend to zero if the loss is bounded below (errors of the gradients, as of mini-batches, add lr/(2 q^2) times their squares to the bound), and the loss converges linearly under the Polyak-Lojasiewicz condition. With kfac_like dense or diagonal factors, bounded data, lr_cov small as in C93 and L lr <= min(1, damping/2)^2, all this holds from construction on. More sharply, for every learning rate with L lr < 2 q^2 the loss drops by at least lr (1 - L lr/(2 q^2))/kappa^2 times the squared gradient and the gradients tend to zero, and this threshold is sharp: for every lr > 2 there is a training with a 1-smooth loss and identity factors whose loss tends to infinity.", "quantifier": "all models, smooth losses, sequences of data and scales, all numbers of rounds", "why_tests_cant": "The claim quantifies over all smooth losses and over infinitely many steps.", "anchors": ["singd/optim/optimizer.py:456-552", "singd/optim/optimizer.py:666-730", "singd/optim/optimizer.py:783-840"]}
{"id": "C95", "title": "Training with momentum: loss plus energy of the buffers decreases, gradients and buffers tend to zero", "statement": "If the gradients are those of an L-smooth loss times the current scale, with positive momentum and without weight decay, for all layers and all structures but the block-diagonal ones and any update rule: if after a step the squared singular values of the factors are between 1/kappa and 1/q and the step increased the inverses of the factors at most by sigma (squared lengths), then the loss plus lr/2 momentum sigma^2 times the squared length of the momentum buffers in the coordinates of the factors drops by at least lr/2 (2 - momentum (1 + sigma^2) - L lr/q^2) times the squared length of the new buffers. So if momentum (1 + sigma^2) + L lr/q^2 < 2 and the loss is bounded below, gradients and buffers tend to zero. With kfac_like dense or diagonal factors, bounded data and lr_cov beta with beta (B + damping) <= 2 z min(1, damping/2), z <= 1/2, this holds from construction on with sigma = 1/(1-z)^2, q = min(1, damping/2), and the loss never exceeds its initial value.", "quantifier": "all models, smooth losses, sequences of data and scales, all numbers of rounds", "why_tests_cant": "The claim quantifies over all smooth losses and over infinitely many steps; the loss itself need not decrease in every step.", "anchors": ["singd/optim/optimizer.py:456-552", "singd/optim/optimizer.py:666-730", "singd/optim/optimizer.py:783-840"]}
{"id": "C96", "title": "Weight decay keeps the parameters bounded", "statement": "If sqrt(lr weight_decay) + sqrt(momentum) <= 1 with positive learning rate and weight decay, and training starts without momentum buffers, the parameters of a layer stay in every convex set that contains the initial parameters and the preconditioned gradients of all rounds so far divided by -weight_decay, whatever the structures, the update rule and the factors. In particular an entry that starts between -M and M stays there while the preconditioned gradient is at most weight_decay M in size; and if the squared singular values of the factors stay at most 1/q, a ball of radius M around zero that contains the parameters is never left if the unscaled gradients in it have norm at most q^2 weight_decay M; for kfac_like training from construction with bounded data as in C93, with q = min(1, damping/2). Without momentum the condition is sharp: for every lr > 1 with weight decay 1 one step can leave the interval. With any momentum below 1 it is sharp, too: if sqrt(lr weight_decay) + sqrt(momentum) > 1, an entry without gradient changes its sign. Parameters and buffers rest exactly if the buffers are zero and the preconditioned gradient is -weight_decay times the parameters. Without weight decay and momentum the parameters are the initial ones minus lr times the sum of the preconditioned gradients.", "quantifier": "all models, structures, update rules, sequences of data, gradients and scales, all numbers of rounds, all convex sets", "why_tests_cant": "The claim quantifies over arbitrary gradients and infinitely many steps; a test sees finitely many steps of particular runs and cannot tell a bound from slow growth.", "anchors": ["singd/optim/optimizer.py:456-552", "singd/optim/optimizer.py:666-730", "singd/optim/optimizer.py:783-840"]}
{"id": "C97", "title": "Infinite values and overflow in factors, statistics and parameters", "statement": "With the arithmetic of IEEE 754 (infinities, NaN, zero times infinity is NaN) and any rule by which stored numbers overflow: (1) without overflow the entries that are infinite or NaN after a history are exactly those that would be NaN if the infinite values in the data were NaN, for all structures, so all of C89 holds for infinite values; normalize_lr_cov does not help, since an infinite norm makes the rate zero and zero times infinity is NaN. (2) With overflow at least these entries are. (3) With INGD's own rule, if the average trace of the statistics of one side is infinite or NaN, for instance by overflow of squares of finite numbers, the update makes the whole other factor so; with either rule a side with infinite statistics loses its own factor. A lost factor never recovers and every later step makes all parameters infinite or NaN. (4) Statistics overflow before gradients do: with gradient scale S and a processed output gradient v > 1, whenever S v is representable and S v^2 is not, the gradient scaler finds nothing, the step is taken, and the layer is lost. (5) Dense factors with entries up to k and data with entries up to x in m columns of length n have finite, exact statistics if n k x and m (n k x)^2 are representable.", "quantifier": "all structures and nestings, dimensions, histories of backward passes, skipped steps, steps and assignments, all values incl. infinities and NaN, all largest numbers", "why_tests_cant": "Infinities arise for particular magnitudes of data and scales only; a test meets some of them for some structures and cannot show that nothing later repairs a factor.", "anchors": ["singd/optim/optimizer.py:466-546", "singd/optim/optimizer.py:578-635", "singd/optim/optimizer.py:681-712", "singd/optim/optimizer.py:763-814", "singd/structures/base.py:270-358"]}
{"id": "C98", "title": "Overflow is never silent, except through normalize_lr_cov", "statement": "Compare two runs of a layer with the same operations and hyper-parameters, one in a floating point type that overflows and one in a wider type or without overflow; inputs, output gradients and gradients may be infinite or NaN in the first run and are otherwise the same. After any history every entry of every factor, momentum, statistic, parameter and momentum buffer is infinite or NaN in the first run or the same in both; in particular a parameter or an entry of a natural gradient that is a number in the first run is right, and a wider type changes only values that were infinite or NaN. This holds for given norms; with normalize_lr_cov the norm itself differs, and an entry of a factor can be a number in both runs and not the same one. This cannot happen while the momenta whose norms are taken are numbers. An infinite norm leaves every entry of the factor as it is, or infinite or NaN; a NaN norm leaves the learning rate as it is. The sign of a product that is not NaN is the product of the signs.", "quantifier": "all structures and nestings, dimensions, histories, values, largest numbers", "why_tests_cant": "A statement about pairs of executions that differ in where numbers overflow.", "anchors": ["singd/optim/optimizer.py:466-546", "singd/optim/optimizer.py:608-635", "singd/optim/optimizer.py:681-712", "singd/optim/optimizer.py:783-814", "singd/structures/base.py:345-358"]}
{"id": "C99", "title": "Underflow and rounding: infinities unaffected, curvature lost without notice, but harmless at usual scales", "statement": "(1) For every way of storing that maps numbers to numbers (rounding, underflow), the entries of a layer that are infinite or NaN after any history are exactly those without rounding. (2) Statistics of a dense factor vanish if m (n kappa x)^2 is below the smallest number, although the data and their products with the factor are representable. (3) In particular a loss scale S that keeps the gradient S v representable can lose its curvature S v^2: the factor C is updated as if the gradient were zero, and nothing notices. (4) The entry of C is nevertheless off by at most beta (eps/S + 7 eps)/2 + eps, so only scales as small as eps matter.", "quantifier": "(1) all structures, nestings, dimensions, histories, stores; (2) all dimensions and data; (3), (4) one weight, all gradients, scales, rates and smallest numbers", "why_tests_cant": "Underflow depends on magnitudes and produces no sign of itself; a bound for all magnitudes needs a proof.", "anchors": ["singd/optim/optimizer.py:466-546", "singd/optim/optimizer.py:608-635", "singd/structures/base.py:270-301"]}
{"id": "C100", "title": "The norm of normalize_lr_cov with infinite values and NaN", "statement": "infinity_vector_norm takes torch's maximum of each tensor (NaN if it contains one) and Python's maximum of these (a new value wins only if it compares larger). For all tensors: it raises exactly if all are empty; it is NaN exactly if the first non-empty tensor contains NaN; otherwise it is the largest absolute value in the tensors without NaN, while tensors with a NaN are ignored with all their entries, also infinite ones. A NaN norm counts as 1, so it leaves the learning rate at its maximum however large other entries are. Without infinite values and NaN it is the norm of the exact model for all classes. An update with computed norms then yields the factors of the exact model, and every history with computed norms is one with given norms, to which C97 to C99 apply. So the norm of a matrix depends on which of its tensors holds a NaN.", "quantifier": "all structures and nestings, all values", "why_tests_cant": "NaN compares false with everything, so the result depends on the order of tensors; tests of norms use numbers.", "anchors": ["singd/structures/base.py:345-358", "singd/optim/optimizer.py:537-543", "singd/structures/recursive.py:42-59"]}
