# Formal model of f-dangel/singd in Lean 4

## 1. Approach

* The model is a set of total functions in `lean/Verif/Model/*.lean` that mirror `/repo/singd` function by
  function. Each definition cites file and lines. Python exceptions are values (`PyErr`); mutating methods
  return the new value; optimizer methods run in a state-and-exception monad that keeps the partially
  mutated state when an exception is raised (as Python does).
* Numbers: an arbitrary field `α` (ordered where the property needs an order; with a square root where the
  code calls `sqrt`). `ℝ` is the intended instance, `ℚ` is used to run concrete examples.
  **Floating point**: rounding is modelled only for the applied direction and parameter updates (C70), and for statistics and pre-conditioner updates (C71, C90; single process, from the processed inputs and gradients on); everything else is exact. Overflow, underflow,
  `inf`/`nan` are out of scope, except where `Model/Nan.lean` follows NaN entries.
* Tensors: shape plus an index function that is zero outside the shape (`Verif/Tensor.lean`), so `=` is
  equality of shape and entries. Data types, contiguity and memory are separate models (`DtypeFlow`, `AllReduce`,
  `Checkpoint`, `Alias`, `Heap`). `Heap` is the optimizer with references and in-place operations; `C56_memory` shows that it does
  what the value-level optimizer does, so theorems about the latter carry over.
* Structured matrices: one inductive type `SM` with a constructor per Python class (recursive templates nest),
  `Cls` describes classes, methods dispatch like Python's method resolution order (override if the class has
  one, else the naive base-class method).
* Specification: Mathlib's `Matrix (Fin n) (Fin m) α` with its own `*`, `ᵀ`, `trace`; the small file
  `Verif/Spec.lean` holds everything else a reader needs.
* The optimizer: state = parameter groups, step counter, gradient scales, factor dictionaries, accumulators,
  momentum buffers, parameters, gradients and pending tensor hooks. Autograd is an adversary: forward and
  backward are operations with arbitrary payloads.

## 2. Plan per property

| id | modelled | proof |
|----|----------|-------|
| C01-C06, C09-C13 | all structured classes and base-class fall-backs | per-class block/convolution calculations, then cases over `Cls`, induction over nesting for recursive templates |
| C03, C05 | same | true for all classes except block-diagonal, where `rmatmat` omits the transpose: partial theorem (symmetric blocks) plus a reachable counterexample |
| C07 | `from_dense` | orthogonality of the residual per class, induction for nesting; optimality from orthogonality |
| C08 | `from_dense ∘ to_dense` | identity for all non-hierarchical classes; counterexample for hierarchical; for every nesting exactly the map which doubles `B`, `D` of every hierarchical part (`C08_doubled`), whence exact results and iff conditions for `+`, `*`, `@`, `diag_add_` of any nesting (`Props/Nested.lean`) |
| C14-C18 | helpers, constructors | arithmetic; scatter-add fold = diagonal sums; counterexamples for the chained comparison and even coefficient lengths |
| C19 | registry as a state machine | invariant by induction over registrations |
| C20-C24 | input/gradient processing, unfold, index patterns | sum manipulations over index ranges |
| C25-C37, C43-C47, C51-C54 | optimizer state machine | refinement of the structured state to dense matrices; invariants by induction over operation lists |
| C32, C34, C41 | two or more runs of the state machine | simulation relations preserved by every step |
| C38-C40 | checkpoint values and a heap model for aliasing | round-trip equation; counterexamples for the aliasing claims |
| C42 | per-tensor contiguity flags | exact under contiguity, counterexample otherwise |
| C48 | dense algebra | polynomial identity in matrices |
| C49 | normalised step | entry bound; diagonal dominance gives invertibility; induction |
| C50 | data type flow as abstract interpretation | complete case tables |
| C56-C58 | a tensor as a tensor of addresses; the optimizer with references | separation invariant and simulation of the value-level optimizer; frame rule for all outcomes |
| C59 | the optimizer state machine without the assumption that layers own their parameters | invariant without disjointness; a parameter's history as a fold over the layers using it |
| C60 | state machine with `add_param_group` as a further operation | simulation: same world up to the list of groups |
| C61 | patches against a convolution with torch's four padding modes | index computation; separating image for every non-zero mode |
| C62 | state machine, two runs | relation of states up to scales per layer, preserved by rescaled operations |
| C63 | state machine, two runs | conjugation of factors by orthogonal matrices per layer, preserved by transformed operations; classes that keep their structure under the conjugation |
| C64 | limits over infinite trainings | one round as a matrix recursion; reduction to a cubic map along eigenvectors; spectral theorem; geometric estimates |
| C65 | bounds and limits over infinite trainings | potential argument on the sum of squares in an eigenbasis of `KᵀSK`; variable-rate cubic map; explicit family of wide layers |
| C66 | calls that warn, per operation | case analysis on classes and methods; classes of the factors from the invariant of training |
| C67 | descent, minimality and limits of the default update | geodesic convexity of the objective in `log` of the relative eigenvalues; bound of the curvatures on sublevel sets; compactness and uniqueness of the limit point |
| C68 | methods of the base class over an abstract class | equivalence of exactness with a contract; counterexample: scaled diagonal matrices |
| C69 | number of stored scalars against a count from the documented shapes | induction over classes; frame of every operation |
| C70 | relation `FNatGrad` between inputs and possible rounded results, error bound against `natDir` | forward error analysis with `(1+u)^k - 1`; witnesses of ascent |
| C71 | zero pattern of a class as an order of the indices (`Cls.bw`); relation `FFactor` for rounded updates | kernel vector of maximal rank; diagonal of products; error analysis as in C70 |
| C72 | ordered lists of (condition, exception) stated on shapes, strings and zero-counts | peeling of one check at a time (`check`), induction over classes |
| C73 | list of lacking items of a layer; state after a failed step per layer (`FailedStep`) | prefix of the loop as in a successful step, frames for the rest |
| C74 | smallest floating point type by digits of significand and exponent; conditions on the types of all tensors | induction over classes; case analysis |
| C75 | histories with and without moves give the same results; the last group with a parameter at the address | simulation; distinguishing history with periods 0 and 1; witnesses |
| C76 | equal parameters of two runs; represented matrices of factors; table of library structures | simulation through represented matrices (`Rot`), characterisation of represented matrices (`RepF`), witness |
| C77 | derivatives of the divergence, descent and limit points for structured factors | `from_dense` as a projection up to the symmetric part (`proj_orth`, `proj_dir`), second-order bound of `log det`, compactness after rescaling |
| C78 | two runs with transformed inputs, output gradients and gradients; parameters compared through the matrix `[W, b]`; outputs of layers | simulation with factors that absorb the change of variables (`InVars`); witnesses for the limits |
| C79 | devices of tensors (`DM.On`: every registered tensor), exceptions of iterations | uniform placement is preserved by every class's operations; exact rule per operation; witnesses |
| C80 | pairs of runs, compared in all stored state except parameters, gradients and momentum buffers | erasure (`World.bare`): every operation that succeeds acts on the erased state (`Sees`, `Hidden`), runs are folds over the visible operations |
| C81 | all schedules of `R` processes that meet in collectives matched by position | diamond property (actions of different ranks commute) and induction over the terminating schedule; simulation of lock-step phases (`Runs`, `Fails`); syntactic count of collectives (`Prog.Exactly`) |
| C82 | activations and gradients in memory, hooks hold references; writes by other code at any time | specifications of each function on memory (`Act.Spec`: old memory unchanged, result reads as the value function's, same exception), composed; invariant of histories (`ActWorld.Good`, `ActWorld.Fresh`) |
| C83 | Gauss-Newton matrix through Fréchet derivatives of the network with respect to the layer's parameters; output gradients as derivatives with respect to the layer's outputs | chain rule, Gram matrices from C20, C21, C55, sum of products = product of sums + covariance |
| C84 | labels (any join-semilattice) propagated through the history beside the values; agreement of two executions on all tensors whose labels lie in an ideal | inversion of every operation into its reads and writes, then congruence; kernel evaluation for exactness |
| C85 | scripts of mini-batches run with and without activation checkpointing; pairs of histories with the same fired passes | every method is blind to the list of hooks; both ways accumulate the same passes in the same order; the general case from the specification of passes between steps |
| C86 | statistics of runs in which the sum of two losses is backpropagated at once or separately | additivity of `process_grad_output`, specification of passes between steps; as C34 for equal parts; kernel evaluation for the witnesses |
| C87 | ranks with memories of their own and a communication library that reads, overwrites and stores at any time it is allowed to | invariant over interleavings (contributions are what was handed over; finished memory is not touched), lifted to structured matrices tensor by tensor |
| C88 | tensors as shapes in storages; every tensor an expression creates | sums per method and class; induction over nesting for views; invariant over operations of a layer with disjoint storages |
| C89 | tensors as sets of NaN entries, strict arithmetic, which operands enter which entry | per class: all/no entries and the exact pattern of given rows are kept by every method; induction over batches and operations |
| C90 | relations `SM.FInner`, `SM.FStat`, `FMomenta`, `FUpdate` for rounded updates | per class: `from_dense` and `from_inner` keep `MApp` (error relative to a bound matrix); chain of such steps; rates of close momenta are close |
| C91 | `Multi.State` with shared parameters and outputs, `mexec`, `mrun`; `Reachable` for one optimizer | simulation: what an optimizer sees of each operation is a list of operations of an optimizer alone (`seen`); invariants for half-constructed slots and their registrations; relation `Forgot` between runs with and without an optimizer; locality of `step` |
| C92 | `Amp.State`, `Amp.aexec`, `Amp.arun` over the optimizer model; plain training as in C32 | simulation `Side` with a scale per step taken from the scaler; `StepSpec` of both steps compared |
| C93 | `Passes` as in C64 (any data, any `lr_cov`), squared lengths of `K x` and `x` | inverse-free invariant `Band.Within`; one update in the eigenbasis of `Kᵀ S K` |
| C94 | `Smooth` (an inequality for the loss), `Descends` (gradients of the loss times the scale); parameters as matrices `paramM` | `StepSpec`, angle and length of `C Cᵀ G K Kᵀ` from `Band.precond`, telescoping; C93 for the factors |
| C95 | as C94 with `Rolling` (momentum), buffers as matrices `bufM`, `energy` by inverse matrices | coordinates `C⁻¹ M K⁻ᵀ` (`Roll.coord`), in which the direction is `Cᵀ G K`; `Suits.lag` for the change of the factors |
| C96 | as C95 for one layer with any hyper-parameters (`Keeps`); the preconditioned gradient is `natDir` (`pushed`); convex sets of Mathlib | the two modes of momentum with weight decay (`Pull.roots`): parameters and a shifted copy are convex combinations; sharpness: with complex modes the ratio of successive values falls by a fixed amount until the sign changes (`Props/DecaySharp.lean`) |
| C97 | numbers, infinities and NaN with IEEE arithmetic; the layer of C89 with values (`Model/Overflow.lean`) | one logical relation between sets of entries and values, in an exact and an at-least version, transfers C89; a second relation, entry by entry with the exact structured matrices, shows that without overflow the values are those of the exact optimizer (`Props/OverflowValues.lean`) |
| C98 | as C97; pairs of runs related entry by entry (`Le`, `LeO`, `LeL`) | sums and products of values keep infinities and NaN, so the relation passes through all operations (`Props/OverflowSilent.lean`) |
| C99 | the layer of C97 with a store that flushes small numbers to zero (`Model/Underflow.lean`) | C97 for any store; errors of stored numbers operation by operation (`Props/Underflow.lean`) |
| C100 | Python's and torch's maximum over values with NaN; tensors of the layer of C97 in their order (`Model/InfNorm.lean`) | invariants of the two folds (`Props/InfNorm.lean`) |

## 3. Trusted base

### 3.1 Logic

Lean 4.33.0's kernel and Mathlib's definitions. No axioms of our own, no `sorry`, no `native_decide`, no `bv_decide`.
Axioms used by the theorems named in `MANIFEST.json` (from `#print axioms`):

* `propext` only: `Obj.C19_register`, `Obj.C19_dotted_names_clash`, `Dt.C50_low_precision`, `Dt.C50_double_precision`, `Dt.C50_false`;
* `propext`, `Quot.sound`: `C18_lowest_precision_min`, `C18_lowest_precision_error`, `Obj.C19_names_unique`,
  `Obj.C19_named_tensors_complete`, `C45_wrapped`, `C38_unlisted_keyError`, `C39_consumed`, `C39_rest`,
  `Dt.C50_factors_keep_type`, `Dt.C50_conversion_false`;
* `propext`, `Classical.choice`, `Quot.sound`: all others.

### 3.2 The reading of the code

The kernel checks theorems about the model; that the model says what `/repo` does rests on reading. Each definition cites
the lines it models. The meaning given to library calls is part of this: slicing, `cat`, `split`, `narrow`, `reshape`,
`einsum`, `conv1d`, `pad`, `unfold`, `block_diag`, `scatter_add_` (torch), `rearrange`, `reduce` (einops), `index_pattern`,
`get_conv_paddings` (einconv), `Optimizer.__init__`, `add_param_group`, `state_dict` (torch.optim), `dist.all_reduce`.

### 3.3 Which code is modelled

| code | model |
|------|-------|
| `structures/base.py` | all methods (in the library's classes: with the class files; as inherited by an arbitrary user-defined class: `Model/Base.lean`); `all_reduce` in `Model/AllReduce.lean`; registration in `Model/Registry.lean`; `_warn_naive_implementation` in `Model/Warnings.lean` |
| `structures/dense.py`, `diagonal.py`, `blockdiagonal.py`, `hierarchical.py`, `triltoeplitz.py`, `triutoeplitz.py` | all methods: `Model/{Structured,Diagonal,Block,Hier,Toeplitz}.lean` |
| `structures/recursive.py` and the four classes built on it | all methods, all nestings: `Model/Structured.lean` |
| `structures/utils.py` | `all_traces`, `toeplitz_matmul`, `diag_add_`, `lowest_precision`, `supported_eye` (its type): `Model/StructUtils.lean`, `Model/Dtype.lean`. `is_half_precision` is not used by the code and not modelled |
| `optim/utils.py` | all functions: `Model/ProcessIO.lean` |
| `optim/optimizer.py` | `__init__`, group and default handling, `_check_param_groups`, `_get_trainable_parameters`, `_initialize_buffers`, `preconditioner_dims`, `_install_hooks`: `Model/Construct.lean`; `_update_preconditioner`, both hooks, `_compute_natural_gradient`, `step`, `_step`, gradient scales: `Model/Optimizer.lean`; `state_dict`, `load_state_dict`: `Model/Checkpoint.lean`; the branches under `dist.is_initialized()`: `Model/Distributed.lean`; data types of all tensors: `Model/DtypeFlow.lean` |
| memory: `optim/optimizer.py` (construction, hooks, update, step) and in-place methods of `structures/` | `Model/Alias.lean`, `Model/Heap.lean` |
| `add_param_group` (inherited) called after the construction | `Model/AddGroup.lean` |
| use with `torch.cuda.amp.GradScaler` (`optimizer.py:55-63, 748-781`, docs example 04): scaler with stages, dynamic scale, `unscale_`, the attributes `grad_scale`/`found_inf` | `Model/Scaler.lean` (the scaler itself is torch code, transcribed from torch 2.2 and trusted; infs are inputs) |
| several optimizers on one model: hooks that stay, constructors that raise between `_install_hooks` and the end | `Model/Multi.lean` (all optimizers get the same model) |
| addresses of parameters: construction and `_get_param_group_entry` for parameters that share or change their `data_ptr()` | `Model/Address.lean` (contents are kept per object) |
| rounding in `_compute_natural_gradient`, in parameter updates, in statistics and in `_update_preconditioner` | `Model/Rounding.lean`, `Model/RoundingFactor.lean`, `Model/RoundingUpdate.lean`: a relation that admits every order of summation and every rounding mode |
| devices of tensors: all of `structures/` and `optim/optimizer.py` | `Model/Device.lean` (tensors are represented by their device; a misplaced 0-dimensional CPU tensor is only represented where it is a number) |
| interleavings of ranks: `all_reduce` in `base.py:230-264`, `optimizer.py:621-626, 714-719` | `Model/Concurrent.lean` (the program of each rank as internal steps and blocking collectives, matched by position; all tensors of one structured matrix are one collective; meeting collectives of different kinds, shapes or classes raise) |
| `all_reduce(async_op=True)` in `base.py:230-264` | `Model/Async.lean` (one process group and one reduction; the library as an adversary under the contract of `torch.distributed`) |
| NaN entries: methods of `structures/` called by the optimizer, `optimizer.py:466-546, 608-635, 681-712, 763-774, 783-814` | `Model/Nan.lean` (sets of NaN entries, strict arithmetic, no infinities; one layer in one process; implicit padding of convolutions not multiplied) |
| infinite values and overflow: the code of the previous row | `Model/Overflow.lean` (values with IEEE arithmetic and without rounding; what is stored passes through a function such as clipping at the largest number; sums accumulated in a wider type; the norms of `normalize_lr_cov` are inputs, computed in `Model/InfNorm.lean`; one type for all tensors); `Model/Underflow.lean` (a store that replaces small numbers by zero), `Model/InfNorm.lean` (the norm of such values; histories in which it is computed, a norm that raises counting as NaN) |
| memory allocated and kept alive: methods of `structures/` called by the optimizer, `optimizer.py:415-430, 467-546, 602-635, 676-712` | `Model/Allocation.lean` (tensors as shapes in storages, entries counted; no workspace within torch functions; the optimizer from processed inputs and gradients on, for one layer) |
| activations and gradients in memory: `optimizer.py:548-612`, `optim/utils.py:140-342` | `Model/Activation.lean` (references held by hooks; views, copies and the in-place division; what copies is a parameter; autograd's version check is not represented) |
| data flow of all of `optimizer.py:456-854` | `Model/Provenance.lean` (labels of tensors, one per tensor, not per entry; control such as shapes, hyper-parameters and which scales are stored is taken from the values) |
| torch | autograd as an adversary: forward and backward passes carry arbitrary tensors of the right shapes; `GradScaler` as an adversary that sets scales and reports infinities |

### 3.4 What is not modelled

* floating point arithmetic outside `Model/Rounding.lean`, `Model/RoundingFactor.lean` and `Model/RoundingUpdate.lean`; infinities and overflow outside `Model/Overflow.lean`, underflow outside `Model/Underflow.lean`, `nan` outside `Model/Nan.lean` and `Model/Overflow.lean`; numbers are elements of a field;
* failures of the network between ranks (ranks as processes under all schedules are in `Model/Concurrent.lean`, asynchronous calls in `Model/Async.lean`);
* texts of warnings and of error messages (only the exception class; which calls warn is modelled), the filters of Python's `warnings`;
* subclasses of the library's classes that override methods, except every instantiation of the templates;
* in the memory model (`Alias`, `Heap`): memory is never reused; inputs remembered by hooks are values in `Alias` and `Heap` (references in
  `Model/Activation.lean`); a structured matrix is identified with its
  references; results of methods that compute their parts are new by definition (read off the code), those that go through
  `from_dense` are derived;
* transposed and lazy modules (`padding_mode` is modelled in the specification only, `PadMode`, since the code does not read it);
* kernels torch lacks for a type on a device (for instance half precision on the CPU).

## 4. Where code and expectation differ

Each item is proved in the model with a concrete witness.

1. **Block-diagonal `rmatmat` multiplies with the matrix, not its transpose**, and `from_inner()` gives `A Aᵀ`
   (`blockdiagonal.py:239, 271`). Harmless for symmetric blocks only; products of symmetric blocks are not symmetric, so
   training leaves that case: `C03_false`, `C05_false`, `C26_block_false`; the step can go uphill: `C27_false`; training
   depends on the units of the inputs even without damping: `C78_block_false`.
2. **Block-diagonal constructor**: `blocks.shape[1] != blocks.shape[2] != BLOCK_DIM` is a chained comparison and accepts
   wrong shapes: `C15_block_false`.
3. **Hierarchical `from_dense` doubles `B` and `D`**, so it does not invert `to_dense` (`C08_false`), and recursive templates
   with hierarchical blocks compute wrong products, sums, multiples and `diag_add_`
   (`C04_nested_hier_false`, `C10_nested_hier_false`, `C13_nested_hier_corrupts_product`).
4. **`toeplitz_matmul` accepts an even number of coefficients**: `C16_even_length_accepted`.
5. **Dotted names of nested structures can clash**: `Obj.C19_dotted_names_clash`.
6. **`all_reduce` reduces a copy of parts that are not contiguous**, so they stay unreduced: `C42_false`. The library's own
   classes are not affected where the optimiser uses them (`C42_library`); recursive classes with a dense block of
   dimension two or more are.
7. **Distributed training with a summed loss** makes the input statistics as many times too large as there are ranks:
   `C41_false`.
8. **Gradient accumulation** is exact for the default rule with an averaged loss only; with `kfac_like` or
   `loss_average=None` the factors differ from those of the full batch: `C34_false`.
9. **Statistics can be collected outside update steps**: hooks are registered in the forward pass and run in the backward
   pass, which may come after a later step: `C29_late_backward_false`.
10. **A bias that was not handed to the optimizer is trained** if its weight was (`C44_bias_false`); once it has a momentum
    buffer, `state_dict()` raises `KeyError` (`C38_unlisted_bias`).
11. **Validation**: only negative *floats* given to the constructor are rejected; zero, negative integers and values in
    parameter groups pass (`C45_false`). Supported modules with children escape the check for groups that split a layer
    (`C46_nonleaf_false`).
12. **`load_state_dict` empties the dictionary it is given**, so a second load raises `KeyError` (`C39_false`), and keeps
    references, so two optimizers can share factors (`C38_shared`).
13. **`state_dict()` is not a snapshot**: later steps change the factors in it but not the step counter, hyper-parameters
    and buffers (`C40_false`).
14. **Data types**: `float64` weights raise `NotImplementedError` with Toeplitz, block-diagonal and hierarchical factors;
    `preconditioner_dtype=(float32, None)` with half precision weights raises for dense, hierarchical and recursive `C`,
    because `_compute_natural_gradient` uses the entry `None` instead of the type chosen at construction (`Dt.C50_false`;
    the exact condition is `Dt.C50_exact`).
15. **`alpha1` switched on after construction** raises `KeyError` (`C53_alpha1_turned_on`).
16. A step without a preceding backward pass on an update step raises `KeyError` in the middle of the loop: earlier layers
    are already updated, the counter is not advanced (`C37_missing`). Likewise a missing gradient (`AttributeError`). Every exception leaves a usable
    optimizer (`C73_live`, `C73_recover`), but steps are not atomic: repeating one raises `KeyError` or moves earlier layers twice
    (`C73_retry`, `C73_not_atomic`; exact state: `C73_failed_step`).
17. **`DenseMatrix.from_dense` and `to_dense` do not copy** (`dense.py:49, 57`), and block-diagonal and hierarchical `from_dense` keep
    views; an in-place operation on such a matrix changes the tensor it was made from (`C04_alias_false`, `C58_from_dense_shares`).
    The optimizer never relies on a copy there (`C56_memory`).
18. **Tied weights are updated once per layer using them**, each time with the full gradient, since `_step` loops over layers
    (`optimizer.py:783-814`): two layers sharing a weight take twice the step (`C59_false`; exact effect: `C59_updates_per_layer`).
19. **Groups added after the construction have no effect.** Layers are found and hooked in `__init__` only
    (`optimizer.py:241,637-664`), but torch's inherited `add_param_group` accepts a group and `param_groups` lists it: its parameters
    are never trained and no exception is raised (`C60_later_groups_no_effect`, `C60_never_trained`, `C60_false`).
20. **`padding_mode` is ignored.** The patch extraction pads with zeros whatever the layer does; statistics of a convolution with
    another mode belong to a different layer, unless nothing is padded (`C61_padding_mode`, exact; `C61_false`).
21. **Which options keep training independent of the basis.** Dense factors without `normalize_lr_cov` are equivariant under all
    orthogonal changes of basis; dense and diagonal ones under signed permutations of the units (`C63_rotation`, `C63_permutation`).
    `normalize_lr_cov` uses the largest entry, which depends on the basis (`C63_normalize_false`); Toeplitz factors depend on the
    order of the features (`C63_toeplitz_false`), diagonal ones on rotations (`C63_diagonal_false`).
22. **`kfac_like` factors diverge for large statistics.** Without `normalize_lr_cov`, if an eigenvalue of `U + damping` (second moment of the
    inputs, or of the output gradients) exceeds `1 + 4 / lr_cov`, the factor grows without bound although the data are constant and
    bounded (`C64_from_construction`, exact; `C64_blow_up`). At `1 + 2 / lr_cov` one update makes it singular; without damping, directions that
    the data never show grow by `1 + lr_cov/2` per update (`C64_input`, fields `dies`, `unseen`). Below `1 + 2 / lr_cov` it converges to a root of
    the inverse. For `lr_cov` at most about `damping / (2 (B + damping))`, data bounded by `B` that change arbitrarily keep the factors within fixed positive bounds (`C93_from_construction`).
23. **`normalize_lr_cov` protects narrow layers only.** The rate is divided by the largest *entry* of the update (`optimizer.py:541-549`), so a step can
    still be `n * lr_cov` long in the spectral norm. For `n * lr_cov < 2` the `kfac_like` factors are bounded whatever the data
    (`C65_bounded`); for `n * lr_cov > 2` (`lr_cov = 0.01`: 201 inputs or more) constant, equal inputs make a dense factor diverge (`C65_blow_up`).
24. **`WARN_NAIVE_EXCEPTIONS` does not silence the methods it lists.** The Toeplitz classes list `from_inner`, but the base class's `from_inner` calls
    `from_mat_inner`, which is not listed and warns: every backward pass and every update with Toeplitz factors warns twice per layer
    (`C66_toeplitz`). `average_trace` and `zeros` warn under the names `trace` and `zero` (`C66_exceptions_false`; exact: `C66_exceptions_exact`).
25. **Without `normalize_lr_cov` the default update diverges on constant data.** The documentation says that a too large `lr_cov` "during the first few
    steps" might be a problem (`optimizer.py:141-149`). It is not limited to the first steps: if `tr U tr G / (n d) + damping` exceeds
    `n (1 + 2 (1 + 2 n d) / lr_cov)` the preconditioner grows without bound (`C67_diverges`, witness `C67_blow_up`: inputs 10 and 20, `lr_cov = 1/10`).
    With `normalize_lr_cov` and `lr_cov ≤ 1/(9 n + 4)` it converges to the best preconditioner whatever the data (`C67_converges`).
26. **The documented minimum for a new structure is not enough** (`base.py:20-38`: `to_dense`, `from_dense`, registered tensors). `mul_` and `add_` change the
    registered tensors, so they are right only if `to_dense` is linear in them, and `infinity_vector_norm` needs entries of the tensors to be entries of the
    matrix: `C68_minimum_false` (a diagonal matrix stored as scale and vector: doubling gives four times the matrix). `from_dense` is documented
    for symmetric matrices, but `@`, `+`, `*` and `diag_add_` call it with any matrix of the structure and need the round trip (`C68_contract_iff`).
27. **Rounding can turn the applied direction uphill** (`optimizer.py:692-713`). For diagonal factors it cannot (`C70_diagonal_descent`, all floating point types);
    for dense ones it can at every precision if `CᵀGK` suffers from cancellation (`C70_ascent`; `C70_ascent_bfloat16` with round-to-nearest and
    sequential sums). `C70_descent` bounds the cancellation that is harmless. Libraries that accumulate in a wider type need more extreme factors.
28. **Rounding can make a dense factor singular** (`optimizer.py:545-546`): `C71_rounded_singular` (`bfloat16`, round to nearest, nilpotent momentum, so the exact
    result is invertible for every rate). Diagonal and triangular structures are safe with `normalize_lr_cov` and `lr_cov` a little below 1
    (`C71_rounded_triangular`). Nothing in the code checks `lr_cov` against the bound `1/b` of C71, at which factors can become singular even with exact
    arithmetic (`C71_limit`, `C71_limit_dense`).
29. **Moving the model after constructing the optimizer breaks it** (`optimizer.py:268-280`): groups are looked up by `module.weight.data_ptr()` in a map made at
    construction. `model.to(...)`, `model.half()` and `p.data = ...` keep the parameter objects (which `torch.optim` relies on) but change addresses: the next forward pass raises
    `KeyError` (`C75_unknown`), or, if an old address is reused by another layer's weight, hyper-parameters of the wrong group are used silently
    (`C75_swapped`; exact condition: `C75_moves`). Distinct weights that begin at the same address are confused already by the constructor
    (`C75_construct`, `C75_shared_address`). `Dt.C50_conversions` is about types only and assumes that the lookup succeeds.
30. **`load_state_dict` leaves factors where the checkpoint was read** (`optimizer.py:881-895`): torch moves the momentum buffers to the parameters' devices, the entries
    `Ks, Cs, m_Ks, m_Cs, H_Ks, H_Cs` are only assigned. A checkpoint read with `map_location="cpu"`, the usual way, is accepted and the next backward pass on a GPU raises
    (`Dv.C79_cpu_false`; exact condition: `Dv.C79_map_location`, `Dv.C79_exact`). A bias on another device than its weight is accepted by the constructor and makes every step
    raise (`Dv.C79_bias_false`, `Dv.C79_stuck`).
31. **`zero_grad()` does not discard a batch** (`optimizer.py:578-635`): the statistics `H_Ks`, `H_Cs` are filled by the backward pass and only emptied by an update or by a
    step skipped for infinite gradients. The common pattern "if the loss or the gradient is not finite: `optimizer.zero_grad(); continue`" leaves the bad batch in the
    statistics, from where it enters the factors at the next update (`C80_zero_grad`, `C80_discard_false`; skipped steps: `C80_skip_discards`).

32. **Collectives are matched by position only** (`base.py:253-262`, `optimizer.py:621-626, 714-719`): the hooks communicate from within the backward pass, in the order in which
    autograd runs them. If this order differs between ranks (control flow that depends on the data), ranks average statistics of different layers; with equal shapes nothing is
    raised, and the ranks' preconditioners differ from then on (`C81_mispaired_false`). If a rank does not use a layer, or skips a step the others do not skip, the ranks hang
    (`C81_deadlock`, `C81_calls`). In all other cases the schedule does not matter (`C81_unique_end`, `C81_exact`).

33. **Hooks keep a reference to the layer's input and read it in the backward pass** (`optimizer.py:575, 598`): an input that is overwritten in place in between (`x += ...`, an activation with
    `inplace=True` applied to a tensor that is also the input of another layer) yields statistics of an input the layer never saw. `inputs[0].data` evades autograd's version check; autograd itself raises only
    after the hook has accumulated, and only if the weight requires a gradient. `C82_overwritten_false` is a witness; `C82_undisturbed` says no other write matters. The in-place division
    `x.div_(scale)` (`utils.py:176`) is harmless because the result of `unfold`, `einsum` or `cat` is new; the same line in `linear_process_input` would overwrite the layer's input
    (`C82_process_input` fails for this variant).

34. Two losses that share a graph may be backpropagated together or one after the other (`retain_graph=True`). The gradients of the parameters are the same, the statistics
    are not: the tensor hook (`optimizer.py:574-576`) fires once per backward pass and adds the input to `H_K` every time, and the products of the gradients of
    different losses are missing from `H_C` (`C86_statistics`). With the default rule equal parts of one loss make up for this (`C86_shares`), other losses, and even equal parts
    with `kfac_like`, do not (`C86_false`). Activation checkpointing is harmless (`C85_checkpointing`).

35. `DenseMatrix.from_dense`, the last block of block-diagonal and the blocks `A` and `E` of hierarchical matrices are views of the argument (`C58_from_dense_shares`), even where
    they are empty. Matrices of recursive templates are always made with `from_dense`, so each of them keeps a whole `n × n` matrix in memory as long as such a class occurs
    inside (`C88_held`). `TriuTopLeftDiagonalMatrix` and the three similar classes store `2 n - 1` numbers and hold `n² + 2 (n - 1)`: more than a dense matrix (`C88_no_saving`),
    for factors, momenta and statistics alike (`C88_training`). A `.clone()` of the blocks in `from_dense` would avoid this. Their constructor also calls `to_dense()` of both
    blocks for the shapes only (`recursive.py:168, 306`). Toeplitz classes hold what they store but make an `n × n` matrix in every backward pass (`C88_objects`).

36. One NaN in the inputs or output gradients of a layer destroys the layer for good with `kfac_like=False` (`C89_default`, `C89_permanent`): the trace of the statistics multiplies the whole update
    of the other factor. Only a `GradScaler` that finds NaN in the gradients prevents this (`C89_skip`); it looks at `.grad`, not at statistics, so a bad batch that is discarded with `zero_grad` (no
    `step`) still enters the statistics and destroys the layer at the next update. `normalize_lr_cov` does not protect: `max(1.0, nan)` is `1.0`. With `kfac_like=True` and diagonal or block-diagonal
    factors only the columns and rows that belong to the NaN are lost (`C89_kfac_exact`).

37. A constructor that raises after `_install_hooks` (`optimizer.py:241`) poisons the model (`C91_failed`). The checks before do not look at names of structures, nor whether a bias is handed over
    without its weight; `_initialize_buffers` raises `KeyError` then (`C91_raises`), and the forward hooks stay on all layers, with references to an optimizer that the user cannot reach (`hook_handles`
    is lost with it) and that has no `_grad_scales`. After correcting the call (in a notebook, say) and constructing the optimizer again, each backward pass raises `KeyError` or `AttributeError` from
    the first one's hooks; with a bias only, even forward passes in evaluation do. Creating the buffers before installing the hooks would avoid this. Likewise nothing removes the hooks of an
    optimizer that is no longer used; these do no harm except that they go on computing statistics (`C91_abandoned`).

38. No check refuses `T = 0`, `init_grad_scale = 0` or a negative scale (`C72_period`, `C72_zero_scale`, `C72_negative_scale`). They surface later as a bare `ZeroDivisionError` (`% 0` in the forward hook and in
    `_update_preconditioner`; `/ grad_scale**2`) or `ValueError` (`sqrt`), after layers before the failing one have been updated and, for a zero scale, the statistics of the failing one dropped.

39. Gradient clipping via `GradScaler.unscale_`, which the comment at `optimizer.py:754-756` has in mind, does not work. After `unscale_`, `scaler.step` sets `grad_scale = None` and `step` calls `None.item()`:
    `AttributeError`, also if infs were found (`C92_unscale_raises`). As the comment suggests, the user can set the scale with `set_current_grad_scale`, but then one number serves two purposes: the gradients are
    divided by it (so it should be 1, as they are unscaled already) and the statistics by its square (so it should be the scaler's scale). It is right in steps without an update of the factors (`C92_explicit_between`) and
    never in update steps (`C92_explicit_wrong`; with `normalize_lr_cov`, by chance: `C92_explicit_normalized`). What works is to clip the scaled gradients with a threshold multiplied by the scale. In `docs/examples/example_04_advanced.py`, each optimizer has its own scaler and the
    loss is scaled by the first ("THEY NEED TO BE IDENTICAL!"); they are identical only until one finds infs that the other does not (`C92_two_scalers`). The example also schedules `singd` twice and `adamw` never
    (line 135), which is not modelled.

40. Statistics overflow before gradients do, unnoticed by the `GradScaler`. `H_C` is computed from gradients divided by `sqrt(prev_grad_scale)` only, so its entries are of the size `S v^2` for a scale `S` and a processed
    output gradient `v` (multiplied by the batch size), the scaler watches `S v`. For `v > 1` there are scales at which the gradients are representable and the statistics are not; the scaler raises its scale
    until gradients overflow, so it passes them. The step is taken, and the factor and all parameters of the layer are infinite or NaN for good (`C97_unnoticed`, `C97_permanent`); with INGD's rule the other factor,
    too (`C97_trace`). `normalize_lr_cov` does not prevent this (`C97_normalized`).

41. `normalize_lr_cov` can hide an overflow. If one entry of the momentum of a factor overflows, the norm is infinite and the update of the whole factor is divided by infinity: the overflowed entry becomes NaN, the
    other entries silently keep their old values (`C98_normalize_false`, with
    computed norms `C98_computed_norms_false`). This needs an infinite value or NaN among the momenta whose norm is taken (`C98_computed_norms`); an infinite norm stops the factor (`C98_stalled`), a NaN norm does not normalise (`C98_not_normalized`). Without
    `normalize_lr_cov`, whatever is a number after an overflow is right (`C98_never_silent`).

42. A loss scale can keep gradients representable and lose their curvature: statistics are of the size `S v^2`, gradients of the size `S v` (`C99_lost_curvature`). The effect on a factor is of the size of the smallest
    number unless the scale is as small (`C99_small_error`).

43. `infinity_vector_norm` overlooks NaN and infinities: Python's `max` over tensors keeps its first value unless a later one compares larger. A NaN in the first tensor hides all other entries (and counts as norm 1), a
    NaN in a later tensor hides that tensor only (`C100_norm`, `C100_position_false`, `C100_infinity_false`).

Observed while reading, without a theorem: `supported_eye` looks up `kwargs.get("device", cpu)`, but the `eye` methods always pass `device`, by default `None`, so its
`bfloat16` fallback on the CPU is only reached if the device is given explicitly (as the optimizer does); `lr_cov` schedules are evaluated twice per layer and update; a constructor that fails after `_install_hooks` leaves its hooks on
the model; the docstring's "positive" differs from the check "not negative"; the averaged gradient `nat_grad` passed to
`dist.all_reduce` may be non-contiguous for dense `K` and diagonal `C`.

## 5. Status

`MANIFEST.json` gives the status and the theorems of each property. `partial` has two meanings there, told apart in the notes:
the property is false of the code, in which case the theorem suffixed `_partial` (or an "if and only if") describes where it holds and a
`_false` theorem refutes the rest; or a clause is outside the model.

## 6. Testing the theorems

`seeded/LOG.jsonl` lists wrong programs: edits of the model as a bug would make them, with the theorems that stopped
proving, and theorems tightened as a consequence.

Edits that survived and for which no theorem was tightened (the model is trusted by reading alone there):

- `initWarns`: `zeros` called also without factor momentum. `C66_constructed` covers only classes that never warn.
- `Dt.promote`: the promotion of `float16` with `bfloat16`.
- `Dt.blockMatmul`: the type of the last block, when it differs from that of the other blocks.
- Edits outside every stated property: the kind of some exceptions, sizes of temporaries within the bounds of C88, defaults that are never
  read, the meaning of `Amp.params`, and a second `step` in `Amp.aexec`. The lines of the log with empty `theorems_failed` and
  `theorems_tightened` list them.
