{"id": "C01", "title": "Quantized codes always fit the signed n-bit range", "statement": "Affine quantization of any finite value with a non-zero scale produces an integer code c with -2^(n-1) <= c <= 2^(n-1)-1; no input, scale, offset or bit-width yields a code outside the n-bit signed range or a non-integer code.", "quantifier": "every data value, every non-zero scale, every offset (or none), every bit-width n >= 1", "why_tests_cant": "the value domain is unbounded; rounding ties, saturation edges and offsets interact at points a sampled test does not hit", "anchors": ["src/fastforward/quantization/_quantizer_impl.py: quantize_by_tile_impl", "src/fastforward/quantization/affine/range.py: integer_minimum, integer_maximum"]}
{"id": "C02", "title": "Quantize-dequantize error is at most half a step inside the range and saturates outside", "statement": "For a positive scale, dequantizing a quantized value differs from the value by at most scale/2 whenever the value lies between the values of the two extreme codes, and equals the value of the nearest extreme code whenever it lies outside. (The reported quantization range is exactly those two values when the offset is an integer; otherwise the quantizer rounds the offset and the reported range does not, so the two differ by at most scale/2.)", "quantifier": "every value, every positive scale, every offset, every n >= 1", "why_tests_cant": "a bound over a continuum of values; the extremal error is attained only at rounding ties", "anchors": ["src/fastforward/quantization/_quantizer_impl.py: quantize_by_tile_impl, dequantize_by_tile_impl", "src/fastforward/quantization/affine/range.py: quantization_range"]}
{"id": "C03", "title": "Quantize-dequantize is idempotent", "statement": "Quantizing the dequantized value of a code with the same parameters returns the same code; hence quantize-dequantize applied twice equals once (weights stored as QDQ values are fixed points of their quantizer).", "quantifier": "every code in range, every non-zero scale, every offset, every n >= 1", "why_tests_cant": "must hold for each code of each bit-width with each parameter pair", "anchors": ["src/fastforward/quantization/_quantizer_impl.py: quantize_by_tile_impl, dequantize_by_tile_impl", "src/fastforward/quantization/fuse.py: fuse_qdq_weights"]}
{"id": "C04", "title": "Quantization preserves order", "statement": "With a positive scale a larger value never receives a smaller code, and comparing codes agrees with comparing dequantized values; with a negative scale (reachable by multiplying a quantized tensor by a negative scalar) the order of codes is reversed with respect to the order of values, so operations that order raw codes (topk) must not be applied there.", "quantifier": "every pair of values and codes, every non-zero scale, every offset and bit-width", "why_tests_cant": "two-point property over a continuum, and the negative-scale case is only reachable through a composition of operations", "anchors": ["src/fastforward/quantization/_quantizer_impl.py: quantize_by_tile_impl", "src/fastforward/quantization/_linear_quantized_ops.py: topk, scalar_multiply"]}
{"id": "C05", "title": "Setting an asymmetric range and reading it back", "statement": "Setting the quantization range of an asymmetric quantizer to (min,max) with max-min large enough that no epsilon clamp applies and reading it back gives exactly (min,max) in exact arithmetic; when the clamp applies the range read back starts at min and contains max.", "quantifier": "every min <= max, every n >= 1, every positive epsilon", "why_tests_cant": "real-valued parameters; the clamped branch is reached only near degenerate ranges", "anchors": ["src/fastforward/quantization/affine/range.py: parameters_for_range, quantization_range", "src/fastforward/nn/linear_quantizer.py: LinearQuantizer.quantization_range"]}
{"id": "C06", "title": "Symmetric range setting yields a finite positive scale, zero offset and a covering range", "statement": "Setting a symmetric range gives offset zero, a strictly positive finite scale, a range that contains [min,max], and no smaller scale would contain it; in particular an all-zero tensor still gets a usable (finite, non-zero) scale.", "quantifier": "every min <= max (including min = max = 0), every n >= 1, one-sided allowed or not", "why_tests_cant": "degenerate ranges (all-zero tensors or channels) and n = 1 are isolated points of the input space", "anchors": ["src/fastforward/quantization/affine/range.py: parameters_for_range"]}
{"id": "C07", "title": "Dynamic asymmetric quantization reconstructs every element within half a step", "statement": "Dynamically quantizing a non-empty tile asymmetrically and dequantizing it reconstructs every element within scale/2 although the offset is rounded to an integer and codes are clamped.", "quantifier": "every non-empty finite tile, every n >= 1, every positive epsilon", "why_tests_cant": "the rounded offset shifts the grid, so the extreme elements are exactly the ones clamped; needs a proof over all tiles", "anchors": ["src/fastforward/quantization/_quantizer_impl.py: quantize_dynamic_by_tile_impl", "src/fastforward/quantization/affine/range.py: parameters_for_range"]}
{"id": "C08", "title": "Tiling is a lossless rearrangement and each row is exactly one tile", "statement": "Splitting a tensor into rows of tiles and reassembling it returns the original tensor, and the element at any multi-index i lands in the row of its own tile and at the column of its own in-tile position; two elements share a row iff they are in the same tile.", "quantifier": "every tensor rank and shape, every tile size whose entries divide the shape, every element", "why_tests_cant": "rank and extents are unbounded; permutation errors can cancel on small or square shapes", "anchors": ["src/fastforward/quantization/tiled_tensor.py: tiles_to_rows, rows_to_tiles, _interleave, check_tile_compatibility"]}
{"id": "C09", "title": "Tiled quantization is element-wise quantization with the parameters of the element's tile", "statement": "Quantizing a tensor by tile gives at every position the scalar quantization of that element with the scale and offset of its own tile, and dequantization likewise; for per-channel granularity the parameter used at an element depends only on its channel coordinate, for per-block on its block coordinate.", "quantifier": "every rank, shape, tile size, position, scale and offset vector of the right length", "why_tests_cant": "which parameter an element sees is an index computation over unbounded shapes", "anchors": ["src/fastforward/quantization/_quantizer_impl.py: quantize_by_tile_impl, dequantize_by_tile_impl", "src/fastforward/quantization/granularity.py: PerChannel.tile_size, PerBlock.tile_size"]}
{"id": "C10", "title": "Granularity accepts exactly the compatible shapes, sizes its parameters by the number of tiles and is recoverable from sizes", "statement": "A block/channel granularity yields a tile size that divides the data shape (or reports an error exactly when a block exceeds or, in strict mode, does not divide its dimension); the parameter count equals the number of tiles; inferring a granularity from (data shape, tile size) yields one whose tile size is that tile size again whenever the tile divides the data.", "quantifier": "every shape of positive extents, every block/channel configuration, every tile size", "why_tests_cant": "combinatorial space of shapes and dimension sets", "anchors": ["src/fastforward/quantization/granularity.py: PerChannel, PerBlock, PerTile, Granularity.parameter_dimensionality, granularity_from_sizes"]}
{"id": "C11", "title": "Granularity equality implies equal tiling", "statement": "Two granularity objects that compare equal induce the same tile size on every data shape.", "quantifier": "every pair of granularities, every data shape", "why_tests_cant": "a universally quantified implication over pairs; the failing pairs need two distinct block granularities", "anchors": ["src/fastforward/quantization/granularity.py: Granularity.__eq__, PerBlock"]}
{"id": "C12", "title": "An accepted storage dtype represents every n-bit code exactly", "statement": "If quantization to n bits with output dtype d is accepted, every code in [-2^(n-1), 2^(n-1)-1] is exactly representable in d (floating or integer); if it is rejected for a floating dtype, some code is not representable.", "quantifier": "every dtype, every bit-width, every code", "why_tests_cant": "the claim ranges over all codes of all widths; the failing widths are two above the integer dtype's width", "anchors": ["src/fastforward/quantization/_quantizer_impl.py: can_support_bitwidth"]}
{"id": "C13", "title": "Quantizer gradients follow the straight-through rule", "statement": "The input gradient equals the output gradient exactly where the value is not clipped and zero where it is; the scale gradient and offset gradient equal the derivatives of the dequantized value with rounding residue held constant (clipped and unclipped cases), summed per tile; dequantization passes gradients unchanged.", "quantifier": "every value, gradient, positive scale, offset, n >= 1, every tile", "why_tests_cant": "piecewise formula over a continuum with three regions", "anchors": ["src/fastforward/quantization/_quantizer_impl.py: quant_dequant_by_tile_grad_impl", "src/fastforward/quantization/affine/_autograd.py: DequantizeAffine.backward"]}
{"id": "C14", "title": "Scaling a quantized tensor scales its value", "statement": "Multiplying an affine quantized tensor by a scalar yields a quantized tensor whose dequantized value is the original dequantized value multiplied by the scalar, with codes untouched.", "quantifier": "every tensor, every scale/offset vector, every scalar", "why_tests_cant": "over all parameter vectors and scalars", "anchors": ["src/fastforward/quantization/_linear_quantized_ops.py: scalar_multiply"]}
{"id": "C15", "title": "Concatenating quantized tensors equals concatenating their values", "statement": "Whenever concatenation of quantized tensors is kept quantized, dequantizing the result equals concatenating the dequantized inputs.", "quantifier": "every list of per-tensor quantized inputs with any scales/offsets (including absent offsets)", "why_tests_cant": "depends on a predicate over all pairs of inputs, including absent/present offset combinations", "anchors": ["src/fastforward/quantization/_linear_quantized_ops.py: cat_predicate, cat"]}
{"id": "C16", "title": "Shape operations on per-channel quantized tensors keep parameters attached to their channels", "statement": "unsqueeze and indexing of a per-channel quantized tensor, whenever they stay quantized, return a tensor whose dequantized value is the same shape operation applied to the dequantized value (channel axes shifted consistently).", "quantifier": "every rank, channel axes, inserted dimension and index", "why_tests_cant": "axis arithmetic over unbounded rank; most single-channel examples mask mistakes", "anchors": ["src/fastforward/quantization/_linear_quantized_ops.py: unsqueeze, getitem_per_channel"]}
{"id": "C17", "title": "Topological order is a valid, complete linearisation and cycles are rejected", "statement": "Sorting the nodes of a computation graph returns each node exactly once with every dependency before its dependents, and raises an error exactly when the requested nodes contain a dependency cycle (or are not closed under dependencies).", "quantifier": "every finite dependency graph", "why_tests_cant": "all graphs of all sizes", "anchors": ["src/fastforward/_orchestration/graph_module.py: topological_sort"]}
{"id": "C18", "title": "Cycle reporting is sound and complete", "statement": "The cycle finder returns a genuine dependency cycle whenever one exists and nothing when the graph is acyclic.", "quantifier": "every finite dependency graph", "why_tests_cant": "all graphs; depth-first search with colouring is only correct by an invariant", "anchors": ["src/fastforward/_orchestration/graph_module.py: find_cycle"]}
{"id": "C19", "title": "Ancestor sets are exact reachability", "statement": "The ancestors of a node are exactly the nodes reachable by one or more dependency steps (respecting the stop set and the strict flag).", "quantifier": "every finite graph, every node and stop set", "why_tests_cant": "reachability is an inductive notion over unbounded paths", "anchors": ["src/fastforward/_orchestration/graph_module.py: ancestors", "src/fastforward/_orchestration/scheduler.py: _ancestors_of"]}
{"id": "C20", "title": "Scheduled execution computes the graph's denotation", "statement": "Running the scheduled program of a graph module on any inputs returns exactly what evaluating each node once on the values of its inputs in dependency order returns, and never fails with a missing activation.", "quantifier": "every acyclic graph, every choice of node functions, every input, every batch count", "why_tests_cant": "a refinement over all programs produced by the scheduler, including attribute references and constants", "anchors": ["src/fastforward/_orchestration/instruction_engine.py: InstructionScheduler, InstructionProgram.run_instructions, CallModule, StoreValue, LoadAttribute, ReturnOutputs", "src/fastforward/_orchestration/graph_module.py: GraphModule.forward"]}
{"id": "C21", "title": "Activation lifetime management never changes results", "statement": "Inserting deletions of activations after their last use leaves the outcome of every program (returned value or error) unchanged, and after each instruction only activations that a later instruction still needs, or that the engine keeps on purpose, are retained.", "quantifier": "every instruction program and every input register", "why_tests_cant": "use-after-delete depends on the global order of uses of aliases in arbitrary programs", "anchors": ["src/fastforward/_orchestration/instruction_engine.py: lifetime_management_pass, DeleteRegisterEntries"]}
{"id": "C22", "title": "Optimization-only execution runs the same optimizations on the same activations", "statement": "Pruning a program to what its optimization steps need performs exactly the same sequence of optimization calls with the same activations as the full program.", "quantifier": "every scheduled program", "why_tests_cant": "backward liveness over arbitrary programs", "anchors": ["src/fastforward/_orchestration/instruction_engine.py: optimization_only_pass"]}
{"id": "C23", "title": "Offloaded execution computes the same results with every module and input on the compute device", "statement": "With offloading enabled, each module is on the compute device whenever it runs, each activation it consumes is on the compute device, results are unchanged, and all modules end on their original device.", "quantifier": "every program, every set of modules and devices", "why_tests_cant": "move elimination peepholes interact with adjacent instructions in arbitrary programs", "anchors": ["src/fastforward/_orchestration/instruction_engine.py: _weight_offloading_pass, _activation_offloading_pass, _offloading_pass, _cancel_module_round_trips, _cancel_redundant_activation_moves"]}
{"id": "C24", "title": "Graph inputs bind like a Python call", "statement": "Passing positional and keyword inputs to a graph module binds each declared input exactly once or raises TypeError: too many positionals, unknown keyword, doubly supplied or missing inputs are all and the only rejected calls.", "quantifier": "every input signature and every argument list", "why_tests_cant": "all combinations of positional and keyword arguments", "anchors": ["src/fastforward/_orchestration/instruction_engine.py: InstructionProgram.prepare_input_register"]}
{"id": "C25", "title": "Activation broadcasting aligns batches or fails", "statement": "Combining activations of several inputs aligns them batch by batch; length-1 activations are repeated to the common length; distinct lengths other than 1 raise an error and no batch is dropped or duplicated.", "quantifier": "every list of activation lists", "why_tests_cant": "all length combinations including zero and one", "anchors": ["src/fastforward/_orchestration/instruction_engine.py: ActivationDataset.broadcast, ActivationDataset.merge, ActivationBundle"]}
{"id": "C26", "title": "Inlining a subgraph preserves meaning", "statement": "Adding a graph as a subgraph of another computes, for the outputs it returns, the same values as calling the subgraph as a single node on the mapped inputs.", "quantifier": "every pair of graphs and every input mapping", "why_tests_cant": "renaming of references across arbitrary graphs", "anchors": ["src/fastforward/_orchestration/graph_module.py: GraphModule.add_subgraph, remap_subgraph_reference, create_subgraph"]}
{"id": "C27", "title": "Temporarily swapped module behaviour is always restored", "statement": "After the graph execution context or an algorithm-registry override exits, normally or by an exception, the previous module forward/registry entry is in force again, for arbitrarily nested uses.", "quantifier": "every nesting and every exception point", "why_tests_cant": "exception points and nestings are unbounded", "anchors": ["src/fastforward/orchestration.py: _GraphExecutionContext", "src/fastforward/_orchestration/registry.py: _AlgorithmRegistry.override"]}
{"id": "C28", "title": "Dispatch picks the most recently registered matching kernel of the best priority", "statement": "For any history of registrations and removals, dispatching returns the most recently registered still-registered kernel whose predicate accepts the arguments, among those of the lowest priority class having a match, and nothing when none matches.", "quantifier": "every registration/removal history, every predicate, every argument", "why_tests_cant": "all histories", "anchors": ["src/fastforward/dispatcher.py: _register_functional, dispatch, DispatcherPriority"]}
{"id": "C29", "title": "Temporary kernel registration is undone on exit", "statement": "Leaving a temporary kernel registration restores the dispatch outcome for all arguments to what it was before, regardless of nesting order.", "quantifier": "every history of nested registrations", "why_tests_cant": "removal is by equality, so duplicates and interleavings matter", "anchors": ["src/fastforward/dispatcher.py: register, _DispatcherRegistrationHook"]}
{"id": "C30", "title": "Global flags are scoped", "statement": "After any nesting of flag contexts exits, normally or through exceptions, each flag (strict quantization, export mode, compiled kernels, attention fallback) has its value from before, and inside a context the innermost setting is in force.", "quantifier": "every nested sequence of enters and exits", "why_tests_cant": "unbounded nesting and exception points", "anchors": ["src/fastforward/flags.py: _context_flag, context"]}
{"id": "C31", "title": "Per-module strictness does not leak", "statement": "Attaching strict/non-strict handles to modules changes the strict flag only while a forward of that module runs; after the outermost forward returns or raises, the global flag has its previous value.", "quantifier": "every module tree, every nesting of handles, every exception point, re-entrant modules", "why_tests_cant": "hook order, re-entrancy and exceptions are combinatorial", "anchors": ["src/fastforward/quantization/strict_quantization.py: ModuleStrictQuantHandle, strict_quantization_for_module"]}
{"id": "C32", "title": "Overrides wrap in registration order and removal restores", "statement": "Calling a quantizer with registered overrides runs them with the most recently registered outermost, each override's continuation runs exactly the remaining ones (however often it is called), and removing an override makes calls behave as if it had never been registered.", "quantifier": "every set of overrides, every order of removal, every number of continuation calls", "why_tests_cant": "continuations are arbitrary functions", "anchors": ["src/fastforward/forward_override.py: OverrideHandle, _WrappedOverriddenFn, apply_overrides"]}
{"id": "C33", "title": "Disabling and re-enabling quantization is exact and scoped", "statement": "Inside disable-quantization every quantizer of the model returns dequantized input unchanged, outside the contexts (also after exceptions) behaviour is as before, and enable inside disable re-activates quantization only within its block.", "quantifier": "every nesting of enable/disable contexts and every exception point", "why_tests_cant": "unbounded nesting", "anchors": ["src/fastforward/overrides.py: disable_quantization, enable_quantization, DisableQuantizationOverride"]}
{"id": "C34", "title": "Module queries return exactly the modules whose path matches", "statement": "Searching a module tree with a selector (names, wildcards *, **, regexes, classes, conjunctions) returns exactly the non-root modules reachable from the root by a chain of named_children steps whose sequence of names and modules is in the selector's path language, each module once and under a path that really leads to it.", "quantifier": "every module tree/graph, every plain selector", "why_tests_cant": "recursive patterns over unbounded trees", "anchors": ["src/fastforward/mpath/_search.py: search", "src/fastforward/mpath/selector.py: Selector", "src/fastforward/mpath/fragments.py"]}
{"id": "C35", "title": "Alternatives in module queries mean union", "statement": "A selector with alternatives {a,b} matches exactly the union of what the selectors with each alternative substituted match.", "quantifier": "every selector with alternatives, every module tree", "why_tests_cant": "alternatives containing ** or nested paths interact with matching state", "anchors": ["src/fastforward/mpath/selector.py: MultiSelector, simplify", "src/fastforward/mpath/_search.py: search"]}
{"id": "C36", "title": "Query strings parse to what they denote", "statement": "Writing a selector down as a query string (any blanks between the parts, optional slash at either end, text in brackets with ] escaped) and parsing it returns the same selector; a string is accepted exactly when it follows the query grammar, everything else is rejected.", "quantifier": "every selector, every query string, every set of aliases and extensions", "why_tests_cant": "strings with separators and escapes are unbounded", "anchors": ["src/fastforward/mpath/_parser.py: Parser, tokenizer"]}
{"id": "C37", "title": "Result collections behave as sets", "statement": "Union, intersection, difference and symmetric difference of query results over the same root contain exactly the modules the set operation prescribes, without duplicates; mixing roots is rejected.", "quantifier": "every pair of result collections", "why_tests_cant": "all pairs of collections", "anchors": ["src/fastforward/mpath/_search.py: MPathCollection"]}
{"id": "C38", "title": "Quantization rules apply by specificity then recency", "statement": "Initializing quantizers from a configuration replaces each matched quantizer, at the place where the winning rule found it, by the product of one call of that rule's factory; the winning rule is the one with the highest precedence score, ties going to the rule added last. Already initialized quantizers are replaced, kept or refused as the overwrite policy says; nothing else in the model changes.", "quantifier": "every list of rules, every matching relation", "why_tests_cant": "all rule lists and ties", "anchors": ["src/fastforward/quantization/quant_init.py: QuantizationConfig.add_rule, QuantizationConfig.initialize, precedence_score"]}
{"id": "C39", "title": "Tag matching follows the hierarchy", "statement": "A quantizer tag query matches a quantizer iff one of its tags equals the query tag or descends from it in the tag hierarchy; tags are interned (equal paths give the same tag).", "quantifier": "every tag path and every set of tags", "why_tests_cant": "unbounded hierarchy depth", "anchors": ["src/fastforward/nn/quantizer.py: Tag, QuantizerMetadata", "src/fastforward/quantization/quant_init.py: QuantizerTagSelectorFragment"]}
{"id": "C40", "title": "Shared tensors survive save and load", "statement": "Deduplicating shared tensors when saving and expanding them when loading gives every original key a tensor equal to the original one, and stores each distinct storage once.", "quantifier": "every state dictionary and sharing pattern", "why_tests_cant": "arbitrary sharing patterns including views", "anchors": ["src/fastforward/quantization/save_load.py: _deduplicate_shared_tensors, _expand_shared_tensors"]}
{"id": "C41", "title": "Quantizer state round-trips through save and load", "statement": "Every quantizer configuration that can be saved can be loaded, and the loaded quantizers have the same parameters, including uninitialised (lazy) ones and quantizers shared between several names.", "quantifier": "every set of quantizers and names", "why_tests_cant": "metadata encoding over arbitrary names and parameter sets", "anchors": ["src/fastforward/quantization/save_load.py: _collect_quantizer_state, save_quantization_state, _load_quantizer_state_from_files"]}
{"id": "C42", "title": "Loading is checked before it is applied", "statement": "Loading a state with missing or unexpected entries raises an error and leaves the model unchanged.", "quantifier": "every mismatch between state and model", "why_tests_cant": "all mismatch patterns", "anchors": ["src/fastforward/quantization/save_load.py: load_quantization_state, load_quantized_model"]}
{"id": "C43", "title": "Recorded constructor arguments rebuild the object", "statement": "An object of a serializable class is dumped with the arguments of the outermost constructor call that created it and loading calls the same class with equal arguments, for arbitrary inheritance depth.", "quantifier": "every class hierarchy and argument tuple", "why_tests_cant": "unbounded inheritance depth with overridden and inherited constructors", "anchors": ["src/fastforward/serialization.py: yamlable, _wrap, _constructor"]}
{"id": "C44", "title": "Running min-max equals the min and max over everything seen", "statement": "After any sequence of batches, the running min-max estimator's range is the element-wise minimum and maximum of the initial range and all batches, independent of batching; the smoothed estimator's range stays within the hull of the batch extremes.", "quantifier": "every sequence of batches and initial range, every smoothing factor in [0,1]", "why_tests_cant": "unbounded sequences", "anchors": ["src/fastforward/range_setting/minmax.py: RunningMinMaxRangeEstimator, SmoothedMinMaxRangeEstimator"]}
{"id": "C45", "title": "Grid search returns the candidate with the least accumulated error", "statement": "After any sequence of batches the min-error estimator selects, per parameter, a candidate range whose accumulated error is minimal among all candidate ranges.", "quantifier": "every sequence of batches, every number of candidates, symmetric or not", "why_tests_cant": "unbounded sequences; candidate counts that are not perfect squares", "anchors": ["src/fastforward/range_setting/min_error.py: _MinAvgErrorGridEstimator, _UniformSearchGrid"]}
{"id": "C46", "title": "Range estimation leaves no trace of its instrumentation", "statement": "After estimate_ranges exits, normally or by an exception at any point, no estimator override remains on any quantizer.", "quantifier": "every set of quantizers, every exception point including during set-up", "why_tests_cant": "exception points are combinatorial", "anchors": ["src/fastforward/range_setting/common.py: estimate_ranges"]}
{"id": "C47", "title": "Operator argument validation accepts exactly the bindable calls", "statement": "A call to a declared operator is accepted iff each argument binds to exactly one parameter, all parameters without default are bound and no unknown keyword is given.", "quantifier": "every signature and every argument list", "why_tests_cant": "all combinations", "anchors": ["src/fastforward/_quantops/operator.py: Operator.validate_arguments, _bind_partial"]}
{"id": "C48", "title": "Operator lookup returns the latest registrations first and never guesses", "statement": "Looking up a callable or alias returns all operators registered under it, most recent first, and raises KeyError exactly when none was registered; an alias never silently changes owner.", "quantifier": "every registration history", "why_tests_cant": "all histories", "anchors": ["src/fastforward/_quantops/optable.py: OperatorTable"]}
{"id": "C49", "title": "Symbolic type unions form a set algebra", "statement": "Unions of symbolic types are order-insensitive, idempotent, flatten nested unions, and equality is an equivalence relation compatible with membership.", "quantifier": "every symbolic type expression", "why_tests_cant": "recursive expressions of unbounded depth", "anchors": ["src/fastforward/_quantops/symtypes.py: Union, Type"]}
{"id": "C50", "title": "Export stages run in dependency order, each exactly once", "statement": "Building an export pipeline orders all registered stages so that each appears exactly once after all its dependencies; it fails exactly when there is a dependency cycle or an unregistered dependency; executing it passes each stage the results of its declared dependencies in declared order.", "quantifier": "every set of stages and dependency relation", "why_tests_cant": "all graphs", "anchors": ["src/fastforward/export/pipeline/core.py: Pipeline._build_pipeline, _execute_pipeline, StageReference.depends_on"]}
{"id": "C51", "title": "Pipeline edits keep the pipeline runnable and the other stages' inputs unchanged", "statement": "Inserting a stage before or after, replacing a stage and adding a dependency (with the cycle check) keep the pipeline acyclic; replacing a stage feeds every dependent the replacement's result at the same argument position.", "quantifier": "every acyclic pipeline and edit sequence", "why_tests_cant": "edit histories and multi-input stages", "anchors": ["src/fastforward/export/pipeline/core.py: insert_stage_before, insert_stage_after, replace_stage, add_dependency"]}
{"id": "C52", "title": "GGUF blocks decode to the quantized values", "statement": "Decoding the exported Q4_0 or Q8_0 bytes with the documented llama.cpp rule gives for every element exactly scale*code, i.e. the dequantized value of the model's symmetric quantizer.", "quantifier": "every block of codes in range, every scale", "why_tests_cant": "all code vectors; boundary codes and one-sided quantizers", "anchors": ["src/fastforward/export/stages/gguf/_packing.py: pack_q4_0_blocks, pack_q8_0_blocks", "src/fastforward/export/stages/gguf/_extract.py"]}
{"id": "C53", "title": "The RoPE row permutation is a bijection that keeps code/scale pairs together", "statement": "The row index used to reorder Q/K projections is a permutation of all rows that maps row (h,j,k) of the half-split layout to its interleaved position, or an error when the row count is not divisible by twice the head count; every exported row carries its own scales.", "quantifier": "every row count and head count", "why_tests_cant": "all sizes", "anchors": ["src/fastforward/export/stages/gguf/_arch.py: _rope_permute_row_index, _apply_row_permute"]}
{"id": "C54", "title": "LPBQ compression bounds the scale error", "statement": "Compressing positive block scales to integers yields integers in [1, 2^bw] times a positive per-channel scale, the largest scale of each channel is represented exactly, and every block scale is off by at most half (or, below half a step, one) compressed step.", "quantifier": "every matrix of positive scales, every bit-width pair accepted by the constructor", "why_tests_cant": "continuum of scales; clamp at one", "anchors": ["src/fastforward/export/_lpbq.py: LPBQProcessor"]}
{"id": "C55", "title": "Exported encodings describe the same affine map", "statement": "The (scale, offset) of an exported encoding, interpreted by the consumer as scale*(unsigned code + offset), equals the dequantized value of the corresponding signed code, and an encoding is marked symmetric iff all offsets are zero.", "quantifier": "every scale/offset vector and bit-width", "why_tests_cant": "vectors with mixed zero and non-zero offsets", "anchors": ["src/fastforward/export/_export_schemas.py: _preprocess_quantization_params, LegacySchemaHandler, V1SchemaHandler, V2SchemaHandler", "src/fastforward/export/stages/annotations.py: _ff_quantizer_spec"]}
{"id": "C56", "title": "First encoding wins and encodings are never duplicated", "statement": "After adding encodings in any order the exported dictionary contains for each name exactly one entry, the first one added; clearing makes the handler as new.", "quantifier": "every sequence of additions and clears", "why_tests_cant": "unbounded histories", "anchors": ["src/fastforward/export/_export_schemas.py: add_encoding, clear"]}
{"id": "C57", "title": "Tensor name mapping is injective", "statement": "Two different model parameters never map to the same GGUF tensor name within one architecture.", "quantifier": "every pair of parameter names (all layer indices)", "why_tests_cant": "unbounded layer indices", "anchors": ["src/fastforward/export/stages/gguf/_naming.py"]}
{"id": "C58", "title": "Quantization specs spread along view operations only, to a fixpoint", "statement": "Propagation annotates a node iff it is connected through view operations to an annotated node, never overwrites an existing annotation, and terminates.", "quantifier": "every graph and initial annotation", "why_tests_cant": "worklist algorithm over arbitrary graphs", "anchors": ["src/fastforward/export/stages/passes.py: PropagateFFQuantSpecs"]}
{"id": "C59", "title": "Generated quantizer attribute names are unique per scope", "statement": "Disambiguation gives distinct attribute names to distinct quantizers of the same scope.", "quantifier": "every multiset of base names", "why_tests_cant": "collisions arise only between a suffixed and a plain name", "anchors": ["src/fastforward/_autoquant/pybuilder/quantizer_collection.py: disambiguate_all_names"]}
{"id": "C60", "title": "Scoped rewrite rules apply exactly inside their scope", "statement": "A rewrite rule restricted to a dotted scope applies to a node iff that scope is the node's enclosing scope or an ancestor of it; the module-level pre-filter never drops a rule that could apply.", "quantifier": "every scope path, module name and rule", "why_tests_cant": "string-prefix and path-prefix relations differ on isolated names", "anchors": ["src/fastforward/_autoquant/cst/pattern.py: PatternRuleTransformer, _applicable_in_module, _scope_matches"]}
{"id": "C61", "title": "Relative imports resolve like Python's import system", "statement": "Resolving a relative import of level k inside module m names the module Python's import system would import.", "quantifier": "every module path, level and target", "why_tests_cant": "unbounded path depth; packages versus modules; climbing beyond the root", "anchors": ["src/fastforward/_autoquant/pysource/scope.py: _resolve_relative_module_name"]}
{"id": "C62", "title": "Quantization status merging after branches is sound", "statement": "After merging the scopes of two branches, a variable's possible producers are exactly those of the non-terminated branches, and a recorded 'quantized' status is never lost.", "quantifier": "every pair of branch scopes and every sequence of assignments", "why_tests_cant": "all branch structures", "anchors": ["src/fastforward/_autoquant/cst/quantizer_analysis/scope.py: Scope.merge, _Assignments.merge_"]}
{"id": "C63", "title": "GPTQ column quantization equals quantizing the full weight", "statement": "Quantizing one column with the column quantizer gives at each row the value full-matrix quantization with the weight quantizer would give at that position, for every supported granularity.", "quantifier": "every weight shape, granularity, column, row and parameter values", "why_tests_cant": "index arithmetic over all shapes", "anchors": ["src/fastforward/quantization/gptq.py: column_quantizer"]}
{"id": "C64", "title": "GPTQ Hessian accumulation is independent of batching", "statement": "Accumulating activations batch by batch gives exactly (2/N) times the sum of x x^T over all N samples, however the samples are split into batches.", "quantifier": "every sequence of non-empty batches", "why_tests_cant": "unbounded sequences", "anchors": ["src/fastforward/quantization/gptq.py: calculate_hessian"]}
{"id": "C65", "title": "Cache locations of different assets do not collide", "statement": "Two different (namespace, tag) pairs never resolve to the same cache directory and never leave the cache directory.", "quantifier": "every pair of namespace/tag strings", "why_tests_cant": "collisions only between strings with replaced characters", "anchors": ["src/fastforward/cache.py: get_assets_path"]}
{"id": "C66", "title": "Moving elements of a per-tensor quantized tensor commutes with dequantization", "statement": "For a per-tensor quantized tensor, reshaping, transposing, indexing, expanding or any other operation that only moves elements gives a quantized tensor whose dequantized value is the same operation applied to the dequantized input.", "quantifier": "every tensor, shape, scale, offset and every element movement", "why_tests_cant": "unbounded shapes and index expressions", "anchors": ["src/fastforward/quantization/_linear_quantized_ops.py: reshape, transpose, expand, take_along_dim", "src/fastforward/quantized_tensor.py: apply_and_reattach"]}
{"id": "C67", "title": "Top-k of a quantized tensor picks the right elements", "statement": "For a per-tensor quantized tensor, topk returns values and positions that are a correct top-k answer for the dequantized tensor.", "quantifier": "every row of codes, k, direction, scale and offset", "why_tests_cant": "unbounded rows with ties; the failing case needs a negative scale, reachable only through another operation", "anchors": ["src/fastforward/quantization/_linear_quantized_ops.py: topk, scalar_multiply"]}
{"id": "C68", "title": "Bulk replacement touches exactly the collected modules", "statement": "Initializing a quantizer collection, or applying a function to the results of a module query, calls the function once per collected module, puts each returned module in the place of the old one, updates the collection accordingly and changes nothing else; with the safety check on, a module that is no longer in its place makes the call fail.", "quantifier": "every module hierarchy, collection and function", "why_tests_cant": "unbounded collections and arbitrary functions", "anchors": ["src/fastforward/mpath/_search.py: MPathCollection.apply, FilterResult.update_module", "src/fastforward/quantization/quant_init.py: QuantizerCollection.initialize"]}
{"id": "C69", "title": "The uniform search grid is the documented grid and covers the data", "statement": "The candidate ranges of the uniform search grid are evenly spaced fractions of the data range with margins (for a quantizer with offset: all pairs of a scaled lower and a scaled upper bound), and one of the evaluated candidates covers all data of the first batch.", "quantifier": "every batch, number of candidates and margins", "why_tests_cant": "unbounded grids; the failing sizes are the non-square ones", "anchors": ["src/fastforward/range_setting/min_error.py: uniform_search_grid"]}
{"id": "C70", "title": "ONNX QuantizeLinear/DequantizeLinear pairs compute what the quantizer computes", "statement": "For every quantizer accepted by the ONNX QDQ export, the exported pair of nodes gives every element the dequantized value the quantizer gives it: same scale for the element, same codes, same values; unsupported bit-widths are refused, the opset is at least 21 and lowerings supplied by the user are kept.", "quantifier": "every tensor, per-tensor or per-channel tiling, scale, offset, bit-width and user table", "why_tests_cant": "ties, offsets that do not fit the storage type and block tilings are unlikely in examples", "anchors": ["src/fastforward/export/stages/onnx/onnx_qdq_export_stages.py: _make_ff_quantize_by_tile_onnx, _ff_axis_from_tile_size, _with_ff_qdq_lowerings"]}
{"id": "C71", "title": "Turning quantize/dequantize nodes into annotations leaves the float computation", "statement": "After quantization annotation, the exported graph has no quantize or dequantize nodes, every other node is kept in order with each argument replaced by the tensor behind the removed nodes, and a quantized tensor is annotated with the parameters of the (last) quantizer applied to it.", "quantifier": "every graph in topological order", "why_tests_cant": "unbounded graphs and chains of quantizers", "anchors": ["src/fastforward/export/stages/passes.py: AnnotateFFQuantSpecs"]}
{"id": "C72", "title": "Autoquant places a quantizer on every assignment whose value can reach a quantized operand", "statement": "In autoquantized code, whenever an execution of the function uses a variable as an operand that must be quantized, the assignment that produced the value is annotated to be quantized (or the value was quantized already).", "quantifier": "every function body built from assignments, branches, loops, try, break, continue, return and raise, and every execution of it", "why_tests_cant": "paths through loops and exceptional exits are unbounded; the losing cases need a particular nesting", "anchors": ["src/fastforward/_autoquant/cst/quantizer_analysis/annotator.py: QuantizationAnnotationProvider", "src/fastforward/_autoquant/cst/quantizer_analysis/scope.py: Scope"]}
{"id": "C73", "title": "GPTQ in blocks computes the column-by-column recurrence", "statement": "The weights and quantizer parameters left behind by gptq are those of the GPTQ recurrence: columns are quantized one after the other, each corrected for the errors of all columns before it; the block size does not influence the result, and each column is stored at its own place whatever the processing order.", "quantifier": "every weight, block size, column order, granularity, initial parameters and Hessian factor", "why_tests_cant": "unbounded numbers of columns and blocks; the failing case needs groups that begin inside a block", "anchors": ["src/fastforward/quantization/gptq.py: gptq, update_partial_range"]}
{"id": "C74", "title": "Weights stored by GPTQ are exactly representable by the stored quantizer", "statement": "After gptq, quantizing the stored weight with the module's weight quantizer gives back the stored weight.", "quantifier": "every weight, block size, column order, granularity and calibration result", "why_tests_cant": "parameters are updated while columns are being quantized; all interleavings of groups and blocks", "anchors": ["src/fastforward/quantization/gptq.py: gptq"]}
{"id": "C75", "title": "GPTQ leaves the calibration data unchanged", "statement": "Running gptq does not modify the activation tensors of the dataset, so that a second run on the same dataset computes the same Hessian.", "quantifier": "every dataset", "why_tests_cant": "depends on whether reshaping copies, which is decided by type, device and layout", "anchors": ["src/fastforward/quantization/gptq.py: calculate_hessian, _input_flattener"]}
{"id": "C76", "title": "An extracted subgraph computes what its nodes compute in the graph", "statement": "create_subgraph succeeds exactly for sets of nodes of the graph; the new graph has exactly these nodes, one input for each thing they take from outside, and as outputs the graph outputs they produce and the nodes that others use; given the values these inputs stand for, every node and every output has the value it has in the original graph.", "quantifier": "every graph, every set of its nodes, every values of the inputs and every module state", "why_tests_cant": "all graphs and all cuts; the failing cases need equal names or nested attributes", "anchors": ["src/fastforward/_orchestration/graph_module.py: create_subgraph"]}
{"id": "C77", "title": "Batches are processed independently", "statement": "Running a graph module on a list of batches returns, for every batch, what running it on that batch alone returns; and if it has a value for each batch alone it has one for the list.", "quantifier": "every graph, every number of batches, every value of the inputs and every module state", "why_tests_cant": "unbounded numbers of batches and graphs; the failing case needs batches of different kinds", "anchors": ["src/fastforward/_orchestration/instruction_engine.py: InstructionEngine, CallModule, LoadAttribute, ActivationDataset.broadcast", "src/fastforward/_orchestration/graph_module.py: GraphModule.forward"]}
{"id": "C78", "title": "Reducing a graph to coarser pieces keeps what it computes", "statement": "Reducing a graph to the resolution that a list of specifications needs returns a graph with the same inputs and, for every input, the same outputs. Its nodes are the specified modules, one call for each specified path or group of siblings, and the coarsest nodes beside them; every leaf of the original graph is computed by exactly one of them. Each specification's delegate sits on exactly the call of its module, path or group, and no other node has a delegate.", "quantifier": "every graph with any nesting of folds, every list of specifications, every iteration order of sets, every value of the inputs and every module state", "why_tests_cant": "unbounded graphs and nestings; sets iterated in any order; outputs must be equal for every input", "anchors": ["src/fastforward/_orchestration/graph_module.py: reduce_resolution, SubgraphSpec.resolve, node_order, _coarse_complement, _resolve_subgraph_input, _validate_siblings, GraphModule.leaf_nodes, GraphModule.fold_outputs, GraphModule.node_ref"]}
{"id": "C79", "title": "Plans for data flows compute what they read", "statement": "Binding data flows to a node of a graph gives one plan per flow. The plan's nodes are exactly those that what it reads depends on, each once and after all that it uses; the node itself is among them for its output and not for its inputs. The plan reads the arguments of the node, or its result. The plans do not depend on the iteration order of sets, and cyclic graphs, unknown nodes and unknown kinds of flows are refused.", "quantifier": "every graph, node of it and list of flows, every iteration order of sets", "why_tests_cant": "unbounded graphs; the order comes from iterating sets", "anchors": ["src/fastforward/_orchestration/scheduler.py: bind_flows, _ancestors_of, FlowPlan", "src/fastforward/_orchestration/graph_module.py: ancestors, topological_sort"]}
{"id": "C80", "title": "Algorithms run on the modules their target stands for", "statement": "Resolving a registered algorithm gives one region for each module of the model that its target stands for, with the registered algorithm and data flows: for a type its instances, for a query what it matches, for a module itself, for a list their union without repetitions. The last registration counts. Nothing matching raises NoTargetsFound, and malformed targets are refused without changing the registry. Overriding the targets of an algorithm is undone on exit, whether or not the body raises. An optimization with explicit targets runs the algorithm that was passed, with its arguments.", "quantifier": "every model, every nesting of targets, every sequence of registrations and overrides, every body of an override", "why_tests_cant": "targets nest without bound, registrations have unbounded histories and bodies can do anything", "anchors": ["src/fastforward/_orchestration/registry.py: AlgorithmRegistry.register, resolve, override, _normalize_target, selectors", "src/fastforward/orchestration.py: layerwise_optimize"]}
{"id": "C81", "title": "A data flow runs in the context it is declared with", "statement": "A data flow declared with a generator uses that generator; declared with a name it uses the last generator registered under the name, where original, quantized and any are registered from the start, and unknown names are a KeyError; declared with a context manager it runs in that context manager.", "quantifier": "every history of registrations and declarations, every generator, name and context manager", "why_tests_cant": "the table of generators is global and its history is unbounded", "anchors": ["src/fastforward/_orchestration/data_flow.py: FlowGenerator, register_generator, _to_generator, DataFlow"]}
{"id": "C82", "title": "A graph answers each call for the graph as it is built by then", "statement": "However inputs, nodes, subgraphs and outputs are added to a graph and calls are made in between, a call returns the values of the graph's outputs for the arguments of that call: nothing for a graph without outputs, one value for one output of one batch. Earlier calls do not matter.", "quantifier": "every history of adding inputs, nodes, subgraphs and outputs and of calls, every graph, argument and module behaviour", "why_tests_cant": "the prepared program is cached between calls and histories are unbounded", "anchors": ["src/fastforward/_orchestration/graph_module.py: GraphModule.add_input, add_output, add_node, add_subgraph, forward, _prepare_program"]}
{"id": "C83", "title": "The arguments of a graph call reach the inputs they are meant for", "statement": "Calling a graph with one iterable of batches, each a mapping, sequence or record holding a value for every input, gives each input the list of its values, in order of the batches. A value passed by position to a graph with one input has the same effect as passed by keyword. All other calls pass the arguments on.", "quantifier": "every graph, every Python value, every number of batches", "why_tests_cant": "the argument is inspected at run time and may be of any type and length", "anchors": ["src/fastforward/_orchestration/graph_module.py: _sanitize_inputs, GraphModule.forward", "src/fastforward/_orchestration/instruction_engine.py: ActivationDataset.from_value"]}
{"id": "C84", "title": "A traced graph computes what the exported model computes", "statement": "For every exported model, with modules nested to any depth, the graph that tracing builds gives, for all values of the inputs, what the exported program gives: each operation and module is called with the values of its arguments (through tuples, lists, slices and dictionaries), parameters are those of the original model, and the result is put in the return structure of the model. A call of the graph runs and returns that value and changes no module. The inputs of the graph have the names of the parameters of the model. Tracing a module again returns the graph of its first trace.", "quantifier": "all exported graphs (nested modules, argument structures, constants, attributes), all parameter names, all input values, all module semantics, all histories of traces", "why_tests_cant": "The tests trace a handful of small models and compare outputs on one random input; the claim is over all graphs, nestings, argument structures, and values, and over all earlier traces.", "anchors": ["src/fastforward/_orchestration/trace.py: _GraphBuilder, _convert_arg, _convert_args, _handle_call_module, _handle_output, build, _contains_fx_node, _can_call_original, _unmangle_placeholder, trace, _graph_cache", "src/fastforward/_orchestration/graph_module.py: add_node, add_subgraph, add_input, add_output"]}
{"id": "C85", "title": "Preprocessing a function for autoquant keeps what it does", "statement": "Before operators are replaced, autoquant rewrites a function: joined statements are split, augmented assignments are written out, the operations to replace are marked, and each of them that is part of a larger expression is assigned to a temporary before the statement. For every function body, every choice of operations to replace and every meaning of the operations, a call of the rewritten function returns, raises and changes what a call of the original does, in the same order, and leaves the same values in the variables. Afterwards every line is one statement, an operation to replace is the whole value of its statement, none is lost or doubled, and every temporary is assigned in one place.", "quantifier": "all function bodies of assignments, expressions, returns, raises, assertions, conditionals and loops, nested to any depth; all predicates that choose operations; all semantics of operations, values and worlds; all runs", "why_tests_cant": "The tests compare the text of rewritten snippets; whether a rewritten function behaves like the original depends on the order of effects in every expression and on all values, and no test runs both.", "anchors": ["src/fastforward/_autoquant/cst/passes.py: ConvertSemicolonJoinedStatements, ExpandAugAssign, MarkReplacementCandidates, ExtendedMarkReplacementCandidates, IsolateReplacementCandidates", "src/fastforward/_autoquant/autoquant.py: default_preprocessing_passes", "src/fastforward/_autoquant/cst/nodes.py: ReplacementCandidate, is_simple_literal", "src/fastforward/_autoquant/bypass.py: is_bypassed_call_syntax"]}
{"id": "C86", "title": "quantize_model converts every module of a model, or refuses it before changing anything", "statement": "For every model, quantize_model turns each module into the quantized class that the conversion map gives for its class and initializes it for quantization exactly once; modules marked to be skipped, quantizers and everything below a skipped module are as before. If some class has no conversion, the model is refused, the error names exactly the classes without one, and nothing was changed. In no case are children, parameters or other attributes lost. Without recursion only the model itself is converted. Converting a converted model again with quantized modules skipped changes nothing; with surrogates for missing classes conversion succeeds; of several quantized classes for one class the last one defined is used.", "quantifier": "all models (any depth, any sharing of modules), all class hierarchies, all conversion maps, both values of recursive, skip_quantized_modules and ignore_global_module_map", "why_tests_cant": "Whether a conversion is all or nothing depends on the shape of the whole model, in particular on modules that are used twice, and on which classes have conversions; tests convert a few fixed models.", "anchors": ["src/fastforward/nn/quantized_module.py: quantize_model, QuantizedModule.quantize_children, _quantize_module, _check_quantizable, _missing_modules, quantized_module_map, quantized_module_map"]}
{"id": "C87", "title": "A quantizer has the metadata of the place it is put in", "statement": "Whenever a quantizer is assigned to a name of a quantized module, the module and the quantizer refer to the same metadata afterwards: those the module holds for the name, else those of the quantizer, else blank ones. The metadata a module holds for a name stay whatever is assigned later. A warning is given exactly if the metadata of the quantizer do not extend those of the module, where one extends another if it has all its tags and agrees on its attributes. After any program every quantizer in a module has the metadata the module holds for its name.", "quantifier": "all metadata, all programs of initializations, creations of quantizers, added tags and assignments, on any number of modules, names and quantizers", "why_tests_cant": "Metadata are shared objects; whether module and quantizer agree depends on the whole history of assignments, of which tests try a few.", "anchors": ["src/fastforward/nn/quantized_module.py: QuantizedModule.__setattr__, register_quantizer, __init_quantization__", "src/fastforward/nn/quantizer.py: QuantizerMetadata.is_extension, QuantizerMetadata.add_tag, QuantizerStub"]}
{"id": "C88", "title": "Freezing parameters keeps what the model computes", "statement": "A forward pass within freeze_parameters sets every parameter that a quantizer is applied to to its quantized value and, unless asked not to, replaces the quantizer by a stub; parameters that are not quantized, and quantizers that are idle or not called, stay as they are. Forward passes within the context and after it, whatever was frozen, in whatever order, also if a pass was broken off, give the results of the quantized model before. At exit no override remains.", "quantifier": "all models with any number of modules, parameters and quantizers, all forward passes (any sequence of quantizer calls whose inputs depend on earlier results), all histories of freezing and passes, all values and quantizers", "why_tests_cant": "Whether results stay the same depends on which quantizers share parameters, on the order of calls and on what remains registered; the tests freeze single layers in one pass.", "anchors": ["src/fastforward/quantization/freeze.py: freeze_parameters, _FreezeParametersOverride", "src/fastforward/forward_override.py: apply_overrides", "src/fastforward/nn/quantizer.py: Quantizer.forward, register_override"]}
{"id": "C89", "title": "Operator annotation tags quantizers with the operators around them", "statement": "annotate_operator_metadata gives each quantizer of the model exactly the tags of the operators around it in the forward pass: \"before/f\" for each operator f that is applied to a result of the quantizer, \"after/f\" if the quantizer is applied to a result of f, possibly through other quantizers. No other tags are added.", "quantifier": "all forward passes: any sequence of inputs, parameters, operators and quantizer calls on earlier values, of any length, all sets of stubs, all quantizers and operators", "why_tests_cant": "Which tag a quantizer gets depends on which tensors are the same object and on the order in which they are used; the tests annotate one small chain of layers.", "anchors": ["src/fastforward/quantization/quantizer_annotations.py: annotate_operator_metadata, TraceTensor.__torch_function__, quantizer_override", "src/fastforward/overrides.py: disable_quantization, DisableQuantizationOverride"]}
{"id": "C90", "title": "Attention computes attention, and masked positions do not count", "statement": "Without quantizers, scaled_dot_product_attention gives, for each head of queries and each row, the average of the values of the key and value head that serves it, weighted by the exponentials of scale times query times key plus the mask, over the positions that are not masked; zero where everything is masked. Whatever the quantizers, masked keys and values do not affect a row, so with is_causal a row depends on positions up to its own only. Masks together with is_causal, and grouped queries under strict quantization, are refused. Whether the fall back to torch is allowed makes no difference.", "quantifier": "all numbers of heads, rows, positions and sizes, all real queries, keys, values and masks (boolean, or numbers and minus infinity), all scales, all groupings of heads, all quantizers that treat elements one by one", "why_tests_cant": "The tests compare a few random tensors with torch up to a tolerance; that no masked value ever leaks into a row, for every mask and quantizer, is a statement about all inputs.", "anchors": ["src/fastforward/nn/functional/custom/sdpa.py: scaled_dot_product_attention, scaled_dot_product_attention_math, _get_quantized_attn_bias, _quantized_safe_softmax, _torch_sdpa_fallback"]}
{"id": "C91", "title": "The type in which attention is computed is scoped", "statement": "Within a block with sdpa_upcast(d), attention on half precision inputs is computed in type d (float32 for True, no conversion for False or None); after the block, also if it raises, the setting is what it was before the block. The result of attention has the type of the query.", "quantifier": "all programs that read the setting, raise, catch, and nest such blocks, to any depth, from any setting; all types of query, key and value", "why_tests_cant": "The setting is global state that blocks save and restore; the tests enter one block at a time.", "anchors": ["src/fastforward/nn/functional/custom/sdpa.py: _SDPAUpcast, scaled_dot_product_attention_math"]}
{"id": "C92", "title": "Fusing quantized weights keeps what the model computes", "statement": "After fuse_qdq_weights every weight with a weight quantizer holds its quantized values, other weights and quantizers are as they were, and every module computes with the same weight as before, whether the quantizers were replaced by stubs or kept. With stub_quantizers no weight quantizer remains. Fusing is refused exactly if quantizers of a tied weight disagree about it, and then nothing is changed. stub_weight_quantizers changes no weight.", "quantifier": "all models with any number of modules, parameters in any memory layout, all ways of tying weights, all quantizers (any functions on weights), all weights", "why_tests_cant": "Weights are overwritten in place, one module after the other, so that the outcome depends on which weights share memory and on what the quantizers do to quantized values; the tests tie two modules in one way.", "anchors": ["src/fastforward/quantization/fuse.py: fuse_qdq_weights, stub_weight_quantizers, ConventionDiscovery, _check_tied_weight_targets, _fuse_target, _stub_target"]}
{"id": "C93", "title": "Assignments are split into what Python assigns", "statement": "When autoquant analyses an assignment, the single assignments it splits it into agree with what Python does: each leaf of the targets is listed once, in order, with the value it gets, or together with others with the value whose parts they get. Nothing but leaves of the targets is assigned, and every part of the value is analysed once per target. The targets of loops, comprehensions and with items are those Python assigns.", "quantifier": "all assignment statements with any number of targets, all nested tuples and lists as targets and as values, with and without starred elements, all values of the expressions in them", "why_tests_cant": "Targets and values are trees of any shape that are matched recursively, with starred elements taking any number of values; the tests try a dozen statements.", "anchors": ["src/fastforward/_autoquant/cst/node_processing.py: normalize_assignments, _normalize_assignment, _normalize_seq_to_seq_assignment, _normalize_seq_to_starred_seq_assignment, _normalize_item_to_seq_assignment, unpack_sequence_expression"]}
{"id": "C94", "title": "A quantizer keeps to the range that was set last", "statement": "Whatever ranges have been set on a linear quantizer before, with or without success, and however often it was reset: it has no range and does not quantize if none was set since the last reset, and otherwise reports, for every tile, a range that covers the one set last (the same one, if asymmetric and wide enough) and reconstructs every number in that up to half a step. A first range is accepted exactly if it has at least one minimum and as many maxima, or one. A failed attempt changes nothing.", "quantifier": "all linear quantizers (symmetric, one-sided, asymmetric) with at least two bits, all sequences of setting ranges (per tensor, per tile, of wrong sizes) and resets, of any length", "why_tests_cant": "The parameters are created by the first range and overwritten by later ones, the offset only in some modes, so that traces of former ranges can stay behind; tests set one or two ranges.", "anchors": ["src/fastforward/nn/linear_quantizer.py: LinearQuantizer, quantization_range, reset_parameters, _initialize_parameters, symmetric", "src/fastforward/quantization/affine/range.py: parameters_for_range, quantization_range"]}
{"id": "C95", "title": "Sharing repeated quantizer calls does not change what a block does", "statement": "When automatic quantization rewrites a block so that a quantizer call that occurs several times is made once and its result stored in a temporary variable, the block returns what it returned before, leaves all other variables with the values they had before, terminates in the same cases, and no quantizer call occurs in it twice.", "quantifier": "all blocks of assignments, returns, conditionals and loops with any nested blocks, all expressions with nested quantizer calls, all environments and values of operations, all names already taken", "why_tests_cant": "The rewrite moves evaluations across statements and loops and invents names; whether that is harmless depends on every assignment between the occurrences, and tests compare a few generated sources.", "anchors": ["src/fastforward/_autoquant/cst/quantizer_analysis/transformer.py: _QuantizerCallDedup, leave_IndentedBlock, _call_key, _next_tmp_name, _dedup_repeated_quantizer_calls"]}
{"id": "C96", "title": "Modules are exported with the quantization of the tensors they were called with", "statement": "When modules of a model are exported separately, each input and output of a module's graph gets the quantization parameters of the tensor it stands for in the last call to the module, nothing else is added, the files of one module do not depend on the other modules, and the recording hooks are removed afterwards.", "quantifier": "all modules and call structures with any nesting, all settings, all graphs, all sequences of attaching, detaching and calling, all runs that succeed or fail", "why_tests_cant": "Settings are matched with graph inputs and outputs by counting positions in separately flattened structures; tests export modules with one or two plain tensors.", "anchors": ["src/fastforward/export/module_export.py: export_modules, maybe_extend_encodings_file", "src/fastforward/export/_io_capture.py: ModuleIORecorder, _dequantize_leaves, _deep_dequantize"]}
{"id": "C97", "title": "Renaming in exported ONNX graphs keeps what they compute", "statement": "Altering the names in an exported ONNX graph and giving its inputs and outputs names keeps all names distinct, gives each value the name asked for, and does not change what the written file computes.", "quantifier": "all graphs with any nodes, initializers, inputs and outputs, all names and prefixes, all meanings of operators and all inputs", "why_tests_cant": "Values are connected by names in the file but by identity in memory; a clash arises only for particular combinations of names, which tests on small graphs do not have.", "anchors": ["src/fastforward/export/_onnx_helpers.py: _fix_onnx_names", "src/fastforward/export/stages/onnx/onnx_export_stages.py: _rename_onnx_input_output_names, stage_alter_onnx_node_names, stage_rename_onnx_input_output_names, stage_onnx_program_to_proto"]}
{"id": "C98", "title": "Generated operators apply the operator to dequantized arguments", "statement": "Calling a quantized operator without a matching kernel applies the underlying operator to the arguments, with every quantized tensor in them dequantized, and the given output quantizer to the result. In strict mode a missing output quantizer, or a plain tensor where a quantized one is declared, is an error. Defaults are those of the specification.", "quantifier": "all operator specifications, all declared parameter types, all argument values, quantizers and strictness, all meanings of the operator", "why_tests_cant": "The code is generated per operator from a table; tests call a few operators with a few arguments, but the rules for optional, union and sequence types apply to all entries, including future ones.", "anchors": ["src/fastforward/_quantops/generate.py: _fallback_op, _dispatch_op, _param_quantization_guard, _single_param_quantization_guard, _quantizer_list_param_quantization_guard, _parameter", "src/fastforward/_quantops/operator.py: _get_default_value", "src/fastforward/_gen/fallback.py", "src/fastforward/_gen/operators.py"]}
{"id": "C99", "title": "Quantizing an expression once before its first use gives the same as quantizing it at each use", "statement": "When autoquant quantizes an operand that is not a variable, such as `self.weight` or `x.T`, it inserts one statement `variable = quantizer(expression)` and reads the variable at each use. The converted function returns, raises and does what the function would with `quantizer(expression)` written at each use. The variable has a valid name that no other expression or variable has.", "quantifier": "all programs of simple statements, if and for, nested to any depth, all operands, all meanings of statements, tests and expressions, all starting states", "why_tests_cant": "Where the statement goes depends on all branches of all ifs of a scope, on first uses and on nesting; whether it is right depends on all executions.", "anchors": ["src/fastforward/_autoquant/cst/quantizer_analysis/annotator.py: _NonLocalBranchScope, _NLBResolveContext.add_annotation_for_block", "src/fastforward/_autoquant/cst/quantizer_analysis/transformer.py: visit_IndentedBlock, leave_IndentedBlock, _insert_dependency_aware_quantize_statements, _BlockScopeNameLoadFinder, _first_use_index_in_block", "src/fastforward/_autoquant/cst/node_processing.py: expr_to_ident", "src/fastforward/_autoquant/cst/node_creation.py: create_quantize_statement"]}
{"id": "C100", "title": "Helper functions receive a quantizer of the module for each of theirs, their own for each chain of calls", "statement": "In generated code, a helper function takes the quantizers that it and the functions it calls need as parameters. Autoquant finds them in finite time. Every call of a helper function passes exactly the parameters it has. A helper function that is reached from a method, by calls within calls, gets a quantizer of the module for each of its own, and different chains of calls get different ones.", "quantifier": "all sets of converted functions: any number of functions, quantizers and calls, all call graphs, all orders of conversion, all chains of calls of any length", "why_tests_cant": "The parameters of one function depend on those of all functions it reaches; the loop that finds them runs until nothing changes, over lists whose order matters.", "anchors": ["src/fastforward/_autoquant/autoquant.py: _resolve_all_quantized_calls, _discover_quantized_functions, _propagate_quantizers, _generate_signatures, _resolve_calls, _ResolveQuantizedCallsTransformer, _QuantizerRefTrace, _QuantizedFunctionSpec", "src/fastforward/_autoquant/pybuilder/quantizer_collection.py: local_quantizers_for_func", "src/fastforward/_autoquant/pybuilder/builder.py: _add_quantizer_args, quantized_functions"]}
{"id": "C101", "title": "Replacing calls and operators by quantized ones keeps what is computed", "statement": "Autoquant replaces calls of functions that have quantized operators, and operators of Python, by calls of quantized operators with new quantizers. Until the quantizers are initialized the converted code computes what the original computes. What is replaced is decided by what is called: a call of a function becomes a call of the operator registered last for it that takes arguments as they are given, with a quantizer for each that the operator takes; no quantizer is used at two places.", "quantifier": "all expressions of any depth with names, attributes, subscripts, calls and operators; all scopes, objects, operator tables and values of local variables; all choices of candidates", "why_tests_cant": "What a name means depends on scopes and objects at run time; tests convert a few functions with well-behaved names.", "anchors": ["src/fastforward/_autoquant/cst/passes.py: QuantizedCounterpartReplacer, _resolve_reference, MarkReplacementCandidates", "src/fastforward/_autoquant/cst/node_creation.py: get_quantized_function_counterpart, _args_to_pos_and_kw_args", "src/fastforward/_autoquant/bypass.py: is_bypassed_callable", "src/fastforward/_autoquant/function_context.py: FunctionContext", "src/fastforward/_quantops/optable.py: OPS_LIBCST_TO_TORCH_MAPPING, OperatorTable"]}
{"id": "C102", "title": "Autoquant converts everything that forward methods call, each function once, and ends", "statement": "Autoquant converts the forward method of every module type of the model that is not quantized yet, and every method and helper function that converted code calls, directly or indirectly, unless it is a registered operator, must be left alone or cannot be converted. Nothing else is converted, nothing is converted twice, the code of a method is that of the function Python finds under its name, and the search ends even if functions call each other in circles.", "quantifier": "all programs: classes with any inheritance, methods, class and static methods, functions, modules, scopes and aliases; all calls in their sources; every number of rounds of the queue", "why_tests_cant": "The queue meets functions in an order that depends on the whole program, with cycles and shared functions; tests convert models of a few classes with functions defined where they are called.", "anchors": ["src/fastforward/_autoquant/autoquant.py: autoquant, _find_unquantized_submodules, _resolve_method_owner_and_name, _find_dependent_methods, _find_dependent_functions, _scope_vars_and_module_refs, _resolve_attribute", "src/fastforward/_autoquant/function_context.py: FunctionContext", "src/fastforward/type_common.py: method_type", "src/fastforward/_autoquant/bypass.py: is_bypassed_callable"]}
{"id": "C103", "title": "Names in the generated module do not collide, and references reach what they meant", "statement": "The classes that autoquant generates have pairwise different names, also if module types of different packages have the same name, and each derives from the type it is generated for. Helper functions get names that differ from each other and from those of classes and methods. Converted functions keep their names and parameters; their calls of helpers reach the generated helpers and all other names mean what they meant in the source.", "quantifier": "all sequences of type names and helper names, all sets of names in use, all functions over names, attributes, calls with keywords, assignments and returns, all values and environments", "why_tests_cant": "Collisions depend on the names that a whole model brings together, and on names that look like generated ones; tests use a few modules with ordinary names.", "anchors": ["src/fastforward/_autoquant/autoquant.py: QuantizedClassNameAllocator, _cls_builder_for_module, _resolve_all_quantized_calls, _RenameHelperRefsTransformer, _ResolveQuantizedCallsTransformer", "src/fastforward/_autoquant/pybuilder/builder.py: ModuleBuilder"]}
{"id": "C104", "title": "Global names mean the same in the generated module as in the source", "statement": "The generated module imports what the converted functions need: loading it succeeds, and every name that a converted function reads as a global, when it is defined or when it runs, has the value that it has in the module the function was written in. Nothing is imported that no function uses.", "quantifier": "all sets of functions over names, attributes, calls, subscripts, lambdas, assignments and defaults, from any number of modules with any imports, definitions and values", "why_tests_cant": "Which imports are needed and whether they clash depends on all functions of a model and on everything their modules define; tests convert functions of one module with ordinary imports.", "anchors": ["src/fastforward/_autoquant/pysource/scope.py: ImportSymbol, find_required_imports, _RequiredSymbolsVisitor, ScopeVisitor, _importable_attribute_parts", "src/fastforward/_autoquant/pybuilder/builder.py: ModuleBuilder", "src/fastforward/_autoquant/convert.py: convert_function, _infer_imports"]}
{"id": "C105", "title": "Quantized layers compute the layers they replace, on quantized operands", "statement": "A quantized linear layer, convolution, layer normalization, embedding or activation applies the operator of the layer it replaces, with the same attributes, to its input, weight and bias as its own quantizers return them, and passes the result through its output quantizer; with strict quantization it fails unless the operands have been quantized. A model whose layers have been converted computes what it computed before, as long as no quantizers have been put in.", "quantifier": "all layers with any attributes, weights, quantizers (also failing ones) and inputs, with and without strict quantization; all models that apply layers and operators to variables in any order, with in-place activations", "why_tests_cant": "Tests compare layers with default attributes on random data; whether conversion keeps a model depends on all attributes of its layers and on what it reads after operations in place.", "anchors": ["src/fastforward/nn/linear.py: QuantizedLinear", "src/fastforward/nn/conv.py: QuantizedConv1d, QuantizedConv2d", "src/fastforward/nn/normalization.py: QuantizedLayerNorm", "src/fastforward/nn/embedding.py: QuantizedEmbedding", "src/fastforward/nn/activations.py: QuantizedRelu, QuantizedSilu", "src/fastforward/_gen/fallback.py: linear, conv1d, conv2d, layer_norm, embedding, relu, silu"]}
{"id": "C106", "title": "All ways to quantize a tensor give the points of the grid of its parameters", "statement": "Quantizing a floating point tensor and dequantizing it gives, for each element, the point of the grid of its tile that stands for it, in the type asked for. All functions for quantization — per tensor, channel, block, tile or granularity — agree with quantization with the corresponding granularity. Dynamic quantization is static quantization with the parameters inferred from the data. Export mode gives the same values as ordinary quantization followed by dequantization.", "quantifier": "all tensors (types, shapes, elements), granularities, bit widths, scales and offsets (numbers or tensors), storage types and types for dequantized data, and all parameter inference functions", "why_tests_cant": "Tests compare a few functions with each other on float data with default types; conversions between types that lose values, and combinations of types with export mode, are not tried.", "anchors": ["src/fastforward/quantization/affine/function.py: AffineQuantizationFunction, StaticAffineQuantParams, DynamicAffineQuantParams, _static_from_dynamic", "src/fastforward/quantization/affine/static.py: quantize_per_granularity, quantize_by_tile, quantize_per_tensor, quantize_per_channel, quantize_per_block", "src/fastforward/quantization/affine/dynamic.py: quantize_per_granularity", "src/fastforward/quantization/affine/_autograd.py: quantize_affine, dequantize_affine", "src/fastforward/quantization/_quantizer_impl.py: quantize_by_tile_impl, dequantize_by_tile_impl, quantize_dynamic_by_tile_impl, quantize_by_tile_meta, dequantize_by_tile_meta", "src/fastforward/common.py: tensor_or_none"]}
{"id": "C107", "title": "Converted methods call the same methods through super()", "statement": "A method that calls methods through super() calls, after conversion, on an instance of the generated class, the methods of the same classes with the same arguments as the original does on an instance of the class converted; in particular it does not call itself. The source converted is that of the class that defines the method.", "quantifier": "all class hierarchies, methods (defined in the class or inherited), expressions in their bodies, names and arguments", "why_tests_cant": "Which method super() finds depends on the order of all classes of the instance, on the class in whose body the call is, and on what names mean in the generated module; tests convert a few classes with direct calls.", "anchors": ["src/fastforward/_autoquant/convert.py: _AnchorBareSuperCalls, _owner_class_name, _rewrite_super_calls", "src/fastforward/_autoquant/autoquant.py: _resolve_method_owner_and_name, _unwrap_method_owner_member", "src/fastforward/_autoquant/pybuilder/builder.py: QuantizedModuleBuilder.build"]}
{"id": "C108", "title": "An export runs the pipeline registered for its target and format, with its options", "statement": "An export request runs the pipeline given with it, or the one in force for its target and format, up to capitals and surrounding whitespace: the last that replaced, else the first registered; a second registration without replacing is refused. The stages get the options of the request and its directory and model name; the directory exists. The default pipelines run their stages as documented, and the reference inputs and outputs, the captured graph and everything derived from it are of the same weights.", "quantifier": "all histories of registrations, targets, formats, requests with any options, arguments of export, and all stage functions that do not write the weights", "why_tests_cant": "Which pipeline runs depends on the whole history of registrations and on spellings; what a stage sees depends on every stage before it. Tests export a few models with the default settings.", "anchors": ["src/fastforward/export/pipeline/registry.py: PipelineRegistry, build_default_registry", "src/fastforward/export/pipeline/orchestrator.py: ExportOrchestrator, ExportRequest, QnnOnnxOptions, GgufLlamaCppOptions", "src/fastforward/export/export.py: export", "src/fastforward/export/pipeline/qnn_onnx_pipeline.py: qnn_onnx_pipeline", "src/fastforward/export/pipeline/qnn_onnx_qdq_pipeline.py: qnn_onnx_qdq_pipeline", "src/fastforward/export/pipeline/gguf_llama_cpp_pipeline.py: gguf_llama_cpp_pipeline", "src/fastforward/export/stages/base_pipeline_stages.py: stage_fuse_qdq_weights, stage_passthrough_ff_module", "src/fastforward/export/stages/gguf/gguf_export_stages.py: _require_adapter, _require_config, _require_quant_format"]}
{"id": "C109", "title": "The GGUF file of a model holds every parameter once, with the values the quantized model uses", "statement": "If a model is exported to GGUF, every parameter with a name in the format, with values and not tied to another one, is in the file exactly once under that name, and nothing else is in the file. llama.cpp, which reads query and key projections with the halves of a head interleaved, computes with the same values as the quantized model: the quantized values where a weight is quantized, else the values of the parameter. The export fails only if a quantizer does not fit the format, a parameter has the wrong number of dimensions, or heads do not divide the rows.", "quantifier": "all models (any parameters, shared or not, and any weight quantizers), name maps, numbers of heads and results of quantizing", "why_tests_cant": "A lost, doubled or misordered tensor shows only for models with the particular mix of quantized, float, shared and tied parameters. Tests export small models of fixed configurations.", "anchors": ["src/fastforward/export/stages/gguf/_extract.py: extract_module_tensors, _build_quantizer_map, ExtractedTensor", "src/fastforward/export/stages/gguf/gguf_export_stages.py: stage_extract_quantized_weights, stage_apply_target_transforms, stage_map_tensor_names, stage_pack_gguf_blocks, stage_write_gguf", "src/fastforward/export/stages/gguf/_arch.py: llama_rope_permute, _apply_row_permute", "src/fastforward/export/stages/gguf/adapter.py: ArchAdapter, _default_is_tied"]}
{"id": "C110", "title": "A quantization function made from two functions calls them with the arguments given", "statement": "create_quantization_function accepts exactly two functions whose parameters after the first can be given by keyword, agree in annotation and default where they share a name, and can be ordered. The function it makes accepts exactly the keywords the two together can be called with; the tensor it returns holds what the quantize function computes, and dequantizes to what the dequantize function computes, each called with the values given, else its own defaults. Changed parameters reach the dequantize function, all others stay.", "quantifier": "all pairs of functions with any parameters, kinds, annotations and defaults (equal ones being the same), and all keyword arguments and changes", "why_tests_cant": "Which arguments are accepted and passed on depends on the overlap of two arbitrary signatures, their defaults and their order; tests make a few functions.", "anchors": ["src/fastforward/quantization/function.py: create_quantization_function, _make_quantization_parameters_type, _parameters_from_function, _ImplicitQuantizationFunction, QuantizationParameters, QuantizationContext"]}
{"id": "C111", "title": "The source found for a name is the definition of the object the name stands for", "statement": "If modules hold what their source defines and objects know their names, then the definition a SourceContext finds for a name is the definition of the object the name leads to (through re-exports, aliases and inherited members), or of the function a decorator has wrapped in it. An object is found by its own name, and by an alias exactly as by its own name. Answers stay the same over any later calls, whatever becomes of the source files.", "quantifier": "all module systems, objects, attributes and captured values, all module sources with nested classes, redefinitions and branches, all names and all histories of calls", "why_tests_cant": "Where a name leads depends on imports, re-exports and decorators of arbitrary modules, and what is found on all definitions of the module; tests look up a few names in fixed modules.", "anchors": ["src/fastforward/_autoquant/pysource/source_context.py: SourceContext.get_cst, SourceContext.get, _get_module_source, _ModuleSource, _SymbolVisitor, _resolve_name", "src/fastforward/_import.py: QualifiedNameReference, fully_qualified_name"]}
{"id": "C112", "title": "Cleaning a captured graph removes its quantizers and nothing it needs", "statement": "The cleanup stage of an export keeps exactly the nodes of a captured graph that effects or outputs need; the cleaned graph computes the same for all inputs and keeps every module it calls or takes attributes from. It fails exactly if a needed node refers to a quantizer of the source module; otherwise no quantizer of the source module is left in the result.", "quantifier": "all graphs with unique names in order of computation, all modules and quantizers, all meanings and effects of functions and modules, and all inputs", "why_tests_cant": "Which nodes and modules can go depends on the whole graph, on nesting and sharing of modules; tests clean a few captured models.", "anchors": ["src/fastforward/export/stages/base_pipeline_stages.py: stage_cleanup_impl_ff, PruneUnusedGetAttrsPass, FinalizeGraphModulePass, _collect_quantizer_module_paths, _collect_graph_referenced_module_paths, _module_path_prefixes, _module_prefixes_from_get_attr_target"]}
{"id": "C113", "title": "Names in module queries mean what they mean where the query is written", "statement": "However a query is given as a string (query, search, query_for_module, find_quantizers, aliases, selector / string, rules of a configuration), the class that [cls:a.b.c] stands for is the value of the expression a.b.c at that place; a context given explicitly is used alone. Each alias stands for its query, read with the aliases before it. Extensions registered within a with block are gone after it and all others are as before, also after exceptions.", "quantifier": "all call stacks, frames and names, all expressions, all sequences of aliases and all nestings of with blocks, with exceptions anywhere", "why_tests_cant": "Which frame names are taken from depends on the depth of calls, and what a name means on all scopes around the call; tests use module-level names in a few calls.", "anchors": ["src/fastforward/mpath/_parser.py: get_caller_context, parse, register_mpath_query_extension, QueryExtensionContext", "src/fastforward/mpath/__init__.py: query, aliases, local_context, caller_context", "src/fastforward/mpath/_search.py: query_for_module, search", "src/fastforward/mpath/fragments.py: ClassFragment.from_raw_string_with_context", "src/fastforward/mpath/selector.py: BaseSelector.__truediv__, BaseSelector.__rtruediv__", "src/fastforward/quantization/quant_init.py: find_quantizers, QuantizationConfig.add_rule"]}
{"id": "C114", "title": "Functions applied to quantized tensors never compute on the codes", "statement": "A torch function applied to arguments that contain quantized tensors runs the best registered kernel that accepts them; without one it is computed on the values of all quantized tensors among the arguments, or is an error under strict quantization. Quantized operands are not changed. In-place operations are errors unless registered. Casts are casts of the values. Functions that are passed on answer as for the values. Moving a quantized tensor to a device moves codes and parameters there, and changes no value.", "quantifier": "all functions, all arguments in nested containers of any depth, all memories, all histories of registrations, both settings of strict quantization", "why_tests_cant": "Torch has hundreds of functions and arguments nest arbitrarily; a test sees a few functions with a few arguments, and most mistakes give numbers that look right.", "anchors": ["src/fastforward/quantized_tensor.py: QuantizedTensor.__torch_function__, _dequantization_fallback, _set_no_dispatch, _remove_default_implementation, _to_dtype, QuantizedTensor.to, QuantizedTensor.cuda, _same_shape_view_as", "src/fastforward/quantization/_linear_quantized_ops.py: view_as"]}
{"id": "C115", "title": "Parameters without a value survive tracing and are filled by loading", "statement": "While a model is traced, parameters and buffers without a value are replaced by empty ones and nothing else is; afterwards, whether tracing failed or not, every module has the parameters and buffers it had, under the same names, in the same order, and the same of them are part of the state. Loading a state gives a quantizer parameter without a value exactly the saved value, whatever its shape; parameters with no saved value stay without one, parameters with a value take a saved one of the same shape and no other. Entries of other modules make no difference.", "quantifier": "all modules with any parameters and buffers under any names, shared or not, every outcome of tracing, all states and all prefixes", "why_tests_cant": "Which parameters have no value depends on how far calibration went; tests trace and load models in one such condition.", "anchors": ["src/fastforward/_orchestration/trace.py: _placeholder_uninitialized_params", "src/fastforward/nn/quantizer.py: Quantizer._load_state_dict_uninitialized_param_pre_hook", "src/fastforward/nn/linear_quantizer.py: AbstractAffineQuantizer.has_uninitialized_params"]}
{"id": "C116", "title": "Items of an ONNX graph carry the quantization of the tensor they come from", "statement": "After quantization metadata is added to an exported ONNX graph, an item lowered from a quantized node of the captured graph carries the spec of that node, a weight that of the parameter it is named after, an item of a decomposed node that of the closest quantized node it was derived from; items that mention no quantized node are unchanged, no spec is invented, and nothing but metadata changes. The encodings extracted from the graph are those of the tensors.", "quantifier": "all captured graphs with unique names, all ONNX graphs with any origins of their items, all specs and encoding schemas", "why_tests_cant": "How a node is lowered and named depends on the exporter and its decompositions; tests export a few layers and compare a few encodings.", "anchors": ["src/fastforward/export/stages/onnx/onnx_export_stages.py: OnnxQuantMetadataAnnotator, stage_add_ff_quantization_metadata, extract_qnn_encodings_from_onnx_proto"]}
{"id": "C117", "title": "Metadata and vocabulary of a GGUF file describe the model and its tokenizer", "statement": "An exported GGUF file says every dimension of the model configuration, once; positions are scaled and heads are sized as configured when the file is read. Its vocabulary has one entry for each token of the model: entry i is the token with id i and its kind, ids without a token are marked unused, and reading it back gives every token its id. Merges are those of the tokenizer.", "quantifier": "all model configurations with any optional fields, all tokenizers and vocabulary sizes, all contents of the disk", "why_tests_cant": "Configurations and tokenizers vary from model to model; a test writes one small model and hardly reads every key back.", "anchors": ["src/fastforward/export/stages/gguf/_arch.py: _write_common_metadata, _write_qwen3_metadata", "src/fastforward/export/stages/gguf/_vocab.py: write_vocab"]}
{"id": "C118", "title": "A rewrite rule replaces what its pattern describes, by what its replacement says", "statement": "A rule made from a pattern and a replacement applies to a piece of code exactly if the code is the pattern with something in place of each capture {x}, up to whitespace and comments. Every other piece of code is left as it is. Where the rule applies, the code is replaced by the replacement with each capture standing for what it stood for in the code; a capture in the replacement that the pattern does not have is an error. The result can stand where the code stood, and its text reads as the result.", "quantifier": "all patterns and replacements, all syntax trees, all captures", "why_tests_cant": "Tests apply a few rules to short snippets; the claim is about every pattern and every syntax tree, with captures of arbitrary expressions.", "anchors": ["src/fastforward/_autoquant/cst/pattern.py: PatternRule.apply, from_str, _parse_pattern, _convert_to_matcher_impl, _get_matcher_for_node, _CaptureTransformer"]}
{"id": "C119", "title": "Inserted quantizer statements act exactly where the variable gets its value", "statement": "Where autoquant decides that a variable has to be quantized at some assignment, loop target, with item or parameter, the generated function behaves like the source run in a Python in which this binding binds the quantized value: same result, exceptions, effects and local variables, through branches, loops, break and continue, exceptions and with blocks. Docstrings stay first, and functions without such variables are unchanged.", "quantifier": "all programs of these statements, all annotations, all inputs, states and quantizers (with state and exceptions), any number of loop rounds", "why_tests_cant": "Tests compare generated text for some functions; that the inserted statements mean the right thing for every control flow is not visible in a snapshot.", "anchors": ["src/fastforward/_autoquant/cst/quantizer_analysis/transformer.py: leave_FunctionDef, leave_GeneralAssignment, leave_For, leave_With, _insert_in_indented_block", "src/fastforward/_autoquant/cst/node_creation.py: create_quantize_statement"]}
{"id": "C120", "title": "In comprehensions every element is quantized once, and its uses mean its quantized value", "statement": "If the variable of a comprehension has to be quantized, the generated comprehension gives, for each element, the value of the element expression with the quantized element, calling the quantizer once for each element. The temporary variables that hold quantized elements are used by one comprehension each. Names in a comprehension are taken for the variables that they mean by Python’s scoping rules.", "quantifier": "all element expressions (with conditional expressions, and, or), all lists of elements, all quantizers, all sequences of comprehensions in a function, all clauses and names", "why_tests_cant": "Snapshots show the generated text of two or three comprehensions; what it computes for every list and expression, and names across any number of comprehensions, is not tested.", "anchors": ["src/fastforward/_autoquant/cst/quantizer_analysis/transformer.py: _InlineQuantization, add_annotation, maybe_quantize_expression, visit_CompFor, leave_ListComp, leave_SetComp, leave_GeneratorExp, leave_DictComp", "src/fastforward/_autoquant/cst/quantizer_analysis/annotator.py: evaluate_CompFor, evaluate_ListComp, QuantizationAnnotation", "src/fastforward/_autoquant/cst/quantizer_analysis/scope.py: Scope.__getitem__"]}
{"id": "C121", "title": "Removing redundant parentheses keeps the code valid and its meaning", "statement": "Before conversion, parentheses around names, attributes, calls and subscripts are removed from the source. The result is the same expression with the same grouping for all precedences of operators. All valid source stays valid: line breaks stay inside parentheses or brackets, words stay separated, and comments stay. No such parentheses remain, except with a line break next to them.", "quantifier": "all expressions (names, attributes, calls, subscripts, operators), with any number of parentheses anywhere and any whitespace, line breaks and comments", "why_tests_cant": "Tests compare the output for a handful of snippets; that grouping and validity are kept for every expression and layout needs an induction over expressions.", "anchors": ["src/fastforward/_autoquant/cst/passes.py: RemoveRedundantParenthesesTransformer", "src/fastforward/_autoquant/autoquant.py: default_preprocessing_passes"]}
{"id": "C122", "title": "No operation on tensors is passed over by type inference", "statement": "Calls and operators that have a tensor or a sequence of tensors among their operands are considered for quantization, whether type inference is used or not and whatever it finds out about other operands. Operations whose operands are known not to be tensors, and operations on literals, are left alone. Operations to be left untouched are never considered.", "quantifier": "all calls and operators, all forms of arguments (positional, keyword, starred, parenthesized), all types including unions and sequences, all nested arithmetic, all values of the operands", "why_tests_cant": "Tests run type inference on a few functions; that no tensor is passed over for any combination of types and forms of arguments needs an induction over expressions and types.", "anchors": ["src/fastforward/_autoquant/cst/passes.py: MarkReplacementCandidates, ExtendedMarkReplacementCandidates", "src/fastforward/_autoquant/mypy/type_provider_impl.py: TypeInfo, MypyTypeProvider, _TypeExtractionVisitor", "src/fastforward/_autoquant/cst/nodes.py: is_simple_literal", "src/fastforward/_autoquant/bypass.py: is_bypassed_call_syntax"]}
{"id": "C123", "title": "Generated code is written where it was asked for, replaces nothing unasked, and covers every module type not yet quantized", "statement": "autoquantize writes the code to the file given by the output path. A file that exists is not changed unless overwriting is asked for, under every schedule of concurrent calls and wherever one crashes; no other file is changed; each call that ends without an error has its code in its file. Python finds the module under the returned name. Importing changes no other module. The code has a class for exactly the module types of the model that are not quantized, and generating it again gives the same code.", "quantifier": "all numbers of concurrent calls, all schedules and crash points, all files, output paths and loaded modules, all sets of existing classes with any bases, all models and all histories of calls", "why_tests_cant": "Tests write one file in one process; interleavings, crash points, and the effect of earlier calls on later ones are not reached by them.", "anchors": ["src/fastforward/_autoquant/pybuilder/writer.py: FileWriter, BasicCodeWriter", "src/fastforward/_autoquant/pybuilder/importing.py: import_code", "src/fastforward/_autoquant/autoquant.py: emit_code_of_module, _find_known_quantized_modules, _find_unquantized_submodules", "src/fastforward/autoquant.py: autoquantize"]}
{"id": "C124", "title": "Listing the quantizers of a model finds each of them, by every name or exactly once", "statement": "Listing the quantizers of a model finds every quantizer at every depth and nothing else. Without removing duplicates each quantizer is listed under each of its names, each name once; with duplicates removed each quantizer is listed exactly once, however often modules are shared, under a name that leads to it. Stubs are listed only if asked for. Without recursion only direct children are listed. A prefix is put before each name. A summary has each representation once, with exactly the quantizers of that representation, most frequent first, and its counts add up to the number of quantizers, also when numbered names are joined into patterns.", "quantifier": "all module trees of any depth and width, all ways of sharing modules within them, all names, prefixes and choices of the flags, all representations of quantizers", "why_tests_cant": "The tests list the quantizers of a few small models. How modules are shared, how deep they are nested and in which order they are met is arbitrary; that nothing is missed when a shared module is skipped the second time needs an argument over all graphs.", "anchors": ["src/fastforward/nn/quantized_module.py: named_quantizers, quantizer_state_dict, _summarize_quantizers, _deduplicate_quantizer_names"]}
{"id": "C125", "title": "Model conversion finds the quantized class defined last, among those the filter admits", "statement": "For every history of class definitions and filters, the conversion for a module class is the last defined quantized class that counts as its quantized version (it derives from that class and from QuantizedModule and was not opted out) and passes the filter; if there is none, none is found. Converted modules stay instances of their class. Defining a class changes only the conversion of the class it is a version of. A filter admits the classes from the given Python modules and from modules inside them, holds exactly within its with block, also when blocks are nested, and is then as before.", "quantifier": "all histories of class definitions with any bases and of filters entered and left by any threads, all class hierarchies, all Python module names", "why_tests_cant": "Which class is found depends on everything imported before, in order, and on the shape of the class hierarchy; tests define a few classes with one base.", "anchors": ["src/fastforward/nn/quantized_module.py: QuantizedModule.__init_subclass__, _record_quantized_module, quantized_module_map, filter_quantized_module_map, _is_allow_listed_quantized_module, _is_class_from_module"]}
{"id": "C126", "title": "A completed save is what is loaded, and an interrupted first save is refused", "statement": "For every crash point and every schedule of saves to different directories: a save that completed is loaded with exactly its quantizers and weights, whatever was in the directory before; a first save of a model that was interrupted is refused on loading; of an interrupted first save of a quantization state nothing is loaded that was not to be saved. Saving changes nothing outside its directory. A state is looked for where it was saved if the same name and tag, or none, are given; different names or tags are different places. What was saved for another model, or for a model with other weights, is refused.", "quantifier": "all contents, all sequences of steps of any number of saves, ended anywhere, all earlier contents of the directories, all names and tags", "why_tests_cant": "Crash points and interleavings cannot be enumerated by tests; tests save and load once, in an empty temporary directory.", "anchors": ["src/fastforward/quantization/save_load.py: _resolve_name_or_path, _write_quantizer_state, save_quantization_state, load_quantization_state, _load_quantizer_state_from_files, save_quantized_model, load_quantized_model"]}
{"id": "C127", "title": "Operator specifications mean what they say", "statement": "For every operator specification: it is accepted iff it is a signature whose named parameters all have annotations that mean something; then the operator has the name, the parameters and the defaults of the specification, every type has exactly the alternatives its annotation allows, whatever the order in which sets keep their members, and parameter and result count as quantized iff quantized tensors are among them. A file of specifications gives a table with the operator of every entry, added in order, or an error with the lines of the wrong entries.", "quantifier": "all specifications with annotations of any nesting, all hash functions and set orders, all files, all contents of importable modules", "why_tests_cant": "Annotations nest without bound and types are kept in sets, whose order differs from run to run; tests read the shipped file and a few short specifications.", "anchors": ["src/fastforward/_quantops/symtypes.py: str_to_type, type_from_cst_expression, _extract_types_from_subscript", "src/fastforward/_quantops/operator.py: Operator.from_spec, Parameter.quantized, returns_quantized", "src/fastforward/_quantops/optable.py: OperatorTable.add, from_yaml"]}
{"id": "C128", "title": "Passes over code are applied in order and keep its kind", "statement": "For every sequence of passes and every piece of code: the passes are applied in the order given, each to what the one before returned; the result is code of the kind that was put in; if a pass fails, the error names it and its cause, and interrupts come through; a pass sees the code that the passes before it returned, whether or not it needs metadata, and what it makes of it is the result; visitors that only look change nothing.", "quantifier": "all sequences of passes, all visitors and transformers whatever they do, all pieces of code, all class hierarchies", "why_tests_cant": "Transformers are arbitrary functions on code and sequences have any length; tests run one or two fixed passes.", "anchors": ["src/fastforward/_autoquant/pass_manager.py: PassManager, MetadataTransformer, _visit_cst_same"]}
{"id": "C129", "title": "Mocked packages are importable in their block and leave nothing behind", "statement": "In the block of a PackageMock every registered name and every parent of one is imported as a module with the registered source, as a package iff something is registered below it; modules that are not mocked are imported as without the mock; after the block, however blocks are nested and whatever was imported, the finders are those from before, no mocked module is loaded and no source of one is kept, and other modules are as they were; a mock can be used again.", "quantifier": "all registered modules, all programs of nested blocks and imports, all states of the interpreter", "why_tests_cant": "The effect depends on what was imported before, on the nesting of blocks and on the imports in them; tests use a few fixed packages in a fresh interpreter.", "anchors": ["src/fastforward/testing/package_mock.py: PackageMock, _infer_parent_packages, _PackageMockFinder"]}
{"id": "C130", "title": "Folding temporaries keeps what the code computes", "statement": "Folding removes the assignment of a variable tmp_N exactly if one statement assigns it and it is used once, replaces the use by the value, and changes nothing else; the code then returns what it returned before, for all inputs.", "quantifier": "all function bodies of assignments, unpackings and returns, all meanings of the operations in them, all values of variables", "why_tests_cant": "Whether a value may be moved depends on every statement between its assignment and its use; tests compare the text of seven small functions.", "anchors": ["src/fastforward/_autoquant/cst/passes.py: FoldSimpleTemporaries, _NodeReplacer", "src/fastforward/_autoquant/pysource/scope.py: ScopeVisitor, ScopeProvider"]}
{"id": "C131", "title": "Every warning about code that is not converted is in the generated code", "statement": "Every warning that a transformer issues while it traverses code is in the result, as often as it was issued and as a comment above the closest statement around it that is kept; comments that were there before stay, in front of the warnings; a warning fails only where no statement is around it; and nothing is left over for the next traversal.", "quantifier": "all trees of nodes, all warnings before and after the parts of each node are visited, all ways in which nodes are kept, replaced or removed", "why_tests_cant": "Where a warning ends up depends on what happens to every node around it later in the traversal; there is a test for one node.", "anchors": ["src/fastforward/_autoquant/cst/quantizer_analysis/unimplemented.py: NotImplementedMixin", "src/fastforward/_autoquant/cst/passes.py: ConvertSemicolonJoinedStatements"]}
{"id": "C132", "title": "Information that passes leave in the code survives later passes and does not change the code", "statement": "Wrapping an assignment, marking a candidate or a quantized call does not change the code that is printed; a wrapped assignment is printed with the targets and value it has now and the form it had in the source, or refused if they do not fit; passes that leave marks alone keep them all; combining blocks keeps the statements and comments of both.", "quantifier": "all expressions with marker nodes, all assignments, all transformers, all blocks", "why_tests_cant": "The nodes go through every pass, and each pass rebuilds every node it visits; tests look at single nodes and passes.", "anchors": ["src/fastforward/_autoquant/cst/nodes.py: GeneralAssignment, ReplacementCandidate, QuantizedCall, UnresolvedQuantizedCall, QuantizerReference, AbstractClassReference", "src/fastforward/_autoquant/cst/passes.py: WrapAssignments", "src/fastforward/_autoquant/cst/node_manipulation.py: combine_indented_blocks, flatten_indented_blocks, unwrap_single_statement"]}
{"id": "C133", "title": "A deep copy of a quantizer is complete and shares nothing that can change with the original", "statement": "Copying a module or quantizer with copy.deepcopy ends. Everything that is reached from it has a copy with copies of all its contents; functions, numbers and tags are kept as they are. Dictionaries, modules and parameters are copied once, so that what was shared is shared in the copy, and a quantizer that is used in several places of a model is one quantizer in the copy. New objects do not refer to objects of the original. A reference from a quantizer to itself becomes one to its copy. (The last fails: the hook of each quantizer becomes a method of another, unfinished copy. And overrides are copied without their handles.)", "quantifier": "every finite graph of objects with quantizers, containers, bound methods and atoms, with any sharing and any cycles, and every object in it", "why_tests_cant": "Sharing and cycles come in endless forms; tests copy single quantizers.", "anchors": ["src/fastforward/nn/quantizer.py: Quantizer.__deepcopy__, Quantizer.__init__, Tag.__deepcopy__"]}
{"id": "C134", "title": "GPTQ measures the layer's own outputs", "statement": "The matrix that GPTQ computes from calibration inputs belongs to the layer: each of its samples is what the layer multiplies its weight with for one output position, with features in the order of the weight's columns, and every output position of every input is one sample. So the quadratic form of the matrix at a change of the weights is the sum of the squares of the changes of the layer's outputs, for linear layers and for convolutions with any kernel, stride, padding, dilation and groups. Inputs that the layer accepts are accepted.", "quantifier": "All linear layers and two-dimensional convolutions, all input shapes and values, all changes of the weights.", "why_tests_cant": "Flattening has to agree with the weight for every combination of kernel, stride, padding, dilation and size; tests compare a few of them.", "anchors": ["src/fastforward/quantization/gptq.py: calculate_hessian, _input_flattener, _hessian_in_features, gptq"]}
{"id": "C135", "title": "Repeated log messages are dropped, and only those", "statement": "A logger that drops duplicates logs every record of the levels it does not filter. Of the others it logs the first of each message and level, so that in every history each text that was logged appears with its level, and none appears again.", "quantifier": "All histories of log records, all sets of filtered levels.", "why_tests_cant": "What is dropped depends on everything logged before in the process.", "anchors": ["src/fastforward/logging_utils.py: DuplicateLogFilter", "src/fastforward/nn/quantized_module.py: logger, quantized_module_map"]}
{"id": "C136", "title": "Searching code finds every node of a kind once, breadth first", "statement": "The search for nodes of a type, by which autoquant finds the operations to replace and the calls to pass quantizers to, ends; it yields exactly the nodes of the type within the code, each once, none before a less deep one, and from left to right at equal depth.", "quantifier": "All code, of any depth and with nodes that occur in several places, and all types.", "why_tests_cant": "Completeness and order have to hold for code of any shape.", "anchors": ["src/fastforward/_autoquant/cst/filter.py: filter_nodes_by_type"]}
{"id": "C137", "title": "Exactly the listed torch operations are left untouched by autoquant", "statement": "The names of operations that autoquant must leave as they are are resolved to what they stand for in Python, whatever parts are packages, modules or attributes; the operations left untouched are those that the listed names stand for and that the installed torch version has, under whatever name they are called; a warning is given exactly for names that should exist and do not; a call written with a dotted name is recognised iff the name is listed.", "quantifier": "All tables of names and versions, all installed versions, all outcomes of imports and attribute accesses, and all call expressions.", "why_tests_cant": "Tests run with one installed version of torch, in which all names resolve.", "anchors": ["src/fastforward/_autoquant/bypass.py: _resolve_qualified_name, _resolve_bypass_callables, is_bypassed_call_syntax, is_bypassed_callable"]}
{"id": "C138", "title": "Quantization metadata of an ONNX graph is in the saved graph", "statement": "What is read from the saved ONNX graph as the metadata of an initializer, node, input or output is the metadata the item has in memory, whether or not saving keeps metadata by itself; names, order and other metadata stay, and no item gets metadata of an item with another name.", "quantifier": "All graphs, names and metadata, and all behaviours of saving regarding metadata.", "why_tests_cant": "Tests copy the metadata of one or two items with distinct names.", "anchors": ["src/fastforward/export/stages/onnx/onnx_export_stages.py: OnnxIrToProtoMetadataCopier, stage_copy_metadata_from_ir_to_proto, _metadata_props_to_dict"]}
{"id": "C139", "title": "Dropping allowzero from Reshape keeps what exported graphs compute", "statement": "The export stage that drops the allowzero attribute changes no other node or attribute, and a Reshape of a non-empty tensor that succeeds gives the same shape as before; without zeros in the target, Reshape does exactly the same.", "quantifier": "All graphs, all shapes of inputs and all targets, including -1 and 0.", "why_tests_cant": "The tests only check that the attribute is gone.", "anchors": ["src/fastforward/export/_onnx_helpers.py: _fix_reshape_allowzero", "src/fastforward/export/stages/onnx/onnx_export_stages.py: stage_fix_onnx_reshape_allowzero"]}
{"id": "C140", "title": "Attaching and detaching an override affects exactly the quantizers it was attached to", "statement": "After any history of attach_to with single quantizers, collections and nested iterables, detach, registering and removing other overrides and enabling or disabling, every quantizer has exactly the overrides that were added and not taken away since, in order; detach takes away what attach_to added, everywhere, and nothing else; a quantizer quantizes iff all its overrides are enabled and returns its input otherwise.", "quantifier": "All histories of operations, over any number of quantizers and override instances, with the same quantizer attached repeatedly.", "why_tests_cant": "Tests attach one instance to one collection and detach once.", "anchors": ["src/fastforward/overrides.py: DisableQuantizationOverride", "src/fastforward/nn/quantizer.py: Quantizer.register_override, Quantizer.remove_override", "src/fastforward/forward_override.py: OverrideHandle, apply_overrides"]}
{"id": "C141", "title": "Tokenized datasets keep the token stream", "statement": "Every column of a tokenized dataset is the column of tokens of the joined texts cut into samples of the given length: no token is lost, repeated or moved, except for a rest shorter than a sample; the labels are the tokens. Limited iteration gives as many items, from the start, as the progress bar announces.", "quantifier": "All datasets, tokenizers, sequence lengths and limits.", "why_tests_cant": "Tests cannot cover all lengths of datasets relative to the sequence length, nor all tokenizers.", "anchors": ["src/fastforward/testing/data.py: tokenize_dataset, sliced_tqdm"]}
{"id": "C142", "title": "Traced graphs run on every device", "statement": "A graph traced with the model on one device runs with all inputs on any other device: it is not refused, and every value is on the device of the inputs, whatever devices tracing wrote into casts and whatever the default device is. On the device of tracing it runs as before, and nothing but devices is taken out of the graphs.", "quantifier": "All graphs of casts and operations, all devices of tracing and of running, all default devices, all trees of submodules.", "why_tests_cant": "Tests run on one or two devices; they cannot cover all graphs and pairs of devices.", "anchors": ["src/fastforward/_orchestration/trace.py: _strip_hardcoded_device_placements, trace"]}
{"id": "C143", "title": "Signal-to-noise ratios order by noise, and rounding ties are recognised", "statement": "The signal-to-quantization-noise ratio is refused iff the shapes differ; less noise in every sample never gives a lower ratio, the ratio is never negative and an exact copy has the best. A tensor is reported as close to rounding iff one of its elements is less than the tolerance from half way between two integers.", "quantifier": "All batches of samples of all sizes, all quantized versions, all positive eps, all tensors and tolerances up to one half.", "why_tests_cant": "Tests compare a few random tensors; they cannot cover all pairs of quantized versions nor the sign of every element.", "anchors": ["src/fastforward/testing/metrics.py: sqnr", "src/fastforward/testing/__init__.py: is_close_to_rounding"]}
{"id": "C144", "title": "Copies and moves of quantized tensors keep value and parameters together", "statement": "Cloning, detaching, moving to a device and making contiguous keep data, parameters and so the dequantized value, and do not change the original. A clone and a deep copy share nothing with the original: writing in place to data or parameters of one does not change the other. A detached tensor shares data and parameters and has no part in autograd. Moving moves, and making contiguous makes contiguous, the data and every parameter. A deep copy is refused iff data or a parameter is a result of autograd.", "quantifier": "All quantized tensors with any number of parameters, tensors or not, all contents of memory, all devices, all writes.", "why_tests_cant": "Tests check a few tensors and the scale; sharing shows only when some tensor is written to later, and every parameter counts.", "anchors": ["src/fastforward/quantized_tensor.py: QuantizedTensor.clone, QuantizedTensor.detach, QuantizedTensor.to, QuantizedTensor.contiguous, QuantizedTensor.__deepcopy__, QuantizedTensor.raw_data", "src/fastforward/quantization/function.py: QuantizationContext.clone_parameters, QuantizationContext.detach_parameters, QuantizationContext.contiguous_parameters, QuantizationContext.to, QuantizationContext.attach"]}
{"id": "C145", "title": "Operations that get their own line stand where they were evaluated", "statement": "When operations are moved out of the statements of a block into assignments of their own, these stand directly before the statement, in the order in which they were moved out, after its comments and empty lines; all other lines stay as they are and in order, nothing is lost, and a block from which nothing is moved is not changed.", "quantifier": "All blocks with any number of statements, comments and moved operations, all ways in which statements are replaced meanwhile.", "why_tests_cant": "Tests compare the code of a few functions; statements are replaced while positions are held, and a stale position shows only with several operations in one statement with comments.", "anchors": ["src/fastforward/_autoquant/cst/passes.py: _Insertions, IsolateReplacementCandidates"]}
{"id": "C146", "title": "Collections of quantizers hold quantizers", "statement": "A new collection of quantizers has exactly the quantizers among the search results, in order; after any history of slices, additions, unions, intersections, differences and applied functions its modules are all quantizers, slices have the elements at their places and set operations have exactly the expected elements; appending adds the search result of a quantizer and refuses everything else.", "quantifier": "All search results, all histories of operations, all functions applied.", "why_tests_cant": "Tests build a collection from one search and look at it; the type is kept through histories of operations, each of which builds a new collection or changes this one.", "anchors": ["src/fastforward/quantization/quant_init.py: QuantizerCollection", "src/fastforward/mpath/_search.py: MPathCollection"]}
{"id": "C147", "title": "The code that is returned, written and imported is the same formatted code, or nothing happens", "statement": "autoquantize formats the generated code by running the formatting commands in order, each on the output of the one before; if one fails, no later one is run and the call fails. What is returned, written to the file or writer and imported is the same code; nothing else is written or imported. The call succeeds exactly if code is generated, all commands succeed, exactly one place is given that is free or may be overwritten, and code to be imported runs; if it fails, nothing is changed. What each command keeps of the meaning of code is kept by formatting.", "quantifier": "All generated code, all sequences of commands with all results, all states of files and imported modules, all arguments.", "why_tests_cant": "Tests run one formatter with succeeding commands; the claim is about every sequence of commands, every failing one, and every combination of arguments and existing files.", "anchors": ["src/fastforward/autoquant.py: autoquantize", "src/fastforward/_autoquant/autoquant.py: codeformat_with_defaults, emit_code_of_module", "src/fastforward/_autoquant/pybuilder/formatter.py: SubprocessCodeFormatter", "src/fastforward/_autoquant/pybuilder/writer.py: FileWriter", "src/fastforward/_autoquant/pybuilder/importing.py: import_code"]}
{"id": "C148", "title": "Exports keep the files of earlier exports", "statement": "An export writes its model, its weights, its encodings and recorded inputs and outputs to different files named after it in its directory, and touches no others; after any history of exports under different names or to different directories, the files of each have its content.", "quantifier": "All histories of exports, all names and directories, all options for where weights are stored, all states of the file system before.", "why_tests_cant": "Tests export one model to an empty directory; whether files collide depends on pairs of names and options over a history.", "anchors": ["src/fastforward/export/stages/onnx/onnx_export_stages.py: stage_save_onnx_proto, stage_onnx_proto_to_encodings, _resolve_output_path_from_context", "src/fastforward/export/stages/base_pipeline_stages.py: stage_capture_model_io", "src/fastforward/export/stages/gguf/gguf_export_stages.py: stage_write_gguf"]}
{"id": "C149", "title": "Compiling quantization functions changes no result", "statement": "Whatever was called before and however the flag for compiled quantization functions was switched, every call of a quantization function gives the result of the function for its arguments, with the number of bits as a float; a function is compiled at most once, and exactly if it is called while the flag is set; after a with block the flag is what it was.", "quantifier": "All histories of calls and of setting the flag, directly and by with blocks; all arguments; all compiled functions that compute what the functions compute.", "why_tests_cant": "The compiled function is kept in a variable over all later calls; tests call once with and once without the flag.", "anchors": ["src/fastforward/quantization/_quantizer_impl.py: conditional_compile", "src/fastforward/flags.py: compiled_quant_funcs"]}
{"id": "C150", "title": "Trying out a range gives what the quantizer gives once the range is set", "statement": "After any history of setting ranges and resetting, if a range can be set on a linear quantizer, then the operator for that range, with which range setting tries ranges out, gives for every element of every tile exactly what the quantizer gives after the range is set; the operator depends only on the range and on how the quantizer was made.", "quantifier": "All bit widths, symmetric or not, one-sided or not; all histories; all ranges with any number of tiles; all values.", "why_tests_cant": "Range estimation by trial picks the best range by its operator and then sets it; a difference shows only for some ranges, such as one-sided ones, and some histories.", "anchors": ["src/fastforward/nn/linear_quantizer.py: LinearQuantizer.operator_for_range, LinearQuantizer.quantization_range", "src/fastforward/quantization/affine/range.py: parameters_for_range"]}
{"id": "C151", "title": "Straight-through functions give their own values and pass gradients unchanged", "statement": "A call of a function decorated as straight-through succeeds exactly if the function returns a tensor of the input's shape, and returns that tensor. In every program using such functions, the gradient that reaches each element of each input is the gradient of the result times the slope of the program in which every decorated call is read as its input plus a constant.", "quantifier": "All programs of inputs, elementwise sums and products and decorated calls in any nesting; all wrapped functions; all inputs, elements and result gradients.", "why_tests_cant": "The gradient is by design not that of the function, so numeric gradient checks cannot confirm it, and it must hold wherever decorated functions occur in a program.", "anchors": ["src/fastforward/quantization/ste.py: ste, STEAutogradFunc, round_ste"]}
{"id": "C152", "title": "Random quantized tensors have the codes of the parameters asked for", "statement": "A random quantized tensor is made exactly if scale and offset have one element or one for each tile. Whatever is sampled, each of its elements is the code nearest to the sample for the scale and offset meant for its tile, within the codes of the number of bits; a number, or nothing, given as the offset means the same for every tile.", "quantifier": "All samples, shapes, tile sizes that divide the shape, numbers of bits, and scales and offsets given as numbers or tensors.", "why_tests_cant": "The samples differ in each run, so a test sees one tensor; which element gets which parameter depends on shape, tiles and how the parameters are given.", "anchors": ["src/fastforward/quantization/random.py: random_quantized", "src/fastforward/quantization/_quantizer_impl.py: quantize_by_tile_impl"]}
{"id": "C153", "title": "Deriving a quantization context never changes an existing one", "statement": "Whatever contexts were made, derived and assigned to before, no operation changes what an existing context says, except an assignment to its own parameters. Changing parameters is refused exactly if a name is unknown and otherwise changes exactly the named parameters; making parameters contiguous returns the context itself exactly if they all are contiguous, and otherwise copies exactly those that are not.", "quantifier": "All histories of making contexts, also for parameters of other contexts, changing, converting and making contiguous their parameters and assigning to them; all functions, parameter names and values.", "why_tests_cant": "Contexts are shared by many tensors and parameters objects are mutable, so a shared object shows only after particular histories of derivations and assignments.", "anchors": ["src/fastforward/quantization/function.py: QuantizationContext, QuantizationParameters", "src/fastforward/dataclasses.py: nocopy_asdict"]}
