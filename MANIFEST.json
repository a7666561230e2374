{
 "claims": [
  {
   "property": "C01",
   "status": "proved",
   "theorems": [
    "FF.Quant.quantize_code_in_range",
    "FF.Quant.quantize_fails_iff"
   ],
   "note": "Every admissible and inadmissible input of the scalar kernel: a returned code is in range; the only failure is division by a zero scale."
  },
  {
   "property": "C02",
   "status": "proved",
   "theorems": [
    "FF.Quant.qdq_error_le_half_step",
    "FF.Quant.qdq_saturates_below",
    "FF.Quant.qdq_saturates_above",
    "FF.Quant.quantize_nearest",
    "FF.Tiling.tiled_qdq_half_step"
   ],
   "note": "Half-step bound inside the range, saturation to the extreme codes outside it, and the code is a nearest one. Exact rationals instead of floats."
  },
  {
   "property": "C03",
   "status": "proved",
   "theorems": [
    "FF.Quant.quantize_dequantize",
    "FF.Quant.qdq_idempotent"
   ],
   "note": "Quantizing a dequantized code gives the code back; a second quantize-dequantize changes nothing."
  },
  {
   "property": "C04",
   "status": "proved",
   "theorems": [
    "FF.Quant.quantize_monotone",
    "FF.Quant.dequantize_lt_iff",
    "FF.Quant.dequantize_lt_iff_neg"
   ],
   "note": "Order is preserved by quantization for positive scales, by dequantization for positive scales and reversed for negative ones."
  },
  {
   "property": "C05",
   "status": "proved",
   "theorems": [
    "FF.Quant.asym_range_roundtrip",
    "FF.Quant.asym_range_covers"
   ],
   "note": "The asymmetric parameters reproduce the requested range (extended to zero) and cover it."
  },
  {
   "property": "C06",
   "status": "partial",
   "theorems": [
    "FF.Quant.sym_range_covers_partial",
    "FF.Quant.sym_one_sided_covers",
    "FF.Quant.sym_all_zero_unusable",
    "FF.Quant.sym_one_bit_not_finite"
   ],
   "note": "Symmetric ranges cover the request when some bound is non-zero and num_bits > 1; the two excluded cases are proved to violate the property (sym_all_zero_unusable, sym_one_bit_not_finite)."
  },
  {
   "property": "C07",
   "status": "proved",
   "theorems": [
    "FF.Quant.dynamic_half_step",
    "FF.Quant.dynamic_empty_rejected"
   ],
   "note": "Every element of every row is within half of its own row's step; empty rows are rejected."
  },
  {
   "property": "C08",
   "status": "proved",
   "theorems": [
    "FF.Tiling.tiles_to_rows_spec",
    "FF.Tiling.rows_to_tiles_spec",
    "FF.Tiling.tiling_roundtrip",
    "FF.Tiling.tiling_roundtrip_empty",
    "FF.Tiling.tiles_to_rows_data_shape",
    "FF.Tiling.same_row_iff_same_tile",
    "FF.Tiling.tiling_bijective",
    "FF.Tiling.tiles_to_rows_ok_iff"
   ],
   "note": "tiles_to_rows and rows_to_tiles are proved against an index specification (tile number, position within tile); both round trips, bijectivity, and the exact acceptance condition."
  },
  {
   "property": "C09",
   "status": "proved",
   "theorems": [
    "FF.Gran.per_channel_shares_iff",
    "FF.Gran.per_channel_param_number",
    "FF.Gran.per_block_shares_iff",
    "FF.Tiling.quantize_by_tile_elementwise",
    "FF.Tiling.dequantize_by_tile_elementwise",
    "FF.Tiling.quantize_by_tile_ok_iff",
    "FF.Tiling.tiled_qdq_half_step"
   ],
   "note": "Tiled quantization equals elementwise quantization with the parameters of the element's own tile, for every granularity."
  },
  {
   "property": "C10",
   "status": "proved",
   "theorems": [
    "FF.Gran.per_channel_tile",
    "FF.Gran.per_block_accepts_iff",
    "FF.Gran.per_block_tile",
    "FF.Gran.granularity_tile_divides",
    "FF.Gran.per_tensor_one_parameter",
    "FF.Gran.granularity_from_sizes_roundtrip",
    "FF.Gran.granularity_from_sizes_non_dividing",
    "FF.Gran.per_block_created_iff",
    "FF.Gran.per_channel_from_end"
   ],
   "note": "Exact acceptance condition and tile sizes for each granularity; recovering a granularity from sizes. Non-dividing sizes give a granularity that rejects its own shape (proved as granularity_from_sizes_non_dividing)."
  },
  {
   "property": "C11",
   "status": "partial",
   "theorems": [
    "FF.Gran.granularity_eq_same_tiles_partial",
    "FF.Gran.granularity_eq_unsound"
   ],
   "note": "Equal granularities give the same tiles except for two PerBlock values, where equality ignores the fields; granularity_eq_unsound proves the violation."
  },
  {
   "property": "C12",
   "status": "partial",
   "theorems": [
    "FF.Quant.float_dtype_accepts_iff_partial",
    "FF.Quant.int_dtype_represents_partial",
    "FF.Quant.int_dtype_accepts_too_much"
   ],
   "note": "Exact for all floating dtypes; for signed integer dtypes acceptance is too generous by two bits (int_dtype_accepts_too_much proves the violation)."
  },
  {
   "property": "C13",
   "status": "proved",
   "theorems": [
    "FF.Quant.surrogate_eq_value",
    "FF.Quant.grad_input_is_slope",
    "FF.Quant.grad_scale_is_slope",
    "FF.Quant.grad_offset_is_slope",
    "FF.Quant.grad_row_is_total_slope"
   ],
   "note": "Each gradient formula is the slope of the piecewise-linear surrogate that agrees with quantize-dequantize at the evaluation point."
  },
  {
   "property": "C14",
   "status": "proved",
   "theorems": [
    "FF.TOps.scalar_multiply_value",
    "FF.TOps.scalar_multiply_applies_iff"
   ],
   "note": "Multiplying the scale multiplies every dequantized value; the kernel applies exactly to per-tensor tensors."
  },
  {
   "property": "C15",
   "status": "partial",
   "theorems": [
    "FF.TOps.cat_faithful_partial",
    "FF.TOps.cat_mixed_offsets_unfaithful"
   ],
   "note": "Proved when all inputs have an offset or none does; cat_mixed_offsets_unfaithful proves that a first input without offset followed by one with an offset is accepted and gives wrong values."
  },
  {
   "property": "C16",
   "status": "partial",
   "theorems": [
    "FF.TOps.unsqueeze_per_tile",
    "FF.TOps.unsqueeze_per_channel_partial",
    "FF.TOps.unsqueeze_wrong_axis",
    "FF.TOps.getitem_per_channel_value",
    "FF.TOps.ellipsis_full_slices"
   ],
   "note": "Indexing is proved for all basic index expressions on per-channel tensors. unsqueeze is proved for tiles and for the channel axes where the computed axis is right; unsqueeze_wrong_axis proves the violation for the others."
  },
  {
   "property": "C17",
   "status": "proved",
   "theorems": [
    "FF.Orch.topological_sort_valid",
    "FF.Orch.topological_sort_complete",
    "FF.Orch.topological_sort_iff_acyclic",
    "FF.Orch.topological_sort_closure"
   ],
   "note": "Kahn's algorithm as written, over arbitrary graphs with distinct ids. Valid order, completeness, exact acyclicity condition, closure restriction."
  },
  {
   "property": "C18",
   "status": "proved",
   "theorems": [
    "FF.Orch.find_cycle_sound",
    "FF.Orch.find_cycle_none_iff"
   ],
   "note": "Under the documented precondition that every node is a key. Soundness (simple closed path along edges), exact None condition, termination."
  },
  {
   "property": "C19",
   "status": "proved",
   "theorems": [
    "FF.Orch.ancestors_closure",
    "FF.Orch.ancestors_all",
    "FF.Orch.ancestors_strict",
    "FF.Orch.ancestors_strict_needs_stop"
   ],
   "note": "Exact reachability without strict; exact between-set with strict in acyclic graphs; exact reached flag."
  },
  {
   "property": "C20",
   "status": "proved",
   "theorems": [
    "FF.Orch.contexts_exact",
    "FF.Orch.dead_nested_attribute_keyError",
    "FF.Orch.const_attribute_diverges",
    "FF.Orch.scheduled_run_denotes",
    "FF.Orch.denotation_unique",
    "FF.Orch.run_never_misses_an_activation",
    "FF.Orch.run_completes"
   ],
   "note": "Soundness (a successful run returns the denotation), uniqueness of the denotation, completeness (whenever the graph has a meaning the run succeeds), exactness of the contexts each node runs in, and no missing activation for well-formed graphs. Two witnesses show where the engine does fail: a node that is not needed with a nested attribute argument (KeyError), and an attribute of a constant (endless loop)."
  },
  {
   "property": "C21",
   "status": "proved",
   "theorems": [
    "FF.Orch.lifetime_pass_same_result",
    "FF.Orch.lifetime_pass_frees"
   ],
   "note": "Any instruction list, any register, any semantics of modules: same result or exception and same module state; exact bound on what stays in the register."
  },
  {
   "property": "C22",
   "status": "partial",
   "theorems": [
    "FF.Orch.optimization_only_follows_partial",
    "FF.Orch.optimization_only_same_modules_partial",
    "FF.Orch.optimization_only_same_calls_partial",
    "FF.Orch.optimization_only_minimal",
    "FF.Orch.optimization_only_unchanged",
    "FF.Orch.no_contexts_fails"
   ],
   "note": "Every scheduled graph with an optimization step: the pruned run follows the full run as far as that gets, with the same modules and the same calls of delegates on the same activations, and nothing superfluous is kept. Partial: delegates that ask for no context are excluded (deviation no_contexts_fails)."
  },
  {
   "property": "C23",
   "status": "partial",
   "theorems": [
    "FF.Orch.first_module_left_behind",
    "FF.Orch.parts_overwrite_each_other",
    "FF.Orch.part_extracted_again_not_moved",
    "FF.Orch.modules_not_restored",
    "FF.Orch.offload_only_adds_moves",
    "FF.Orch.insert_moves_same_results_partial",
    "FF.Orch.offload_same_results_partial",
    "FF.Orch.optimize_offloaded_partial"
   ],
   "note": "Devices are modelled as a refusal to run anything whose parameters or activations are not on the compute device. Inserting the moves is correct for every program; with the removal of redundant moves the theorems exclude parts of values, a program that begins with the module stored last, and restoring after a return, each of which has a deviation theorem. Parameters shared between modules and values spread over devices are not modelled."
  },
  {
   "property": "C24",
   "status": "proved",
   "theorems": [
    "FF.Orch.bind_accepts_iff",
    "FF.Orch.bind_once",
    "FF.Orch.prepare_register_spec"
   ],
   "note": "Exact acceptance condition of argument binding, each input bound once, and the resulting register for every context."
  },
  {
   "property": "C25",
   "status": "proved",
   "theorems": [
    "FF.Orch.broadcast_ok_iff",
    "FF.Orch.broadcast_error_iff",
    "FF.Orch.merge_spec"
   ],
   "note": "Exact success and failure conditions of broadcasting and the rows produced."
  },
  {
   "property": "C26",
   "status": "partial",
   "theorems": [
    "FF.Orch.inlining_keeps_old_values",
    "FF.Orch.inlined_outputs_partial",
    "FF.Orch.inlining_accepted_iff",
    "FF.Orch.inlined_structure",
    "FF.Orch.inlined_run_partial",
    "FF.Orch.part_name_captures",
    "FF.Orch.failed_inlining_leaves_fold",
    "FF.Orch.delegates_dropped"
   ],
   "note": "Values: every pair of closed graphs, every binding, context and module state, without running; runs: graphs without delegates. Partial: input names of the form x[0] beside x are excluded (deviation part_name_captures); delegates are dropped (deviation delegates_dropped); a refused call leaves a fold behind (deviation failed_inlining_leaves_fold). Registration of targets as submodules is not modelled."
  },
  {
   "property": "C27",
   "status": "proved",
   "theorems": [
    "FF.Swap.swaps_are_scoped",
    "FF.Swap.block_restores_its_entry",
    "FF.Swap.override_applies_to_all_partials"
   ],
   "note": "All nestings, all exception points, with the program cache filled by forward calls in between; a block also restores its own entry if the body overwrote it. A context that is constructed but never entered is not covered (the library never does this)."
  },
  {
   "property": "C28",
   "status": "partial",
   "theorems": [
    "FF.Dispatch.dispatch_most_recent_best_partial",
    "FF.Dispatch.duplicate_registration_wrong_removal"
   ],
   "note": "Binary search, insertion and removal as written. Proved for histories without two equal registrations; duplicate_registration_wrong_removal proves the violation for those."
  },
  {
   "property": "C29",
   "status": "partial",
   "theorems": [
    "FF.Dispatch.ended_registration_has_no_effect_partial",
    "FF.Dispatch.nested_blocks_restore"
   ],
   "note": "Any interleaving without equal registrations; properly nested blocks also with equal ones."
  },
  {
   "property": "C30",
   "status": "proved",
   "theorems": [
    "FF.Flags.flags_are_scoped",
    "FF.Flags.block_restores_its_flag",
    "FF.Flags.only_plain_setters_last"
   ],
   "note": "All nestings, exceptions and plain setters."
  },
  {
   "property": "C31",
   "status": "partial",
   "theorems": [
    "FF.Strict.module_strictness_scoped_partial",
    "FF.Strict.exception_leaks",
    "FF.Strict.reentry_leaks",
    "FF.Strict.two_handles_leak"
   ],
   "note": "Proved for trees of calls without re-entry, one handle per module, no exception; the three other cases are proved to violate the property for every module, handle and state concerned."
  },
  {
   "property": "C32",
   "status": "partial",
   "theorems": [
    "FF.Overrides.overrides_wrap_partial",
    "FF.Overrides.removed_override_has_no_effect",
    "FF.Overrides.second_continuation_call_skips_overrides"
   ],
   "note": "All histories of registrations and removals for overrides that call their continuation at most once; second_continuation_call_skips_overrides proves the violation otherwise. Removal is proved for arbitrary overrides."
  },
  {
   "property": "C33",
   "status": "proved",
   "theorems": [
    "FF.Disable.quantization_switches_are_scoped",
    "FF.Disable.switches_leave_nothing",
    "FF.Disable.disabled_returns_input",
    "FF.Disable.enabled_quantizes"
   ],
   "note": "All nestings of disable, enable, user overrides (calling their continuation at most once) and strict blocks, with exceptions anywhere."
  },
  {
   "property": "C34",
   "status": "proved",
   "theorems": [
    "FF.MPath.second_name_not_found",
    "FF.MPath.search_exact",
    "FF.MPath.search_exact_cyclic"
   ],
   "note": "Every module graph (shared modules, and cycles in search_exact_cyclic), every selector without braces, sound and complete with uniqueness; the search loop as written, shown to terminate. second_name_not_found shows that a module registered twice under one parent is only matched by its first name, as named_children skips it."
  },
  {
   "property": "C35",
   "status": "partial",
   "theorems": [
    "FF.MPath.alternatives_are_union_partial",
    "FF.MPath.brace_star_misses_parent",
    "FF.MPath.brace_star_diverges",
    "FF.MPath.brace_star_alternative_dropped",
    "FF.MPath.brace_shared_fragments_skipped"
   ],
   "note": "Proved for selectors whose braces contain no ** reachable without a step (Regular) and hierarchies without one module reachable along two paths; four theorems prove violations outside that: {**,a} misses the parent, {**} never ends, {**,**/b} drops an alternative, and fragments shared between alternatives are skipped."
  },
  {
   "property": "C36",
   "status": "proved",
   "theorems": [
    "FF.MParse.parse_print",
    "FF.MParse.parse_accepts_grammar",
    "FF.MParse.parse_alias",
    "FF.MParse.quoted_is_one_token"
   ],
   "note": "Lexer and parser as written, over arbitrary lawful character classes. Quotes inside brackets are excluded from the round trip (the lexer swallows whole strings), but covered by the grammar theorem."
  },
  {
   "property": "C37",
   "status": "partial",
   "theorems": [
    "FF.MPath.set_operations_partial",
    "FF.MPath.different_roots_rejected",
    "FF.MPath.shared_module_counted_twice"
   ],
   "note": "Proved for collections where every module has one path; shared_module_counted_twice proves the violation otherwise."
  },
  {
   "property": "C38",
   "status": "proved",
   "theorems": [
    "FF.QConfig.initialize_best_rule",
    "FF.QConfig.winner_unique",
    "FF.QConfig.last_rule_wins",
    "FF.QConfig.initialize_refuses",
    "FF.QConfig.initialize_by_queries",
    "FF.QConfig.shared_quantizer_replaced_once"
   ],
   "note": "Every rule list, scoring function, policy and search outcome; initialize_by_queries ties it to the module search. A quantizer registered at two places is one search result and is only replaced at one of them (shared_quantizer_replaced_once); under the policy error the quantizers before the refused one stay replaced."
  },
  {
   "property": "C39",
   "status": "proved",
   "theorems": [
    "FF.Tags.contains_iff_above",
    "FF.Tags.tag_query_iff",
    "FF.Tags.tags_interned",
    "FF.Tags.fromRaw_reads",
    "FF.Tags.slash_above",
    "FF.Tags.kind_tags"
   ],
   "note": "Every history of tag creations and metadata updates."
  },
  {
   "property": "C40",
   "status": "partial",
   "theorems": [
    "FF.SaveLoad.shared_tensors_survive_partial",
    "FF.SaveLoad.stored_once",
    "FF.SaveLoad.view_with_other_type_lost"
   ],
   "note": "Every state dictionary and sharing pattern, guarded by: the same view of memory has one element type. view_with_other_type_lost proves the violation without the guard."
  },
  {
   "property": "C41",
   "status": "partial",
   "theorems": [
    "FF.SaveLoad.save_load_round_trip_partial",
    "FF.SaveLoad.quantizer_without_parameters_not_loadable",
    "FF.SaveLoad.name_with_comma_not_loadable",
    "FF.SaveLoad.shared_layer_not_loadable"
   ],
   "note": "Every set of names, sharing pattern, parameter set and policy. Not covered, and refuted by the deviations: quantizers without parameters, names with reserved characters, a layer under several names under the default policy."
  },
  {
   "property": "C42",
   "status": "partial",
   "theorems": [
    "FF.SaveLoad.load_mismatch_refused",
    "FF.SaveLoad.load_replaces_only_quantizers",
    "FF.SaveLoad.load_model_checked_partial",
    "FF.SaveLoad.half_loaded",
    "FF.SaveLoad.weights_mismatch_after_attach"
   ],
   "note": "Version, name, quantizer entries and weights: all checks refuse mismatches; load_replaces_only_quantizers bounds what any load can change. half_loaded and weights_mismatch_after_attach prove that some refusals come after part of the model was changed."
  },
  {
   "property": "C43",
   "status": "partial",
   "theorems": [
    "FF.Serialize.records_outermost_arguments",
    "FF.Serialize.records_new_arguments",
    "FF.Serialize.load_rebuilds_partial",
    "FF.Serialize.load_gives_equal_object",
    "FF.Serialize.inherited_constructor_not_loadable",
    "FF.Serialize.new_arguments_overwritten"
   ],
   "note": "Whole life cycle of serializable objects over arbitrary class hierarchies; load_rebuilds is partial because the class must define its own constructor (deviation inherited_constructor_not_loadable) and __new__ arguments are kept per class (deviation new_arguments_overwritten)."
  },
  {
   "property": "C44",
   "status": "proved",
   "theorems": [
    "FF.MinMax.running_refuses_infinite",
    "FF.MinMax.running_range_exact",
    "FF.MinMax.running_independent_of_batching",
    "FF.MinMax.smoothed_is_moving_average",
    "FF.MinMax.smoothed_from_range",
    "FF.MinMax.smoothed_in_hull"
   ],
   "note": "Running and smoothed min/max over every sequence of batches; NaN is not modelled."
  },
  {
   "property": "C45",
   "status": "partial",
   "theorems": [
    "FF.MinError.grid_search_minimal_partial",
    "FF.MinError.update_policy_followed",
    "FF.MinError.uniform_grid_size",
    "FF.MinError.uniform_search_minimal_partial",
    "FF.MinError.unevaluated_candidate_chosen",
    "FF.MinError.uniform_grid_too_large"
   ],
   "note": "Partial: the grid must have as many rows as candidates are evaluated; for other sizes the deviation theorems show that a never evaluated candidate wins."
  },
  {
   "property": "C46",
   "status": "partial",
   "theorems": [
    "FF.Estimate.no_estimator_left_partial",
    "FF.Estimate.estimation_restores_overrides_partial",
    "FF.Estimate.other_overrides_kept",
    "FF.Estimate.estimator_outermost",
    "FF.Estimate.setup_failure_leaks"
   ],
   "note": "Partial: set-up must not fail half way (deviation setup_failure_leaks). Arbitrary nesting of contexts, exceptions and other overrides is covered."
  },
  {
   "property": "C47",
   "status": "proved",
   "theorems": [
    "FF.Operator.validate_iff_accepts",
    "FF.Operator.bind_partial_spec",
    "FF.Operator.positional_only_bound_last"
   ],
   "note": "Acceptance of calls is exactly Python's call rule for the operator's ordered parameters; the deviation shows that positional-only parameters are ordered last by the specification parser."
  },
  {
   "property": "C48",
   "status": "proved",
   "theorems": [
    "FF.OpTable.lookup_newest_first",
    "FF.OpTable.lookup_never_guesses",
    "FF.OpTable.added_operator_first",
    "FF.OpTable.callable_owner_permanent",
    "FF.OpTable.alias_collision_refused",
    "FF.OpTable.found_by_fallback_name",
    "FF.OpTable.name_alias_redirected",
    "FF.OpTable.failed_add_takes_effect",
    "FF.OpTable.second_fallback_name_unknown"
   ],
   "note": "Every history of registrations and aliases, including refused ones; resolving dispatch functions and missing metadata are not modelled. Deviations: string aliases can be redirected, a refused alias leaves the operator registered, second fallback names are not found."
  },
  {
   "property": "C49",
   "status": "partial",
   "theorems": [
    "FF.Symtypes.eqv_trans",
    "FF.Symtypes.mem_union_iff",
    "FF.Symtypes.union_eq_of_same_variants",
    "FF.Symtypes.union_order_insensitive",
    "FF.Symtypes.union_flattens",
    "FF.Symtypes.union_idempotent",
    "FF.Symtypes.eqv_iff_eq_partial",
    "FF.Symtypes.unwrap_optional_single",
    "FF.Symtypes.unwrap_optional_union",
    "FF.Symtypes.eqv_not_symmetric",
    "FF.Symtypes.membership_lost_in_union",
    "FF.Symtypes.single_union_not_type",
    "FF.Symtypes.equal_variants_kept"
   ],
   "note": "Partial: order, repetition and nesting do not matter for any union, for every hash function and set order; equality is reflexive and transitive but not symmetric (deviation), so it is an equivalence only on types without unions."
  },
  {
   "property": "C50",
   "status": "proved",
   "theorems": [
    "FF.Pipeline.build_order",
    "FF.Pipeline.build_target_order",
    "FF.Pipeline.build_fails_iff",
    "FF.Pipeline.run_calls",
    "FF.Pipeline.run_fails_only_in_stages"
   ],
   "note": "Every stage set and dependency relation; stages are numbered and compared by identity; a stage is a function of its inputs and the shared context that may fail."
  },
  {
   "property": "C51",
   "status": "partial",
   "theorems": [
    "FF.Pipeline.edits_keep_buildable",
    "FF.Pipeline.add_dependency_refused_iff",
    "FF.Pipeline.remove_dependency_spec",
    "FF.Pipeline.add_dependency_spec",
    "FF.Pipeline.inserted_before_runs_immediately_before",
    "FF.Pipeline.inserted_after_takes_over",
    "FF.Pipeline.replaced_at_same_position_partial",
    "FF.Pipeline.replaced_input_moves",
    "FF.Pipeline.inserted_before_runs_after",
    "FF.Pipeline.inserted_after_runs_later"
   ],
   "note": "Every sequence of edits keeps a buildable pipeline buildable, and the cycle check is exact. Partial: argument positions are kept when the dependent lists the replaced stage as its only dependency or as the last one; deviations show the position moves otherwise, and that insertion does not always place a stage next to its target in the built order."
  },
  {
   "property": "C52",
   "status": "partial",
   "theorems": [
    "FF.Gguf.q4_0_decodes",
    "FF.Gguf.q8_0_decodes_partial",
    "FF.Gguf.decodes_near",
    "FF.Gguf.q8_0_lowest_code_lost",
    "FF.Gguf.one_sided_decodes_wrong",
    "FF.Gguf.tiny_scale_vanishes",
    "FF.Gguf.validate_iff",
    "FF.Gguf.query_projection_exported"
   ],
   "note": "Bit-exact packing including the fp16 rounding of scales (Half.lean). q4_0 for every matrix; q8_0 partial because code -128 is clamped (deviation q8_0_lowest_code_lost). decodes_near bounds the fp16 error of the scale. Deviations: one-sided quantizers' offsets are ignored, tiny scales vanish in fp16."
  },
  {
   "property": "C53",
   "status": "proved",
   "theorems": [
    "FF.Gguf.rope_index_defined_iff",
    "FF.Gguf.rope_index_position",
    "FF.Gguf.rope_index_perm",
    "FF.Gguf.rows_keep_scales",
    "FF.Gguf.query_projection_exported"
   ],
   "note": "The index is a permutation with the stated position for every head count and size, and rows keep their scales."
  },
  {
   "property": "C54",
   "status": "proved",
   "theorems": [
    "FF.Lpbq.construct_iff",
    "FF.Lpbq.lpbq_scales",
    "FF.Lpbq.lpbq_rest"
   ],
   "note": "Every block grouping, bit-width pair and positive scale matrix: reconstruction error, extremes and the rest of the entry; construct_iff is the exact acceptance condition."
  },
  {
   "property": "C55",
   "status": "partial",
   "theorems": [
    "FF.Enc.legacy_describes",
    "FF.Enc.v1_describes",
    "FF.Enc.v1_kind",
    "FF.Enc.v1_symmetric_flag_partial",
    "FF.Enc.mixed_offsets_marked_symmetric",
    "FF.Enc.v2_describes_partial",
    "FF.Enc.mixed_offsets_lose_zero_point",
    "FF.Enc.block_zero_point_shifted",
    "FF.Enc.metadata_roundtrip",
    "FF.Enc.quantizer_without_offset_fails",
    "FF.Enc.asymmetric_blocks_refused"
   ],
   "note": "Legacy and 1.0.0 entries describe the quantizer exactly (values of codes, min/max, kind). The symmetric flag and schema 2.0.0 are partial: quantizers with mixed zero and non-zero offsets and asymmetric block quantizers are exported wrongly (deviations). JSON text is taken to round-trip."
  },
  {
   "property": "C56",
   "status": "proved",
   "theorems": [
    "FF.Enc.first_encoding_wins",
    "FF.Enc.cleared_is_new",
    "FF.Enc.failed_add_changes_nothing",
    "FF.Enc.extract_fresh",
    "FF.Enc.extract_first_wins",
    "FF.Enc.extract_covers",
    "FF.Enc.earlier_result_overwritten"
   ],
   "note": "Every history of additions and clears, failing additions included, and every ONNX graph. Deviation: the returned dictionary shares the handler's lists."
  },
  {
   "property": "C57",
   "status": "partial",
   "theorems": [
    "FF.Naming.name_map_injective_partial",
    "FF.Naming.layer_names_mapped",
    "FF.Naming.extra_names_mapped",
    "FF.Naming.only_known_names_mapped",
    "FF.Naming.trailing_newline_collides"
   ],
   "note": "Injective on names that do not end in a newline; layer_names_mapped and only_known_names_mapped give the exact map. The character class of digits is arbitrary (a dot is not a digit). Deviation: `$` accepts a trailing newline."
  },
  {
   "property": "C58",
   "status": "partial",
   "theorems": [
    "FF.Propagate.propagation_terminates",
    "FF.Propagate.annotations_kept",
    "FF.Propagate.spreads_along_views_only",
    "FF.Propagate.spreads_to_viewed",
    "FF.Propagate.spreads_to_views",
    "FF.Propagate.propagation_exact_partial",
    "FF.Propagate.sibling_view_missed"
   ],
   "note": "Termination, no overwriting, soundness, upward and downward spreading for every graph; the full equivalence is partial because a view whose sibling is annotated first-hand can be missed (deviation sibling_view_missed)."
  },
  {
   "property": "C59",
   "status": "partial",
   "theorems": [
    "FF.Names.names_distinct_partial",
    "FF.Names.same_base_name_distinct",
    "FF.Names.name_has_prefix",
    "FF.Names.numbered_name_clashes",
    "FF.Names.prefixed_name_clashes"
   ],
   "note": "Distinct names for equal base names always; for different base names only if prefixed and numbered names do not clash (deviations numbered_name_clashes, prefixed_name_clashes). Groups and base names are arbitrary."
  },
  {
   "property": "C60",
   "status": "partial",
   "theorems": [
    "FF.Pattern.scope_at_node",
    "FF.Pattern.scope_matches_iff",
    "FF.Pattern.prefilter_keeps",
    "FF.Pattern.kept_rules_apply",
    "FF.Pattern.rules_applied_exhaustively",
    "FF.Pattern.out_of_scope_unchanged",
    "FF.Pattern.rewriting_terminates_partial",
    "FF.Pattern.growing_rule_diverges",
    "FF.Pattern.contiguous_part_not_matched"
   ],
   "note": "Scope stack, scope matching, module filter and the rewriting loop for every tree, rule list and scope; matching a single pattern is a parameter. Termination is partial: it needs finitely many reachable forms (deviation growing_rule_diverges). Deviation: the scope is matched as a prefix, the documentation says contiguous segment."
  },
  {
   "property": "C61",
   "status": "partial",
   "theorems": [
    "FF.Imports.resolves_like_python_partial",
    "FF.Imports.absolute_unchanged",
    "FF.Imports.package_resolved_in_parent",
    "FF.Imports.beyond_top_level_accepted"
   ],
   "note": "Exact for plain modules and levels that stay inside the package. Deviations: `__init__` modules resolve in the parent, levels beyond the root are accepted."
  },
  {
   "property": "C62",
   "status": "proved",
   "theorems": [
    "FF.Dataflow.merge_branches",
    "FF.Dataflow.merge_into_parent",
    "FF.Dataflow.overwrite_parent",
    "FF.Dataflow.record_keeps_status"
   ],
   "note": "Merging of branch scopes, of a nested scope into its parent, overwriting, and preservation of the quantized status, for every scope."
  },
  {
   "property": "C63",
   "status": "proved",
   "theorems": [
    "FF.GptqCol.column_quantizer_eq_full",
    "FF.GptqCol.other_granularities_refused",
    "FF.GptqCol.negative_channel_refused",
    "FF.GptqCol.partial_range_local"
   ],
   "note": "Every weight shape, accepted granularity, column, parameters and values (nan included); refused granularities are characterised. Deviation: equivalent spellings of channel dimensions raise TypeError. partial_range_local covers update_partial_range."
  },
  {
   "property": "C64",
   "status": "proved",
   "theorems": [
    "FF.Hessian.hessian_value",
    "FF.Hessian.batching_irrelevant",
    "FF.Hessian.empty_first_batch_fails",
    "FF.Hessian.dampened_positive_definite"
   ],
   "note": "Exact reals. Value, batching, symmetry and positive definiteness with dampening for every dataset that does not begin with an empty batch (deviation: that one raises ZeroDivisionError). The unfolding of convolution inputs is not modelled: a batch is a list of samples."
  },
  {
   "property": "C65",
   "status": "partial",
   "theorems": [
    "FF.Cache.directory_precedence",
    "FF.Cache.path_shape",
    "FF.Cache.plain_names_distinct_partial",
    "FF.Cache.paths_collide",
    "FF.Cache.parent_escapes"
   ],
   "note": "Shape of the path and precedence of directories for all names; distinctness is partial (plain names), collisions and escape are deviations. POSIX paths; Path parsing and resolving are parameters."
  },
  {
   "property": "C66",
   "status": "proved",
   "theorems": [
    "FF.TOps.per_tensor_move_value"
   ],
   "note": "Any operation that moves elements (modelled by an index map) commutes with dequantization of a per-tensor tensor; indexing, reshape and transpose are shown to be such moves."
  },
  {
   "property": "C67",
   "status": "partial",
   "theorems": [
    "FF.TOps.topk_value_partial",
    "FF.TOps.topk_negative_scale"
   ],
   "note": "Proved for positive scales; topk_negative_scale proves the violation for negative ones. torch.topk is a relation because it does not fix ties."
  },
  {
   "property": "C68",
   "status": "proved",
   "theorems": [
    "FF.QConfig.collection_initialize",
    "FF.QConfig.apply_replaces",
    "FF.QConfig.safe_update",
    "FF.QConfig.apply_without_update_never_calls"
   ],
   "note": "Every collection whose results point to where the modules are. apply_without_update_never_calls proves that update=False disables the call itself."
  },
  {
   "property": "C69",
   "status": "proved",
   "theorems": [
    "FF.MinError.uniform_grid_candidates",
    "FF.MinError.uniform_grid_candidates_asymmetric",
    "FF.MinError.uniform_grid_covers"
   ],
   "note": "Exact candidates of all three grids and coverage of the first batch; coverage of the asymmetric grid needs a square number of candidates (cf. C45 deviation)."
  },
  {
   "property": "C70",
   "status": "partial",
   "theorems": [
    "FF.Qdq.lowering_accepts_iff",
    "FF.Qdq.dequantize_exact_partial",
    "FF.Qdq.same_error",
    "FF.Qdq.codes_close",
    "FF.Qdq.quantize_exact_partial",
    "FF.Qdq.odd_offset_tie_differs",
    "FF.Qdq.zero_point_out_of_range",
    "FF.Qdq.same_parameter",
    "FF.Qdq.block_tiling_accepted",
    "FF.Qdq.fractional_bits_truncated",
    "FF.Qdq.lowerings_merged"
   ],
   "note": "Bit-widths, dequantization, error and parameter selection for every tensor; the codes are exact unless the rounded offset is odd and the number lies exactly between two codes (deviation), the values unless the zero point does not fit the storage type (deviation). Block tilings and fractional bit-widths are not refused (deviations). ONNX operators are specified from the ONNX standard."
  },
  {
   "property": "C71",
   "status": "proved",
   "theorems": [
    "FF.Annotate.annotate_removes",
    "FF.Annotate.annotate_spec",
    "FF.Annotate.requantization_keeps_last"
   ],
   "note": "Every graph in topological order. Deviation: a tensor quantized by two different quantizers keeps the last one only."
  },
  {
   "property": "C72",
   "status": "partial",
   "theorems": [
    "FF.Dataflow.quantized_uses_annotated_partial",
    "FF.Dataflow.loop_free_succeeds",
    "FF.Dataflow.exhaustive_if_forgets",
    "FF.Dataflow.break_forgets",
    "FF.Dataflow.unconditional_break_forgets",
    "FF.Dataflow.continue_forgets",
    "FF.Dataflow.try_forgets",
    "FF.Dataflow.conditional_assignment_in_loop_raises",
    "FF.Dataflow.nested_break_recurses"
   ],
   "note": "Soundness for every execution of functions (with loops and branches) without break, continue and try in which an exhaustive if assigns a variable in all branches or in none, when the analysis does not raise (partial); the analysis succeeds on loop-free programs. Each excluded construct has a deviation theorem. Only variables are modelled, not expressions."
  },
  {
   "property": "C73",
   "status": "partial",
   "theorems": [
    "FF.Gptq.gptq_solves",
    "FF.Gptq.block_size_irrelevant_partial",
    "FF.Gptq.block_sizes_agree_partial",
    "FF.Gptq.group_parameters",
    "FF.Gptq.stale_group_weights"
   ],
   "note": "gptq_solves characterises the result for every block size. Independence of the block size is proved without recomputation, and with recomputation if the block size divides the group width; deviation stale_group_weights otherwise. Exact rationals; the triangular factor is arbitrary; the order is any permutation."
  },
  {
   "property": "C74",
   "status": "proved",
   "theorems": [
    "FF.Gptq.requantizing_changes_nothing"
   ],
   "note": "Every block size, order and granularity; wherever the final scale is not zero (a zero scale gives nan in the code)."
  },
  {
   "property": "C75",
   "status": "partial",
   "theorems": [
    "FF.Hessian.activations_kept_partial",
    "FF.Hessian.activations_overwritten"
   ],
   "note": "Partial: proved when no activation tensor is used without a copy; deviation activations_overwritten for float32 activations of linear layers, whose tensors are scaled in place."
  },
  {
   "property": "C76",
   "status": "partial",
   "theorems": [
    "FF.Orch.extracted_values_partial",
    "FF.Orch.extracted_interface",
    "FF.Orch.extraction_succeeds",
    "FF.Orch.parts_share_input",
    "FF.Orch.name_clash_captures",
    "FF.Orch.no_inputs_accepted"
   ],
   "note": "Every closed graph and every set of nodes, in any iteration order. Partial: a node outside with the name of a chosen one is excluded (deviation name_clash_captures); nested attributes can share an input (deviation parts_share_input); the documented ValueError is never raised (deviation no_inputs_accepted). Folds and parents are not kept by the code and so not by the model."
  },
  {
   "property": "C77",
   "status": "partial",
   "theorems": [
    "FF.Orch.batches_independent_partial",
    "FF.Orch.batches_complete_partial",
    "FF.Orch.runs_batch_by_batch_partial",
    "FF.Orch.mixed_batches_differ"
   ],
   "note": "Every graph, inputs with N batches or one for all, without running (values) and for complete runs of graphs without delegates. Partial: name access on batches of which some have an item and some an attribute of that name is excluded (deviation mixed_batches_differ)."
  },
  {
   "property": "C78",
   "status": "partial",
   "theorems": [
    "FF.Orch.reduced_part_of_output",
    "FF.Orch.reduced_part_of_part",
    "FF.Orch.attribute_part_lost",
    "FF.Orch.fold_tuple",
    "FF.Orch.fold_placed_too_late",
    "FF.Orch.nested_regions_computed_twice",
    "FF.Orch.delegate_on_another_call",
    "FF.Orch.node_replaces_input",
    "FF.Orch.reduced_values_partial",
    "FF.Orch.reduced_pieces_partial",
    "FF.Orch.reduced_delegates_partial",
    "FF.Orch.siblings_accepted_iff",
    "FF.Orch.groups_are_siblings"
   ],
   "note": "Values, pieces and delegates for every graph and list of specifications. Partial: distinct names without brackets, no parts of parts, whole outputs from paths and groups, folds that return what their outlets compute, regions that are not inside each other, modules called once. Each guard is needed (deviations reduced_part_of_output, reduced_part_of_part, fold_tuple, fold_placed_too_late, nested_regions_computed_twice, delegate_on_another_call, node_replaces_input)."
  },
  {
   "property": "C79",
   "status": "partial",
   "theorems": [
    "FF.Orch.bind_flows_plans_partial",
    "FF.Orch.bind_flows_deterministic",
    "FF.Orch.bind_flows_refuses",
    "FF.Orch.output_of_fold_fails"
   ],
   "note": "Plans, determinism and refusals for every graph. Partial: outputs of nodes that group others raise KeyError (deviation output_of_fold_fails)."
  },
  {
   "property": "C80",
   "status": "partial",
   "theorems": [
    "FF.Registry.register_accepts",
    "FF.Registry.resolve_last_registration",
    "FF.Registry.resolve_refuses",
    "FF.Registry.resolve_explicit",
    "FF.Registry.override_restores",
    "FF.Registry.requested_targets_partial",
    "FF.Registry.requested_specs",
    "FF.Registry.requested_refuses",
    "FF.Registry.bound_arguments_dropped"
   ],
   "note": "Registration, resolution, overriding and refusals for every target. Partial: without explicit targets a partial application loses its arguments (deviation bound_arguments_dropped)."
  },
  {
   "property": "C81",
   "status": "partial",
   "theorems": [
    "FF.Generators.generator_itself",
    "FF.Generators.name_last_registered",
    "FF.Generators.builtin_names",
    "FF.Generators.unknown_name",
    "FF.Generators.manager_used_partial",
    "FF.Generators.second_manager_ignored",
    "FF.Generators.registered_name_hides_manager"
   ],
   "note": "Every history. Partial: a second context manager of a class of the same name, and one whose class name is a registered key, are ignored (deviations second_manager_ignored, registered_name_hides_manager)."
  },
  {
   "property": "C82",
   "status": "partial",
   "theorems": [
    "FF.Orch.call_answers_partial",
    "FF.Orch.call_succeeds_partial",
    "FF.Orch.added_outputs",
    "FF.Orch.calls_independent",
    "FF.Orch.late_output_ignored"
   ],
   "note": "Every history. Partial: outputs added after a call with no node added since are not returned, because the program is prepared once and not again (deviation late_output_ignored). calls_independent is unconditional."
  },
  {
   "property": "C83",
   "status": "partial",
   "theorems": [
    "FF.Orch.call_per_input_partial",
    "FF.Orch.call_passes_on",
    "FF.Orch.call_batches",
    "FF.Orch.position_or_keyword_partial",
    "FF.Orch.iterable_argument_split",
    "FF.Orch.named_tuple_by_position",
    "FF.Orch.argument_without_input",
    "FF.Orch.surplus_values_ignored"
   ],
   "note": "Python values are abstract, with the questions the code asks of them. Partial: named tuples are read by position, tuples and mappings given by position are split into batches, a graph without inputs ignores an argument and surplus values of later batches are ignored (four deviations)."
  },
  {
   "property": "C84",
   "status": "partial",
   "theorems": [
    "FF.Trace.traced_value_partial",
    "FF.Trace.traced_call_partial",
    "FF.Trace.parameter_names",
    "FF.Trace.traced_inputs",
    "FF.Trace.traced_once",
    "FF.Trace.constant_output_dropped",
    "FF.Trace.returned_input_refused",
    "FF.Trace.argument_misbound",
    "FF.Trace.stale_trace",
    "FF.Trace.traced_built_partial",
    "FF.Trace.traced_total_partial",
    "FF.Trace.module_paths"
   ],
   "note": "Proved: the value of the output of the built graph is that of the exported graph (by induction over nested graphs, through add_subgraph), the call runs and returns it, inputs have the names of the parameters, repeated traces give the first graph. Assumed: calling a leaf module computes what its traced graph computes; modules that call modules return one value or a tuple of at least two computed values; for the call, all nodes are needed by the output. Deviations: constants in the output are dropped, a model that returns its input is refused, the original module is called by the number of arguments alone, a changed module keeps its first graph. torch.export is not modelled."
  },
  {
   "property": "C85",
   "status": "partial",
   "theorems": [
    "FF.Py.candidates_iff",
    "FF.Py.candidates_isolated",
    "FF.Py.temporaries_once",
    "FF.Py.candidates_kept",
    "FF.Py.short_circuit_lost",
    "FF.Py.lambda_body_moved",
    "FF.Py.read_after_call",
    "FF.Py.target_before_value",
    "FF.Py.message_evaluated",
    "FF.Py.temporary_clobbers",
    "FF.Py.target_evaluated_twice",
    "FF.Py.in_place_lost",
    "FF.Py.preprocess_keeps_partial",
    "FF.Py.preprocess_raises_partial"
   ],
   "note": "Proved against a semantics of a small Python with arbitrary operations: the same result, effects and variables, also for exceptions and endless loops, if what is read before a moved operation and stays is not changed by it, no operation is moved out of and, or, a lambda, a target or an assertion message, augmented assignment does not change values in place and no variable is named like a temporary; each restriction is shown to be needed by a counterexample. Isolation, one place per temporary and the number of operations are proved without restriction (the names aside). Not modelled: assignment expressions, unpacking, try, with, match, nested functions, else of loops."
  },
  {
   "property": "C86",
   "status": "partial",
   "theorems": [
    "FF.Convert.model_converted_partial",
    "FF.Convert.refused_untouched",
    "FF.Convert.contents_kept",
    "FF.Convert.root_only",
    "FF.Convert.second_conversion",
    "FF.Convert.surrogates_suffice_partial",
    "FF.Convert.latest_class",
    "FF.Convert.extra_first",
    "FF.Convert.shared_module_refused",
    "FF.Convert.base_module_passes_check",
    "FF.Convert.surrogates_insufficient",
    "FF.Convert.skipped_module_checked"
   ],
   "note": "Conversion of every module is proved for models of any depth without instances of torch.nn.Module itself and, unless quantized modules are skipped, without modules in two places; the refusal, that contents are kept, that non-recursive calls convert only the root, idempotence and the choice of the last class are proved without these restrictions. Four deviations: a module in two containers leaves the model half converted; so does an instance of torch.nn.Module; surrogates do not suffice for a model with quantized modules; a skipped module is searched for missing classes. Not modelled: classes that override quantize_children or call it in __init_quantization__."
  },
  {
   "property": "C87",
   "status": "partial",
   "theorems": [
    "FF.Metadata.extension_recognized",
    "FF.Metadata.extension_denied_partial",
    "FF.Metadata.assigned_quantizer",
    "FF.Metadata.warned_iff",
    "FF.Metadata.held_for_good",
    "FF.Metadata.consistent_partial",
    "FF.Metadata.missing_attribute_raises",
    "FF.Metadata.raises_after_assignment",
    "FF.Metadata.shared_quantizer",
    "FF.Metadata.assigned_too_early"
   ],
   "note": "The check of extensions, the result of an assignment, when a warning is given and that held metadata stay are proved for all states; agreement after any program is proved for programs in which every quantizer is put in one place and no assignment raises. Deviations: the check raises KeyError instead of answering no if an attribute is missing; the assignment then raises when the quantizer is already in place; a quantizer in two places has the metadata of the second; an assignment before initialization raises and assigns."
  },
  {
   "property": "C88",
   "status": "partial",
   "theorems": [
    "FF.Freeze.results_kept_partial",
    "FF.Freeze.pass_without_overrides",
    "FF.Freeze.parameter_frozen_partial",
    "FF.Freeze.others_untouched",
    "FF.Freeze.activation_quantizer_removed",
    "FF.Freeze.overrides_stay",
    "FF.Freeze.frozen_after_exit",
    "FF.Freeze.shared_quantizer_stays",
    "FF.Freeze.second_parameter_unquantized"
   ],
   "note": "Equal results after any history, and the frozen values, are proved for models that quantize weights only, with quantizers in one place, each called on one parameter, idempotent, and equal for all uses of a parameter; that nothing else changes is proved for all models. Deviations: quantizers of activations are replaced as well, so results change; overrides are never removed, so kept quantizers give ordinary tensors after the context and quantizers not called within it freeze later; a shared quantizer is removed from one place only; a quantizer called on two parameters freezes the first only."
  },
  {
   "property": "C89",
   "status": "partial",
   "theorems": [
    "FF.OpTags.tags_exact_partial",
    "FF.OpTags.tags_sound",
    "FF.OpTags.real_quantizers_untagged",
    "FF.OpTags.residual_mistagged",
    "FF.OpTags.quantized_twice",
    "FF.OpTags.parameter_operator_untagged"
   ],
   "note": "Exactness is proved for models whose quantizers are stubs, where operators have an argument other than parameters and where no value is used again after it was quantized once more; that tags name operators and quantizers of the pass is proved for all passes. Deviations: quantizers other than stubs get no tags at all, since the override that disables them does not call the one that adds tags; a residual connection around a quantizer is tagged as if it used the quantized value; a value quantized by two quantizers tags only the last; operators on parameters only are not seen."
  },
  {
   "property": "C90",
   "status": "partial",
   "theorems": [
    "FF.Attention.is_attention",
    "FF.Attention.masked_irrelevant_partial",
    "FF.Attention.causal_partial",
    "FF.Attention.within_values",
    "FF.Attention.refused",
    "FF.Attention.fallback_same",
    "FF.Attention.finite_neg_inf_leaks",
    "FF.Attention.mask_quantizer_leaks",
    "FF.Attention.finite_neg_inf_row",
    "FF.Attention.negative_scale_refused",
    "FF.Attention.fallback_discarded",
    "FF.Attention.no_heads"
   ],
   "note": "Exact real arithmetic; one batch; dropout 0. Independence of masked positions is proved for quantizers that treat elements one by one, with zero kept by that of the weights, and none for the mask or the masked scores. Deviations: with a finite neg_inf, or a quantizer for the mask, masked values leak and rows with everything masked are not zero; a negative scale is refused; the result of the fall back to torch is computed and thrown away; grouped queries with one query head and several key heads give a result without heads."
  },
  {
   "property": "C91",
   "status": "partial",
   "theorems": [
    "FF.Upcast.scoped_partial",
    "FF.Upcast.result_type",
    "FF.Upcast.restores_too_early",
    "FF.Upcast.mixed_types_fail"
   ],
   "note": "Proved for blocks whose context is made where it is entered. Deviations: an instance that is kept restores what was set when it was made, not when it was entered; only the type of the query decides about conversion, so that a single precision query with half precision keys has no result."
  },
  {
   "property": "C92",
   "status": "partial",
   "theorems": [
    "FF.Fuse.results_kept_partial",
    "FF.Fuse.weights_fused_partial",
    "FF.Fuse.quantizers_stubbed",
    "FF.Fuse.refused_iff",
    "FF.Fuse.stub_keeps_weights",
    "FF.Fuse.tied_unquantized",
    "FF.Fuse.tied_quantized_twice",
    "FF.Fuse.transposed_spoilt",
    "FF.Fuse.reshaped_spoilt",
    "FF.Fuse.disabled_differ"
   ],
   "note": "Equal results are proved for idempotent quantizers and weights that are either the same memory or apart, shared among modules that all quantize them. Deviations: a module that shares a weight without quantizing it computes with the quantized one afterwards; a tied weight is quantized once per module; a transposed weight counts as tied although quantizers act differently on it; the same memory in another shape does not count as tied; disabled quantizers stay when fusing but go when stubbing."
  },
  {
   "property": "C93",
   "status": "partial",
   "theorems": [
    "FF.Assign.assignments_told_partial",
    "FF.Assign.targets_from_target",
    "FF.Assign.values_once",
    "FF.Assign.declaration_assigns_nothing",
    "FF.Assign.loop_targets_partial",
    "FF.Assign.starred_value_misread",
    "FF.Assign.nested_star_lost",
    "FF.Assign.loop_star_lost",
    "FF.Assign.single_target_misread",
    "FF.Assign.joint_targets_nested",
    "FF.Assign.starred_targets_nested"
   ],
   "note": "Proved for the shapes in Fine. Deviations: starred elements of the value are taken for single ones; starred targets below the first level, and of loops at every level, are lost; a single target in a tuple is told to be the whole value; nested targets of joint assignments and behind a star stay nested, so that names in them are missed."
  },
  {
   "property": "C94",
   "status": "partial",
   "theorems": [
    "FF.LinQ.range_after_history_partial",
    "FF.LinQ.half_step_after_history_partial",
    "FF.LinQ.failed_set_changes_nothing",
    "FF.LinQ.first_set_accepted_iff",
    "FF.LinQ.failed_first_set",
    "FF.LinQ.wrong_size_sticks"
   ],
   "note": "Proved for lives in which no first attempt failed. Deviations: a first attempt that fails leaves the quantizer initialized with scale 1, and stuck with the number of minima of that attempt. Bounds are vectors; numbers are exact rationals."
  },
  {
   "property": "C95",
   "status": "partial",
   "theorems": [
    "FF.Dedup.dedup_keeps_partial",
    "FF.Dedup.no_repeats_partial",
    "FF.Dedup.argument_reassigned",
    "FF.Dedup.loop_condition_frozen",
    "FF.Dedup.outer_temporary_lost",
    "FF.Dedup.inner_call_repeated"
   ],
   "note": "Proved in both directions (runs before and after the rewrite correspond) when no argument of a repeated call is assigned between its occurrences or in the loop whose condition has it. Deviations: a reassigned argument gives the old value; calls repeated in a `while` condition are frozen; a `_tmp_1` used outside the block is overwritten; calls nested in repeated calls stay repeated. Quantizers are functions of their input; one run of the rewrite on one block; comprehensions, break and continue are left out."
  },
  {
   "property": "C96",
   "status": "partial",
   "theorems": [
    "FF.ModIO.encodings_completed_partial",
    "FF.ModIO.modules_independent_partial",
    "FF.ModIO.listens_iff",
    "FF.ModIO.records_last_call",
    "FF.ModIO.hooks_removed_partial",
    "FF.ModIO.failed_run_leaves_hooks",
    "FF.ModIO.reattach_fails",
    "FF.ModIO.other_argument_shifts",
    "FF.ModIO.nested_argument_fails",
    "FF.ModIO.nested_keyword_lost",
    "FF.ModIO.none_result_shifts"
   ],
   "note": "Proved when all positional arguments and all results are tensors and no keyword argument is nested; for recorders over all sequences of operations. Deviations: a positional `None` or number shifts the settings of the inputs after it; a tuple argument makes the export fail; settings in nested keyword arguments are lost; a `None` result shifts the outputs' settings; a failing second run leaves the hooks attached; a recorder cannot be attached again. The graph that torch exports is given by its names (inputs are the tensors among the arguments, in order)."
  },
  {
   "property": "C97",
   "status": "partial",
   "theorems": [
    "FF.OnnxNames.alter_keeps_partial",
    "FF.OnnxNames.renameIO_keeps_partial",
    "FF.OnnxNames.renameIO_refused",
    "FF.OnnxNames.altered_name_taken",
    "FF.OnnxNames.altered_input_taken",
    "FF.OnnxNames.alter_changes_meaning",
    "FF.OnnxNames.given_name_taken",
    "FF.OnnxNames.passed_through_input",
    "FF.OnnxNames.returned_twice"
   ],
   "note": "Proved when no new name is taken and no value is both input and output or returned twice; wrong numbers of names are refused exactly. Deviations, in general form: with values `n` and `prefix_n_0` both end with one name; an input `prefix_n_0` clashes with `n`; names given are not compared with those of other values; an input that is returned keeps its old name; a tensor returned twice gets one name. Subgraphs and the checks of the IR library are left out."
  },
  {
   "property": "C98",
   "status": "partial",
   "theorems": [
    "FF.Gen.fallback_computes_partial",
    "FF.Gen.operator_computes_partial",
    "FF.Gen.default_kept_partial",
    "FF.Gen.plain_result_fails",
    "FF.Gen.nested_not_dequantized",
    "FF.Gen.other_default_quoted",
    "FF.Gen.optional_string_unquoted"
   ],
   "note": "Proved for all operators with quantized result whose types have quantized tensors only as alternatives or in plain sequences, including exactly when strict mode refuses. Deviations, in general form: operators without quantized result never return (`output_quantizer` is undefined); quantized tensors in optional sequences, tuples and so on reach the operator undequantized and unchecked; `mode: str = ...` becomes the string \"...\"; string defaults of optional strings become code. Binding of arguments to parameters is left out."
  },
  {
   "property": "C99",
   "status": "partial",
   "theorems": [
    "FF.Hoist.hoisting_keeps_results_partial",
    "FF.Hoist.variable_is_identifier_partial",
    "FF.Hoist.symbols_spelled_out_partial",
    "FF.Hoist.same_variable",
    "FF.Hoist.variables_confused",
    "FF.Hoist.variable_overwritten",
    "FF.Hoist.evaluated_without_need",
    "FF.Hoist.evaluated_before_loop",
    "FF.Hoist.elif_without_variable",
    "FF.Hoist.elif_test_without_variable",
    "FF.Hoist.stale_value"
   ],
   "note": "Proved for programs in which no expression changes its value between its first and its last use, expressions in ifs and loops always have a value, there is no elif, and variables are distinct and new. Deviations, in general form: the old value is used after a change; an expression is evaluated (and may raise) although its branch is not taken or its loop is empty; with elif, branches and tests read variables that are not assigned; `x[0]` and `x[:, 0]` share a variable and then a value; a variable of the function with that name is overwritten."
  },
  {
   "property": "C100",
   "status": "partial",
   "theorems": [
    "FF.Thread.threading_ends_partial",
    "FF.Thread.calls_complete_partial",
    "FF.Thread.own_quantizers_partial",
    "FF.Thread.quantizer_not_passed",
    "FF.Thread.shared_method_left_out",
    "FF.Thread.never_ends",
    "FF.Thread.recursion_not_passed"
   ],
   "note": "Proved without recursion, for functions converted once, if no helper function calls one that calls another one at two places. Deviations: in that case (method, g, h, k twice) the call of g lacks a parameter and raises; a method that two module classes inherit is converted twice and only the last copy passes quantizers; for three functions that call each other in a circle and each call a further function with a quantizer the loop never ends; with recursion calls may lack parameters."
  },
  {
   "property": "C101",
   "status": "partial",
   "theorems": [
    "FF.Replace.replacement_keeps_value_partial",
    "FF.Replace.operator_chosen_partial",
    "FF.Replace.python_operator_chosen",
    "FF.Replace.quantizers_used_once",
    "FF.Replace.operations_marked",
    "FF.Replace.unseen_name_not_replaced",
    "FF.Replace.unhashable_callee_fails",
    "FF.Replace.parameter_taken_for_global",
    "FF.Replace.name_taken_for_alias",
    "FF.Replace.overridden_attribute_ignored",
    "FF.Replace.result_of_call_taken_for_function",
    "FF.Replace.method_without_self",
    "FF.Replace.starred_arguments_miscounted",
    "FF.Replace.numbers_added_by_torch"
   ],
   "note": "Proved for calls by dotted names that mean the same to the conversion and at run time and for callees that the conversion does not know, if starred arguments are not given to replaced functions and operands of marked operators are tensors. Deviations: a local variable named like a global function, or like a name in the table, is taken for it; attributes overridden on the instance are ignored; f(a)(b) is taken for a call of f; operators for methods are called without the instance; *args count as one argument; sums of plain numbers become calls of torch.add; global names used only in nested functions are not found; a call through a global dictionary makes the conversion fail."
  },
  {
   "property": "C102",
   "status": "partial",
   "theorems": [
    "FF.Worklist.search_ends",
    "FF.Worklist.types_chosen_once",
    "FF.Worklist.converted_once",
    "FF.Worklist.source_of_method",
    "FF.Worklist.only_called_converted_partial",
    "FF.Worklist.callees_converted_partial",
    "FF.Worklist.reached_converted_partial",
    "FF.Worklist.inherited_method_not_converted",
    "FF.Worklist.aliased_forward_hides_helpers",
    "FF.Worklist.reexported_helper_hides_helpers",
    "FF.Worklist.helper_not_converted_as_method",
    "FF.Worklist.class_method_of_other_class_not_converted",
    "FF.Worklist.function_of_plain_class_not_converted",
    "FF.Worklist.unreadable_object_stops_search",
    "FF.Worklist.unhashable_object_stops_search",
    "FF.Worklist.unmarked_call_not_followed"
   ],
   "note": "The search ends, nothing is converted twice and sources are right for all programs. That all that is called is converted, and nothing else, is proved for programs in which names of def statements lead back to the functions and no function is both a method and a helper, and for calls of the kinds that are followed. Deviations: methods that a class inherits and calls on self are not converted; if forward is a function of the module its helpers are not found; nor are those of a helper reached under another name through a module; a function already converted as helper is not converted as method; class methods of other classes and functions of plain classes are not converted; an object without __module__ stops the search; calls whose argument types are known and no tensors are not followed."
  },
  {
   "property": "C103",
   "status": "partial",
   "theorems": [
    "FF.HelperNames.free_name_found",
    "FF.HelperNames.class_names_distinct",
    "FF.HelperNames.class_names_plain",
    "FF.HelperNames.class_bases_partial",
    "FF.HelperNames.helper_names_distinct",
    "FF.HelperNames.helper_names_plain",
    "FF.HelperNames.names_replaced",
    "FF.HelperNames.references_follow_partial",
    "FF.HelperNames.class_derives_from_other_type",
    "FF.HelperNames.keyword_renamed",
    "FF.HelperNames.parameter_renamed",
    "FF.HelperNames.method_renamed",
    "FF.HelperNames.value_lacks_quantizers",
    "FF.HelperNames.call_renamed_twice",
    "FF.HelperNames.imported_name_taken",
    "FF.HelperNames.local_hides_helper"
   ],
   "note": "Distinct names, their plain forms and the end of the naming loops are proved for all names. Bases are proved for types whose names do not start with Quantized. References are proved for functions that use the old and new names of helpers only to call them. Deviations: a type named QuantizedFoo next to Foo yields a class derived from the wrong class; keywords of arguments, parameters and methods named like a helper are renamed; helpers passed as values lack their quantizers; a helper whose new name is the name of another is called in its place; a new name may hide a function of the module or be hidden by a local variable."
  },
  {
   "property": "C104",
   "status": "partial",
   "theorems": [
    "FF.ImportSymbols.imports_are_used",
    "FF.ImportSymbols.import_written_iff_valid",
    "FF.ImportSymbols.fallback_does_the_same",
    "FF.ImportSymbols.globals_keep_values_partial",
    "FF.ImportSymbols.same_name_in_two_modules",
    "FF.ImportSymbols.global_named_like_builtin",
    "FF.ImportSymbols.global_named_like_method",
    "FF.ImportSymbols.conditional_import_fails",
    "FF.ImportSymbols.rebound_import_kept",
    "FF.ImportSymbols.name_in_target_not_imported",
    "FF.ImportSymbols.attribute_named_like_global",
    "FF.ImportSymbols.part_of_dotted_import",
    "FF.ImportSymbols.closure_variable_fails",
    "FF.ImportSymbols.star_import_lost",
    "FF.ImportSymbols.default_named_like_parameter"
   ],
   "note": "That imports are used, and that the dynamic form of an import does the same, is proved for all functions. Values are proved for functions whose globals are bound once, are not named like builtins or the function itself, do not occur in targets of assignments or as defaults of parameters of the same name, and mean the same in all modules. Deviations: globals of the same name in two modules; globals named like builtins, like the method or like an attribute of a call; imports in try/except; imported names that are assigned again; names in targets; parts of dotted imports; variables of enclosing functions; import *; defaults named like parameters. The scope analysis of libcst is a parameter of the model (what a scope records for a dotted name); that its outermost scope holds the builtins is taken from its documentation."
  },
  {
   "property": "C105",
   "status": "partial",
   "theorems": [
    "FF.Layers.linear_on_quantized_operands",
    "FF.Layers.conv_on_quantized_operands",
    "FF.Layers.layer_norm_on_quantized_operands",
    "FF.Layers.embedding_on_quantized_operands",
    "FF.Layers.activation_on_quantized_operands",
    "FF.Layers.converted_model_computes_the_same_partial",
    "FF.Layers.padding_mode_lost",
    "FF.Layers.inplace_lost",
    "FF.Layers.layer_norm_has_idle_quantizer"
   ],
   "note": "What each quantized layer does with its operands is proved for all quantizers, strict or not. That converted models compute the same is proved for models that pad with zeros and do not read the input of an in-place activation afterwards. Deviations: the padding mode of convolutions is lost; activations in place no longer overwrite their input, so models that read it compute something else; a layer normalization without bias has a bias quantizer that is never called. The operators of PyTorch on ordinary tensors are parameters of the model; max_norm of embeddings is not modelled."
  },
  {
   "property": "C106",
   "status": "partial",
   "theorems": [
    "FF.Entry.quantized_value",
    "FF.Entry.export_value_partial",
    "FF.Entry.dynamic_is_static",
    "FF.Entry.dynamic_parameters",
    "FF.Entry.granularity_entry_point",
    "FF.Entry.dynamic_granularity_entry_point",
    "FF.Entry.block_entry_point",
    "FF.Entry.export_dequantizes_to_integers",
    "FF.Entry.export_ignores_dequantize_dtype",
    "FF.Entry.integers_dequantized_to_integers",
    "FF.Entry.traced_dtype_wrong",
    "FF.Entry.block_size_is_not_number_of_blocks"
   ],
   "note": "Values, agreement of the functions and dynamic quantization are proved; export mode is proved to give the same if the storage type is the type for dequantized data. Deviations: in export mode data is dequantized to the storage type, so that an integer storage type truncates values (to zero for numeric scales below one) and the type for dequantized data is ignored; integer data is dequantized to integers; tracing gives the result the wrong type; the block size of quantize_per_block is documented as a number of blocks. The tile of an element (C08, C09) and parameters for ranges (C05 to C07) are parameters of the model; elements are rationals."
  },
  {
   "property": "C107",
   "status": "partial",
   "theorems": [
    "FF.Super.quantized_class_order",
    "FF.Super.super_calls_keep_their_methods_partial",
    "FF.Super.source_of_definer",
    "FF.Super.source_has_function",
    "FF.Super.attribute_not_anchored",
    "FF.Super.class_method_not_anchored",
    "FF.Super.wrong_class_of_name"
   ],
   "note": "Proved for all hierarchies (with the C3 order of classes) if super() is used for calls of methods only, in ordinary methods, and the generated module knows the class by its name. Deviations: super().attribute that is not called at once and super() in class methods are not anchored, so that the class converted itself is searched; with two classes of one name, or a class in a class, the call fails. Of method bodies, expressions of names, attributes and calls are modelled."
  },
  {
   "property": "C108",
   "status": "proved",
   "theorems": [
    "FF.ExportRequest.registry_finds",
    "FF.ExportRequest.registration_refused_iff",
    "FF.ExportRequest.stages_get_options",
    "FF.ExportRequest.default_targets",
    "FF.ExportRequest.onnx_export_follows_diagram",
    "FF.ExportRequest.qdq_export_follows_diagram",
    "FF.ExportRequest.gguf_export_follows_diagram",
    "FF.ExportRequest.export_runs_pipeline",
    "FF.ExportRequest.unknown_target_fails",
    "FF.ExportRequest.export_arguments_reach_stages",
    "FF.ExportRequest.option_overrides_directory",
    "FF.ExportRequest.refused_export_makes_directory",
    "FF.ExportRequest.export_cannot_gguf",
    "FF.ExportRequest.export_always_fuses"
   ],
   "note": "Proved for all histories, requests and stage functions; strings with ASCII strip and lower. Deviations: an option output_dir replaces that of the request, whose directory is the one made; a refused export leaves its directory behind; export() cannot export to GGUF, as it cannot pass the options required; export() always fuses the weights of the model in place, a request without options does not."
  },
  {
   "property": "C109",
   "status": "partial",
   "theorems": [
    "FF.GgufFile.file_has_every_parameter_partial",
    "FF.GgufFile.file_has_only_parameters",
    "FF.GgufFile.file_written",
    "FF.GgufFile.float_projection_misread",
    "FF.GgufFile.same_name_lost",
    "FF.GgufFile.single_layer_not_quantized",
    "FF.GgufFile.shared_parameter_lost",
    "FF.GgufFile.untied_output_lost"
   ],
   "note": "Proved for all models, name maps and head counts, with distinct names, quantizers inside modules and quantized query and key projections; that the file has nothing else and when it is written are proved without the last. Deviations: float query and key projections are not reordered, so llama.cpp computes with other rows; of two quantized parameters with the same name one is silently lost; the quantizer of a model that is one layer is not found; a shared parameter is looked up under its first name only; with tied embeddings in the configuration a separate output layer is lost."
  },
  {
   "property": "C110",
   "status": "proved",
   "theorems": [
    "FF.CreateFn.created_iff",
    "FF.CreateFn.accepted_iff",
    "FF.CreateFn.calls_both",
    "FF.CreateFn.with_changes_reaches_dequantize",
    "FF.CreateFn.required_after_optional_refused",
    "FF.CreateFn.equal_defaults_replaced",
    "FF.CreateFn.data_parameter_unusable"
   ],
   "note": "Proved for all signatures, bodies and arguments. Deviations: a parameter without a default after one with a default, in either function or only in the dequantize function, is refused although both are keywords; defaults that are equal but not the same, such as 1 and True, are exchanged; a parameter named data cannot be given."
  },
  {
   "property": "C111",
   "status": "partial",
   "theorems": [
    "FF.Source.source_of_object_partial",
    "FF.Source.found_by_own_name",
    "FF.Source.found_by_alias",
    "FF.Source.answers_stay",
    "FF.Source.last_branch_found",
    "FF.Source.unnamed_capture_fails",
    "FF.Source.copied_name_followed",
    "FF.Source.swapped_names_not_found",
    "FF.Source.module_hides_member"
   ],
   "note": "Partial: proved for objects that know their names and paths not also defined in a branch not executed. Deviations: of definitions in two branches the last is found, executed or not; a decorator that captured a value without a name makes the lookup fail; an object bearing the name of another yields the source of the other; objects bearing each other's names recurse without end; a module hides a member of the same name."
  },
  {
   "property": "C112",
   "status": "partial",
   "theorems": [
    "FF.Cleanup.cleanup_fails_iff",
    "FF.Cleanup.cleanup_keeps_needed",
    "FF.Cleanup.cleanup_keeps_inputs",
    "FF.Cleanup.cleanup_computes_same",
    "FF.Cleanup.cleanup_keeps_modules",
    "FF.Cleanup.no_quantizers_left_partial",
    "FF.Cleanup.quantizer_below_called_module_kept",
    "FF.Cleanup.shared_quantizer_kept"
   ],
   "note": "Proved: the nodes kept, same computation, failure exactly on needed references, modules kept. Partial: no quantizer is left unless shared by two names or below a module that the graph calls. Deviations: both cases."
  },
  {
   "property": "C113",
   "status": "partial",
   "theorems": [
    "FF.QueryCtx.class_is_value_partial",
    "FF.QueryCtx.given_context_used",
    "FF.QueryCtx.local_context_values",
    "FF.QueryCtx.aliases_in_order",
    "FF.QueryCtx.extensions_restored_partial",
    "FF.QueryCtx.rule_ignores_author",
    "FF.QueryCtx.unused_variable_not_seen",
    "FF.QueryCtx.space_not_ignored",
    "FF.QueryCtx.empty_context_ignored",
    "FF.QueryCtx.replaced_extension_lost"
   ],
   "note": "Partial: proved for all ways but rules of a configuration, for names that enclosing functions do not define out of sight, and for extensions that replace none. Deviations: add_rule looks names up in its own frame; variables of enclosing functions that the function does not use are not seen; a space after the colon, as documented, makes the name unknown; an empty context is ignored; an extension replaced in a with block is lost."
  },
  {
   "property": "C114",
   "status": "partial",
   "theorems": [
    "FF.TorchFn.computed_on_values_partial",
    "FF.TorchFn.strict_refuses",
    "FF.TorchFn.kernel_first",
    "FF.TorchFn.operands_untouched_partial",
    "FF.TorchFn.inplace_refused",
    "FF.TorchFn.cast_of_values",
    "FF.TorchFn.attributes_as_of_values_partial",
    "FF.TorchFn.moved_whole",
    "FF.TorchFn.cuda_goes_partial",
    "FF.TorchFn.view_as_same_shape",
    "FF.TorchFn.index_assignment_refused",
    "FF.TorchFn.is_nonzero_of_codes",
    "FF.TorchFn.write_lost",
    "FF.TorchFn.inplace_on_plain_refused",
    "FF.TorchFn.kernel_sees_codes",
    "FF.TorchFn.hidden_in_object",
    "FF.TorchFn.view_as_of_plain_fails",
    "FF.TorchFn.cuda_zero_is_current",
    "FF.TorchFn.no_copy_made"
   ],
   "note": "Partial: proved for tensors in containers that are walked through, functions passed on that look at attributes only, and devices other than index 0. Deviations: is_nonzero looks at codes; a write through a function without a kernel (q.data = x, out=q) is lost without an error; an in-place operation on a plain tensor with a quantized operand is refused; inside a kernel functions see codes; so do functions given a tensor inside an object that is not walked through; x.view_as(q) fails for a plain tensor of the same shape; cuda(0) moves to the current device; copy=True is ignored."
  },
  {
   "property": "C115",
   "status": "partial",
   "theorems": [
    "FF.Lazy.parameters_restored_partial",
    "FF.Lazy.transient_kept_partial",
    "FF.Lazy.outcome_passed_on",
    "FF.Lazy.all_initialized_while_tracing_partial",
    "FF.Lazy.initialized_untouched_partial",
    "FF.Lazy.lazy_gets_saved_value",
    "FF.Lazy.lazy_without_entry_stays",
    "FF.Lazy.value_replaced_if_shape_fits",
    "FF.Lazy.other_entries_ignored",
    "FF.Lazy.uninitialized_reported",
    "FF.Lazy.offset_without_value_unreported",
    "FF.Lazy.order_changed",
    "FF.Lazy.buffer_enters_state",
    "FF.Lazy.second_name_left"
   ],
   "note": "Partial: the order of parameters and the set of buffers in the state are not kept, and a tensor under two names of a module is replaced under the first alone. Deviations: parameters without a value move behind the others; a buffer without a value that is not part of the state becomes part of it; the second name of a shared parameter stays without value while tracing; a quantizer whose scale was loaded and whose offset buffer was not reports no uninitialized parameters."
  },
  {
   "property": "C116",
   "status": "partial",
   "theorems": [
    "FF.OnnxMeta.every_item_annotated",
    "FF.OnnxMeta.spec_of_own_node",
    "FF.OnnxMeta.spec_of_parameter",
    "FF.OnnxMeta.spec_of_closest_ancestor",
    "FF.OnnxMeta.only_specs_of_mentioned",
    "FF.OnnxMeta.unquantized_unchanged",
    "FF.OnnxMeta.encoding_of_node_output_partial",
    "FF.OnnxMeta.inner_nodes_get_output_spec",
    "FF.OnnxMeta.decomposed_gets_output_spec",
    "FF.OnnxMeta.spec_of_namesake",
    "FF.OnnxMeta.all_results_get_spec"
   ],
   "note": "Partial: encodings are those of the tensors for nodes that compute the tensor itself. Deviations: all ONNX nodes lowered from one quantized node carry the spec of its result; nodes from a decomposition (the transposed weight of a linear layer) carry the spec of the output; an item without origin carries the spec of a quantized node with the same name; all results of a node get its spec."
  },
  {
   "property": "C117",
   "status": "partial",
   "theorems": [
    "FF.GgufMeta.dimensions_written",
    "FF.GgufMeta.scaling_as_configured_partial",
    "FF.GgufMeta.head_dim_partial",
    "FF.GgufMeta.token_at_its_id_partial",
    "FF.GgufMeta.unused_iff_free",
    "FF.GgufMeta.ids_read_back_partial",
    "FF.GgufMeta.merges_of_tokenizer_partial",
    "FF.GgufMeta.unknown_scaling_read_as_linear",
    "FF.GgufMeta.head_dim_ignored",
    "FF.GgufMeta.base_guessed",
    "FF.GgufMeta.tokens_beyond_size_dropped",
    "FF.GgufMeta.later_token_wins",
    "FF.GgufMeta.padding_takes_token",
    "FF.GgufMeta.other_directory_used"
   ],
   "note": "Partial: scaling of types that GGUF names, head dimensions that are derived or of the architecture that writes them, unique ids within the size of the model, tokens that do not look like padding, and a directory of the tokenizer that is up to date. Deviations: scaling of another type (llama3) is written as its factor alone and read as linear; a head dimension is written for one architecture only; a missing rotary base becomes one million; ids beyond the size are dropped; of equal ids the later token wins; the text for an unused id can be that of a token; a directory named like the tokenizer is read whatever it holds."
  },
  {
   "property": "C118",
   "status": "partial",
   "theorems": [
    "FF.PatMatch.applies_iff_instance_partial",
    "FF.PatMatch.instance_applies",
    "FF.PatMatch.replaced_by_instance_partial",
    "FF.PatMatch.captures_determined",
    "FF.PatMatch.unknown_capture_refused",
    "FF.PatMatch.place_kept_partial",
    "FF.PatMatch.grouping_kept_partial",
    "FF.PatMatch.value_of_result",
    "FF.PatMatch.repeated_capture_matches_anything",
    "FF.PatMatch.operand_taken_away",
    "FF.PatMatch.parentheses_not_ignored",
    "FF.PatMatch.statement_in_expression",
    "FF.PatMatch.several_statements_left"
   ],
   "note": "Matching is proved equivalent to a relation between pattern and code, for patterns that use each capture once. Deviations: a repeated capture matches different code and the last one counts; no parentheses are put around captured operands; parenthesised occurrences do not match; a rule for an expression can put a statement inside an expression; a statement that shares its line is not replaced by several. Missing: the text of the result is proved for sums, products and calls only."
  },
  {
   "property": "C119",
   "status": "partial",
   "theorems": [
    "FF.Placement.placed_acts_at_binding_partial",
    "FF.Placement.call_acts_at_binding_partial",
    "FF.Placement.docstring_stays_first",
    "FF.Placement.unannotated_unchanged",
    "FF.Placement.keyword_only_not_quantized",
    "FF.Placement.later_item_sees_unquantized",
    "FF.Placement.tuple_item_not_quantized"
   ],
   "note": "Deviations: annotated keyword-only and positional-only parameters are not quantized; in a with statement of several items, later items see the value that is not quantized; variables bound in a tuple by a with item are not quantized. Those cases are excluded in the partial theorems."
  },
  {
   "property": "C120",
   "status": "partial",
   "theorems": [
    "FF.Compr.element_quantized_once_partial",
    "FF.Compr.single_use_quantized",
    "FF.Compr.one_temporary_partial",
    "FF.Compr.temporaries_differ_partial",
    "FF.Compr.element_name_found",
    "FF.Compr.iterator_name_found",
    "FF.Compr.value_of_previous_element",
    "FF.Compr.condition_read_before_bound",
    "FF.Compr.inner_namesake_read",
    "FF.Compr.temporary_of_inner_read",
    "FF.Compr.condition_name_not_found",
    "FF.Compr.outer_namesake_quantized"
   ],
   "note": "Deviations: with uses in both branches of a conditional expression the second branch reads the quantized value of an earlier element, and a condition reads the temporary before it is bound; nested comprehensions over a variable of the same name, and comprehensions after two over the same name, share temporaries; names in the conditions of a clause are not taken for its own target; a variable outside that has the name of the target is quantized as well. Missing in the partial theorems: these cases."
  },
  {
   "property": "C121",
   "status": "partial",
   "theorems": [
    "FF.Parens.same_expression",
    "FF.Parens.grouping_kept",
    "FF.Parens.redundant_removed",
    "FF.Parens.broken_kept",
    "FF.Parens.line_breaks_inside_partial",
    "FF.Parens.succeeds_partial",
    "FF.Parens.statement_succeeds_partial",
    "FF.Parens.words_separated",
    "FF.Parens.keyword_separated",
    "FF.Parens.no_space_fails",
    "FF.Parens.not_without_space_fails",
    "FF.Parens.line_break_exposed",
    "FF.Parens.comment_dropped"
   ],
   "note": "Deviations: valid code such as return(x), if(x): or not(x) makes the conversion fail, since without parentheses there is no space; a line break before the brackets of a call or subscript or after a dot is left without parentheses around it, so the code becomes invalid or two statements; comments before dots are dropped. Missing in the partial theorems: these cases. Implicitly concatenated strings are not modelled."
  },
  {
   "property": "C122",
   "status": "partial",
   "theorems": [
    "FF.Candidates.tensor_argument_marked_partial",
    "FF.Candidates.tensor_operand_marked_partial",
    "FF.Candidates.tensor_operand_marked_unary_partial",
    "FF.Candidates.untyped_call_marked",
    "FF.Candidates.untyped_operator_marked",
    "FF.Candidates.literals_not_marked",
    "FF.Candidates.no_tensor_not_marked",
    "FF.Candidates.no_tensor_not_marked_operator",
    "FF.Candidates.tensor_argument_missed",
    "FF.Candidates.optional_tensor_missed",
    "FF.Candidates.joined_sequences_missed",
    "FF.Candidates.receiver_ignored",
    "FF.Candidates.bypassed_marked"
   ],
   "note": "Deviations: tensors in parentheses, given by keyword or with a star are passed over if another argument has a known type; variables declared Tensor | None are not taken for tensors, also after a check; operators on lists of tensors are taken to give numbers, so cat(xs + ys) is passed over; the object a method is called on does not count, so self.helper(2) is not converted; operations to be left untouched are considered if an argument is a tensor. Missing in the partial theorems: these cases. The expression checker of mypy is a parameter that is assumed to be right."
  },
  {
   "property": "C123",
   "status": "partial",
   "theorems": [
    "FF.Emit.existing_kept",
    "FF.Emit.others_kept",
    "FF.Emit.written_partial",
    "FF.Emit.module_found_partial",
    "FF.Emit.import_spec",
    "FF.Emit.generated_exactly_partial",
    "FF.Emit.repeatable",
    "FF.Emit.both_written",
    "FF.Emit.crash_loses_both",
    "FF.Emit.dotted_name",
    "FF.Emit.doubled_suffix",
    "FF.Emit.loaded_replaced",
    "FF.Emit.second_time_empty",
    "FF.Emit.quantized_again",
    "FF.Emit.mixin_fails"
   ],
   "note": "Deviations: the check and the write are separate, so of two concurrent calls for one new file one is lost without an error; a crash while overwriting loses the old and the new code; with further dots in the file name the module name is one Python does not find; importing replaces a loaded module of the same name; after importing, the same call generates no classes; quantized modules are converted again; a quantized class with a base that is not a module makes every conversion fail. Missing in the partial theorems: these cases."
  },
  {
   "property": "C124",
   "status": "partial",
   "theorems": [
    "FF.Listing.all_names",
    "FF.Listing.each_once",
    "FF.Listing.direct_children_partial",
    "FF.Listing.prefix_put_partial",
    "FF.Listing.summary_spec",
    "FF.Listing.dedup_counts",
    "FF.Listing.state_saved",
    "FF.Listing.dedup_patterns",
    "FF.Listing.second_name_missing",
    "FF.Listing.trailing_dot",
    "FF.Listing.shared_saved_once"
   ],
   "note": "Proved over module trees with identities (a shared module occurs several times), including the traversal of torch with its memo. Deviations: without recursion the second name of a shared quantizer is missing even if duplicates are wanted; with a prefix the name of a module that is a quantizer itself ends with a dot; the state of a shared quantizer is saved under its first name only."
  },
  {
   "property": "C125",
   "status": "partial",
   "theorems": [
    "FF.Registry.latest_implementation_partial",
    "FF.Registry.found_iff",
    "FF.Registry.conversion_sound",
    "FF.Registry.others_unchanged",
    "FF.Registry.filter_admits",
    "FF.Registry.filter_scoped_partial",
    "FF.Registry.subclass_not_found",
    "FF.Registry.base_replaced",
    "FF.Registry.two_bases",
    "FF.Registry.filter_left_behind"
   ],
   "note": "Proved by an invariant over all histories: the recorded pairs are exactly those of a specification in terms of the class hierarchy. Deviations: a class derived from a quantized class is found only if the class that one replaces has no module base of its own (it is for Linear, not for Conv2d); naming torch.nn.Module among the bases makes a class the conversion of torch.nn.Module itself; a quantized version of two classes is found for neither; the filter is shared by all threads, and overlapping blocks leave it set. Missing in the partial theorems: these cases."
  },
  {
   "property": "C126",
   "status": "partial",
   "theorems": [
    "FF.SaveFiles.saved_model_loaded_partial",
    "FF.SaveFiles.saved_state_loaded_partial",
    "FF.SaveFiles.interrupted_model_refused",
    "FF.SaveFiles.interrupted_state_partial",
    "FF.SaveFiles.others_kept",
    "FF.SaveFiles.other_model_refused",
    "FF.SaveFiles.weights_complete",
    "FF.SaveFiles.found_again_partial",
    "FF.SaveFiles.places_differ",
    "FF.SaveFiles.own_name_accepted",
    "FF.SaveFiles.expected_name",
    "FF.SaveFiles.torn_by_crash",
    "FF.SaveFiles.incomplete_state_loaded",
    "FF.SaveFiles.torn_by_concurrency",
    "FF.SaveFiles.saved_under_path",
    "FF.SaveFiles.path_checked",
    "FF.SaveFiles.own_save_refused"
   ],
   "note": "Proved by induction over schedules, where a crash is a schedule that ends. Deviations: saving over an earlier save of a model, interrupted, and two saves to one directory at the same time give new quantizers with old weights, without an error; a configuration written in part is loaded with the quantizers it has; a state saved under a name that is also a path is not found under it; with a path to a configuration the identifier is checked nevertheless and the model must have one; a model saved under an explicit name is refused without it. Missing in the partial theorems: these cases."
  },
  {
   "property": "C127",
   "status": "partial",
   "theorems": [
    "FF.OpSpec.annotation_means",
    "FF.OpSpec.annotation_accepted_iff",
    "FF.OpSpec.spec_accepted_iff",
    "FF.OpSpec.operator_as_specified_partial",
    "FF.OpSpec.table_as_specified",
    "FF.OpSpec.wrong_entries_refused",
    "FF.OpSpec.file_read_iff_partial",
    "FF.OpSpec.star_dropped",
    "FF.OpSpec.sequence_not_quantized",
    "FF.OpSpec.documented_example_refused",
    "FF.OpSpec.missing_key_aborts",
    "FF.OpSpec.missing_fallback_aborts",
    "FF.OpSpec.single_alias_ignored"
   ],
   "note": "Proved by mutual induction over annotations and by induction over files. Deviations: variadic parameters are dropped without a message; a sequence of quantized tensors, as in cat, does not count as quantized; the example in the documentation is refused; an entry without op or fallback, or with a fallback that does not exist, ends the reading with a bare KeyError or ImportError, and the errors found before are lost; a single alias that is not in a list is ignored. Missing in the partial theorems: these cases, positional-only parameters (C47) and clashes of aliases (C48)."
  },
  {
   "property": "C128",
   "status": "partial",
   "theorems": [
    "FF.Passes.passes_in_order",
    "FF.Passes.failed_pass_named",
    "FF.Passes.interrupt_comes_through",
    "FF.Passes.runs_compose",
    "FF.Passes.kind_kept",
    "FF.Passes.plain_pass",
    "FF.Passes.metadata_pass_partial",
    "FF.Passes.metadata_pass_sees_code",
    "FF.Passes.class_is_instance",
    "FF.Passes.visitors_change_nothing",
    "FF.Passes.not_a_pass_refused",
    "FF.Passes.statements_after_dropped",
    "FF.Passes.statement_before_replaces",
    "FF.Passes.unchanged_code_copied",
    "FF.Passes.narrowed_kind_binding"
   ],
   "note": "Proved by induction over the sequence. Deviations: a pass that needs metadata may add statements after the code, and they are dropped without a message; a statement of the same kind put before the code replaces it; such a pass returns a copy even if it changes nothing; the kind may become narrower and then binds later passes. Missing in the partial theorem: results with several statements."
  },
  {
   "property": "C129",
   "status": "partial",
   "theorems": [
    "FF.PkgMock.meta_path_restored_partial",
    "FF.PkgMock.nothing_left_partial",
    "FF.PkgMock.others_untouched",
    "FF.PkgMock.registered_names_mocked_partial",
    "FF.PkgMock.other_imports_as_without",
    "FF.PkgMock.usable_again",
    "FF.PkgMock.registering",
    "FF.PkgMock.loaded_module_wins",
    "FF.PkgMock.real_package_hidden",
    "FF.PkgMock.reentry_leaks",
    "FF.PkgMock.inner_exit_unloads_outer"
   ],
   "note": "Proved by induction over programs and over names. Deviations: a module that is loaded already, also a real parent package, is used instead of the mock and removed on exit; registering a module below a real package hides its other modules; a mock entered while in use stays on sys.meta_path forever; leaving an inner mock unloads modules of an outer one with the same name. Missing in the partial theorems: these cases."
  },
  {
   "property": "C130",
   "status": "partial",
   "theorems": [
    "FF.FoldTemps.fold_keeps_result_partial",
    "FF.FoldTemps.folded_exactly",
    "FF.FoldTemps.other_code_unchanged",
    "FF.FoldTemps.chain_breaks",
    "FF.FoldTemps.reassigned_variable",
    "FF.FoldTemps.returned_temporary"
   ],
   "note": "Proved by a simulation between the stores of both programs. Deviations: a temporary whose value mentions another folded temporary leaves a use of a variable that is no longer assigned; a value is moved past an assignment to one of its variables; a temporary that is used in a return, or in any statement that is not an assignment to a single name, loses its assignment but keeps its use. Missing in the partial theorem: these cases, branches and loops, and effects of operations."
  },
  {
   "property": "C131",
   "status": "partial",
   "theorems": [
    "FF.Warnings.warnings_kept_partial",
    "FF.Warnings.lines_then_warnings",
    "FF.Warnings.old_lines_kept",
    "FF.Warnings.fails_iff_uncovered",
    "FF.Warnings.inside_statement",
    "FF.Warnings.top_statement_loses_warnings",
    "FF.Warnings.removed_with_node"
   ],
   "note": "Proved by mutual induction over trees. Deviations: warnings of a statement that is replaced and has no statement around it are lost; warnings above a statement in one that is removed are lost. Missing in the partial theorem: these cases."
  },
  {
   "property": "C132",
   "status": "partial",
   "theorems": [
    "FF.Markers.wrapped_code",
    "FF.Markers.marks_not_printed",
    "FF.Markers.refused_iff",
    "FF.Markers.traversal_keeps_code",
    "FF.Markers.traversal_keeps_marks",
    "FF.Markers.traversal_same_partial",
    "FF.Markers.traversal_reaches_all",
    "FF.Markers.unwrapped_iff",
    "FF.Markers.combined_statements",
    "FF.Markers.flattened_keeps",
    "FF.Markers.function_forgotten",
    "FF.Markers.semicolon_ignored",
    "FF.Markers.combined_comments_lost",
    "FF.Markers.unwrapped_comments_lost"
   ],
   "note": "Proved by mutual induction over expressions. Deviations: a quantized call forgets the function it replaced in every traversal; changing the semicolon of a wrapped assignment has no effect; combining blocks loses the comments between them; unwrapping a block loses its comments. Missing in the partial theorem: quantized calls that know their function."
  },
  {
   "property": "C133",
   "status": "partial",
   "theorems": [
    "FF.DeepCopy.copy_ends",
    "FF.DeepCopy.copy_complete_partial",
    "FF.DeepCopy.containers_once",
    "FF.DeepCopy.nothing_shared",
    "FF.DeepCopy.quantizers_once",
    "FF.DeepCopy.hook_refers_elsewhere",
    "FF.DeepCopy.overrides_stay"
   ],
   "note": "Ends, complete, once, nothing shared: proved. References back to the quantizer: counterexample."
  },
  {
   "property": "C134",
   "status": "partial",
   "theorems": [
    "FF.GptqIn.linear_columns",
    "FF.GptqIn.places_iff",
    "FF.GptqIn.conv_columns_partial",
    "FF.GptqIn.conv_error_partial",
    "FF.GptqIn.linear_error",
    "FF.GptqIn.accepted_partial",
    "FF.GptqIn.groups_refused",
    "FF.GptqIn.other_dimensions_refused",
    "FF.GptqIn.single_image_refused"
   ],
   "note": "Columns, quadratic form and acceptance are proved for linear layers and for convolutions without groups. Deviations: convolutions in groups are refused, although documented; linear layers only take inputs of three dimensions; single images without batch dimension are refused."
  },
  {
   "property": "C135",
   "status": "partial",
   "theorems": [
    "FF.LogFilter.logged_iff",
    "FF.LogFilter.nothing_lost_partial",
    "FF.LogFilter.no_repetitions_partial",
    "FF.LogFilter.arguments_ignored",
    "FF.LogFilter.second_class_not_reported"
   ],
   "note": "Which records are logged is characterized outright; that nothing is lost and nothing repeated is proved for messages without arguments. Deviations: arguments are ignored, so a message with other arguments is dropped; of several classes with more than one quantized version only the first is reported."
  },
  {
   "property": "C136",
   "status": "proved",
   "theorems": [
    "FF.FilterNodes.search_ends",
    "FF.FilterNodes.finds_exactly",
    "FF.FilterNodes.breadth_first",
    "FF.FilterNodes.left_to_right"
   ],
   "note": "Proved: termination, exactness, each node once, breadth first, left to right where no node occurs twice."
  },
  {
   "property": "C137",
   "status": "partial",
   "theorems": [
    "FF.Bypass.resolved_iff",
    "FF.Bypass.untouched_iff_partial",
    "FF.Bypass.version_iff",
    "FF.Bypass.written_iff",
    "FF.Bypass.other_errors_fail",
    "FF.Bypass.result_recognised"
   ],
   "note": "Proved for imports that fail with ImportError or one of its kinds; version comparison proved for entries with two numbers. Deviations: another exception in an import makes importing the library fail; a call of the result of a listed operation is recognised as the operation."
  },
  {
   "property": "C138",
   "status": "partial",
   "theorems": [
    "FF.MetaCopy.metadata_saved_partial",
    "FF.MetaCopy.rest_stays",
    "FF.MetaCopy.nothing_foreign",
    "FF.MetaCopy.unnamed_lost",
    "FF.MetaCopy.same_name_mixed",
    "FF.MetaCopy.saved_twice"
   ],
   "note": "Proved for items with distinct names. Deviations: metadata of unnamed items is lost; of items with the same name, all get the metadata of the last; entries are saved twice if saving keeps them."
  },
  {
   "property": "C139",
   "status": "partial",
   "theorems": [
    "FF.Allowzero.only_reshape",
    "FF.Allowzero.same_shape_partial",
    "FF.Allowzero.nonempty_same_partial",
    "FF.Allowzero.shape_changes",
    "FF.Allowzero.accepted_becomes_refused",
    "FF.Allowzero.refused_becomes_accepted",
    "FF.Allowzero.bodies_stay"
   ],
   "note": "Proved for non-empty tensors and for targets without zeros. Deviations: empty tensors get another shape or are refused; a Reshape that is an error becomes accepted; Reshape nodes within the bodies of other nodes keep the attribute."
  },
  {
   "property": "C140",
   "status": "proved",
   "theorems": [
    "FF.Attach.overrides_right",
    "FF.Attach.one_outcome",
    "FF.Attach.quantizes_iff",
    "FF.Attach.copy_detaches_original"
   ],
   "note": "Proved for all histories without deep copies. Deviation: an override that came with a deep copy of a quantizer detaches from the original quantizer and stays on the copy."
  },
  {
   "property": "C141",
   "status": "partial",
   "theorems": [
    "FF.Chunks.every_token_partial",
    "FF.Chunks.labels",
    "FF.Chunks.limited_partial",
    "FF.Chunks.uneven_columns",
    "FF.Chunks.zero_announces_all",
    "FF.Chunks.beyond_the_end"
   ],
   "note": "Proved for columns of the same number of tokens, and for limits that are positive and not beyond the end. Deviations: columns are cut by the length of the first; a limit of zero gives nothing and announces everything; limits beyond the end are announced as they are."
  },
  {
   "property": "C142",
   "status": "partial",
   "theorems": [
    "FF.DeviceStrip.runs_anywhere_partial",
    "FF.DeviceStrip.same_where_traced",
    "FF.DeviceStrip.rest_stays",
    "FF.DeviceStrip.created_on_default",
    "FF.DeviceStrip.device_alone_stays",
    "FF.DeviceStrip.positional_stays"
   ],
   "note": "Proved for graphs whose devices come with a type as keyword arguments of casts. Deviations: tensors that the model creates with type and device end up on the default device; a device without a type, and positional devices, stay."
  },
  {
   "property": "C143",
   "status": "partial",
   "theorems": [
    "FF.Metrics.refused_iff",
    "FF.Metrics.less_noise",
    "FF.Metrics.exact_is_best",
    "FF.Metrics.ties_found_partial",
    "FF.Metrics.negative_missed",
    "FF.Metrics.exact_sample_hides",
    "FF.Metrics.exact_copy_of_small"
   ],
   "note": "Ties are proved for tensors without negative elements. Deviations: negative elements are never recognised, not even exact ties; one exact sample hides the noise of the others; exact copies of samples of little power are reported with no more than 0 dB."
  },
  {
   "property": "C144",
   "status": "partial",
   "theorems": [
    "FF.CopyTensor.same_value",
    "FF.CopyTensor.clone_independent",
    "FF.CopyTensor.detach_shares",
    "FF.CopyTensor.all_moved",
    "FF.CopyTensor.all_contiguous",
    "FF.CopyTensor.deep_copy",
    "FF.CopyTensor.quantized_partial",
    "FF.CopyTensor.real_in_export",
    "FF.CopyTensor.deep_forgets_gradient",
    "FF.CopyTensor.contiguous_never_self"
   ],
   "note": "Proved outside export mode, without views of parts of a tensor. Deviations: in export mode clones, detached and contiguous tensors are real values, moved ones are not; deep copies forget that the data requires a gradient; contiguous never returns the tensor itself."
  },
  {
   "property": "C145",
   "status": "proved",
   "theorems": [
    "FF.Insertions.placed",
    "FF.Insertions.unchanged"
   ],
   "note": "Which operations are moved is the subject of the property about preprocessing; here their places. Line comments at the end of a statement are part of its code."
  },
  {
   "property": "C146",
   "status": "partial",
   "theorems": [
    "FF.Collections.created",
    "FF.Collections.only_quantizers_partial",
    "FF.Collections.selected_partial",
    "FF.Collections.append_refuses_others",
    "FF.Collections.append_refuses_all",
    "FF.Collections.append_bare",
    "FF.Collections.apply_other"
   ],
   "note": "Search results are refused by append, all of them (deviation); bare quantizers are accepted and break the collection (deviation); applied functions may put other modules in (deviation). Names, places and the effect on the model are the subject of other properties."
  },
  {
   "property": "C147",
   "status": "partial",
   "theorems": [
    "FF.Output.formatted_iff",
    "FF.Output.first_failure",
    "FF.Output.meaning_kept",
    "FF.Output.succeeds_iff",
    "FF.Output.same_code",
    "FF.Output.failure_changes_nothing_partial",
    "FF.Output.written_then_refused",
    "FF.Output.arguments_checked_last"
   ],
   "note": "Code whose import fails has already replaced the file (deviation); arguments are checked only after generating and formatting (deviation). Concurrent writers and module names are the subject of another property."
  },
  {
   "property": "C148",
   "status": "partial",
   "theorems": [
    "FF.Files.files_kept_partial",
    "FF.Files.others_untouched",
    "FF.Files.own_files_partial",
    "FF.Files.model_overwritten",
    "FF.Files.split_weights_overwritten",
    "FF.Files.empty_name"
   ],
   "note": "A name that is the file name of another model overwrites it (deviation); weights stored one file each are named after the weights only (deviation); an empty name makes model and weights one file (deviation). What onnx.save does with a file of weights that exists is not modelled."
  },
  {
   "property": "C149",
   "status": "proved",
   "theorems": [
    "FF.Compile.compilation_transparent",
    "FF.Compile.compiled_once",
    "FF.Compile.flag_restored",
    "FF.Compile.position_not_converted"
   ],
   "note": "That torch.compile keeps what a function computes is assumed. A number of bits given by position is not converted (deviation); the operators that torch makes of these functions convert it by their schema, which is not modelled."
  },
  {
   "property": "C150",
   "status": "proved",
   "theorems": [
    "FF.LinQ.operator_is_quantizer",
    "FF.LinQ.operator_ignores_history",
    "FF.LinQ.tried_but_not_set"
   ],
   "note": "Exact arithmetic; parameters stored in another dtype than float32 are rounded when set and not when tried, which is not modelled. One minimum with several maxima can be tried but not set on a new quantizer (deviation)."
  },
  {
   "property": "C151",
   "status": "proved",
   "theorems": [
    "FF.Ste.value_unchanged",
    "FF.Ste.shape_refused",
    "FF.Ste.straight_same_value",
    "FF.Ste.gradient_straight_through",
    "FF.Ste.further_arguments_not_learned"
   ],
   "note": "Integer tensors, elementwise sums and products without broadcasting. Further tensor arguments of a decorated function receive no gradient although the result depends on them (deviation)."
  },
  {
   "property": "C152",
   "status": "partial",
   "theorems": [
    "FF.Random.accepted_iff_partial",
    "FF.Random.codes_meant",
    "FF.Random.single_offset_refused"
   ],
   "note": "Acceptance is partial: a tensor with one offset is refused for several scales although quantization accepts it (deviation). Rationals for floats; gradients, device and storage type are not modelled."
  },
  {
   "property": "C153",
   "status": "partial",
   "theorems": [
    "FF.Contexts.derivations_change_nothing",
    "FF.Contexts.assignments_local_partial",
    "FF.Contexts.changed_exactly",
    "FF.Contexts.contiguous_exactly",
    "FF.Contexts.converted_exactly",
    "FF.Contexts.assigned_exactly",
    "FF.Contexts.adopted_exactly",
    "FF.Contexts.shared_parameters",
    "FF.Contexts.contiguous_may_share"
   ],
   "note": "Values are opaque, so storage shared by the tensors in two contexts is not modelled here (C144 is about that). Making contiguous may return the context itself, which an assignment then changes (deviation). Partial: that an assignment reaches no other context is proved for histories in which no context was made for a parameters object that another has; functions from create_quantization_function make such contexts, which share the object (deviation)."
  }
 ]
}