{
 "claims": [
  {
   "property": "C01",
   "status": "proved",
   "theorems": [
    "Verif.Serde.type_ctor_accepts_iff",
    "Verif.Serde.type_json_roundtrip",
    "Verif.Serde.type_json_raises_iff",
    "Verif.Serde.type_json_total_roundtrip",
    "Verif.Serde.type_json_injective"
   ],
   "note": "HE/PHE-style types without registration are the error branch"
  },
  {
   "property": "C02",
   "status": "proved",
   "theorems": [
    "Verif.Serde.value_json_roundtrip",
    "Verif.Serde.value_json_total_roundtrip",
    "Verif.Serde.dumps_loads",
    "Verif.Serde.dumpsB64_loads",
    "Verif.Serde.dumps_fails_iff",
    "Verif.Serde.b64dec_ignores_foreign",
    "Verif.Serde.nan_bits_violated",
    "Verif.Serde.huge_int_violated",
    "Verif.Serde.json_number_read"
   ],
   "note": "byte level included (JSON text, UTF-8, base64); assumes gzip and float text contracts (WireLib.Ok). Values holding a NaN with a non-standard payload or an int over 4300 digits are excluded, with witnesses"
  },
  {
   "property": "C03",
   "status": "proved",
   "theorems": [
    "Verif.Serde.container_roundtrip",
    "Verif.Serde.container_pack_succeeds_iff",
    "Verif.Serde.container_truncation",
    "Verif.Serde.binary_value_roundtrip",
    "Verif.Serde.binary_truncation_rejected",
    "Verif.Serde.dumpsBin_loads",
    "Verif.Serde.dumpsBin_truncation_rejected"
   ],
   "note": "byte level included"
  },
  {
   "property": "C04",
   "status": "partial",
   "theorems": [
    "Verif.Serde.type_eq_implies_hash_eq_partial",
    "Verif.Serde.type_eq_implies_hash_eq_violated"
   ],
   "note": "violated for tables whose schemas differ only in column order; holds otherwise"
  },
  {
   "property": "C05",
   "status": "partial",
   "theorems": [
    "Verif.Graph.graph_json_roundtrip_partial",
    "Verif.Graph.graph_bytes_roundtrip_partial",
    "Verif.Graph.graph_b64_roundtrip_partial",
    "Verif.Graph.builder_op_never_fails",
    "Verif.Graph.graph_json_roundtrip_violated",
    "Verif.Graph.foreign_names_roundtrip"
   ],
   "note": "holds for every graph built without a failed add_op (regions of any depth); after a failed add_op with an input named like a generated value the read back raises"
  },
  {
   "property": "C06",
   "status": "proved",
   "theorems": [
    "Verif.Trace.morph_roundtrip",
    "Verif.Trace.morph_replace",
    "Verif.Trace.morph_variables",
    "Verif.Trace.morph_positions",
    "Verif.Trace.normalize_fn_same",
    "Verif.Trace.unflatten_exact"
   ],
   "note": "jax tree_flatten/unflatten are external and modelled as ordered trees"
  },
  {
   "property": "C07",
   "status": "proved",
   "theorems": [
    "Verif.Graph.builder_ssa",
    "Verif.Graph.builder_operand_types",
    "Verif.Graph.builder_rejections_apply_nothing",
    "Verif.Graph.builder_accepts_foreign_operand",
    "Verif.Graph.builder_returns_own_values"
   ],
   "note": "operands must be values of the same graph: add_op does not check this (witness builder_accepts_foreign_operand)"
  },
  {
   "property": "C08",
   "status": "proved",
   "theorems": [
    "Verif.Trace.trace_then_evaluate",
    "Verif.Trace.eager_call_applies",
    "Verif.Trace.eager_call_no_output_violated"
   ],
   "note": "primitives defined by def_abstract_eval; eager execution skips primitives without outputs (witness)"
  },
  {
   "property": "C09",
   "status": "proved",
   "theorems": [
    "Verif.Trace.merge_captures_correct",
    "Verif.Trace.align_region_preserves",
    "Verif.Trace.run_traceWF",
    "Verif.Trace.regions_share_captures"
   ],
   "note": ""
  },
  {
   "property": "C10",
   "status": "partial",
   "theorems": [
    "Verif.Trace.Ctx.context_lexical",
    "Verif.Trace.Ctx.with_block_restores",
    "Verif.Trace.Ctx.find_context_innermost",
    "Verif.Trace.Ctx.set_root_unforced",
    "Verif.Trace.Ctx.forced_root_in_with_violated",
    "Verif.Trace.Ctx.find_with_state_partial",
    "Verif.Trace.Ctx.find_with_state_violated",
    "Verif.Trace.Threads.threads_serial_partial",
    "Verif.Trace.Threads.threads_overlap_violated"
   ],
   "note": "violated: threads that overlap share one stack, a forced root inside with is popped, find_context_with_state raises under a tracer"
  },
  {
   "property": "C100",
   "status": "partial",
   "theorems": [
    "Verif.Kern.Wrap.field_ops_sound",
    "Verif.Kern.Wrap.field_ops_shape_partial",
    "Verif.Kern.Wrap.solve_short_values_violated",
    "Verif.Kern.Wrap.mul_broadcast_violated",
    "Verif.Kern.Wrap.single_seed_violated",
    "Verif.Kern.Wrap.wide_seeds_violated",
    "Verif.Kern.Wrap.element_type_violated",
    "Verif.Kern.Wrap.no_cells_violated",
    "Verif.Kern.Wrap.flat_storage_violated",
    "Verif.Kern.Wrap.field_store_round_trip",
    "Verif.Kern.Wrap.field_mul_blocks",
    "Verif.Kern.Wrap.field_ldpc_blocks"
   ],
   "note": "proved for the operands the documentation asks for; for any operands the result is 64-bit words of the declared shape (aes_expand excepted); violated: the type rules accept operands whose buffers are too short, which native code then reads past, or a table of no cells"
  },
  {
   "property": "C101",
   "status": "proved",
   "theorems": [
    "Verif.Sgb.Boost.boosting_sound",
    "Verif.Sgb.Boost.fewer_rounds_prefix",
    "Verif.Sgb.Boost.unfitted_refuses",
    "Verif.Sgb.Boost.new_accepts_iff"
   ],
   "note": "floats are reals; n_samples is the number of rows (a wrong value 1 is silently broadcast: one_sample_broadcast)"
  },
  {
   "property": "C102",
   "status": "proved",
   "theorems": [
    "Verif.Sgb.Boost.gradients_are_derivatives",
    "Verif.Sgb.Boost.gradient_range",
    "Verif.Sgb.Boost.base_score_is_mean",
    "Verif.Sgb.Boost.base_score_optimal",
    "Verif.Sgb.Boost.probability_range",
    "Verif.Sgb.Boost.accuracy_spec",
    "Verif.Sgb.Boost.quantize_error",
    "Verif.Sgb.Boost.histogram_error"
   ],
   "note": "floats are reals, so float32 rounding is outside"
  },
  {
   "property": "C103",
   "status": "proved",
   "theorems": [
    "Verif.Sgb.Bins.bins_ordered",
    "Verif.Sgb.Bins.bin_interval",
    "Verif.Sgb.Bins.extremes_separated",
    "Verif.Sgb.Bins.constant_feature",
    "Verif.Sgb.Bins.bins_affine"
   ],
   "note": "floats are reals; no NaN"
  },
  {
   "property": "C104",
   "status": "partial",
   "theorems": [
    "Verif.Sgb.Pack.tree_sum_correct",
    "Verif.Sgb.Pack.packed_pipeline_partial",
    "Verif.Sgb.Pack.packing_row_violated"
   ],
   "note": "proved as long as no region in which features are packed crosses a row of the ciphertext; violated with the default nine buckets and more than 456 features per party"
  },
  {
   "property": "C105",
   "status": "proved",
   "theorems": [
    "Verif.Driver.Spmd.spmd_end_to_end"
   ],
   "note": "for programs that have a meaning (C16-C22 say which: e.g. no exchange in a shuffle); one program at a time (C106 for several); loops need enough fuel, i.e. terminate"
  },
  {
   "property": "C106",
   "status": "partial",
   "theorems": [
    "Verif.Driver.Concurrent.requests_isolated",
    "Verif.Driver.Concurrent.requests_progress",
    "Verif.Driver.Concurrent.pool_in_turn_completes",
    "Verif.Driver.Concurrent.anonymous_requests_mix_violated",
    "Verif.Driver.Concurrent.anonymous_requests_fail_violated",
    "Verif.Driver.Concurrent.pool_interleaved_violated",
    "Verif.Driver.Concurrent.shared_context_iff",
    "Verif.Driver.Concurrent.workers_in_order_complete",
    "Verif.Driver.Concurrent.workers_few_complete",
    "Verif.Driver.Concurrent.workers_reordered_violated"
   ],
   "note": "proved for requests with different job ids, and for the thread pool when requests are submitted one after the other; violated as the driver submits them: without a job id all requests share the context \"anonymous\", and interleaved submissions can occupy all threads with parties that wait for queued ones"
  },
  {
   "property": "C107",
   "status": "partial",
   "theorems": [
    "Verif.Driver.Api.fetch_tracing",
    "Verif.Driver.Api.fetch_context",
    "Verif.Driver.Api.fetch_leafwise",
    "Verif.Driver.Api.fetch_parties",
    "Verif.Driver.Api.fetch_missing",
    "Verif.Driver.Api.fetch_device",
    "Verif.Driver.Api.fetch_device_absent",
    "Verif.Driver.Api.function_parties",
    "Verif.Driver.Api.evaluateCompiled_spec",
    "Verif.Driver.Api.evaluateTraced_direct",
    "Verif.Driver.Api.fetch_after_compile_violated",
    "Verif.Driver.Api.fetch_after_compile_partial",
    "Verif.Driver.Api.fetch_spu_violated",
    "Verif.Driver.Api.fetch_spu_partial"
   ],
   "note": "results of compiled programs lose the device attribute and are fetched as per-party lists; objects on an SPU are fetched as the first share instead of the reconstructed value"
  },
  {
   "property": "C108",
   "status": "partial",
   "theorems": [
    "Verif.Device.device_program_partial",
    "Verif.Device.placement_sound",
    "Verif.Device.spu_order_violated",
    "Verif.Device.idealKernel_ok"
   ],
   "note": "proved for clusters whose SPU member lists are ascending by rank; libspu is a contract (KernelOk), shown to be satisfiable by the ideal kernel for every scheme meeting the sharing contract"
  },
  {
   "property": "C109",
   "status": "partial",
   "theorems": [
    "Verif.Interp.Scopes.one_scope",
    "Verif.Interp.Scopes.outside_violated",
    "Verif.Interp.Scopes.scope_by_position_partial",
    "Verif.Interp.Scopes.loop_scopes_violated",
    "Verif.Interp.Scopes.async_failure_reported"
   ],
   "note": "sequential evaluation (all shipped clusters) in full except that after a failed evaluation the scope stays readable outside; with an executor proved for handlers that evaluate one nested graph at most; violated for loops whose body calls a function on some parties only"
  },
  {
   "property": "C11",
   "status": "proved",
   "theorems": [
    "Verif.Interp.sync_eval_correct",
    "Verif.Interp.sync_eval_never_missing"
   ],
   "note": ""
  },
  {
   "property": "C110",
   "status": "partial",
   "theorems": [
    "Verif.Trace.Bind.call_recorded",
    "Verif.Trace.Bind.precedence",
    "Verif.Trace.Bind.constants_dropped_violated",
    "Verif.Trace.Bind.concat_array_violated",
    "Verif.Trace.Bind.dispatch_latest",
    "Verif.Trace.Bind.profiling_transparent",
    "Verif.Trace.Bind.profile_samples",
    "Verif.Trace.Bind.own_handlers_unprofiled_violated",
    "Verif.Trace.Bind.summary_consistent"
   ],
   "note": "violated: non-object positional arguments vanish silently for rules taking any number of inputs (concat, converge, write, reconstruct); objects in keyword arguments are recorded instead of refused; operations with handlers of the interpreter's own are not profiled"
  },
  {
   "property": "C111",
   "status": "proved",
   "theorems": [
    "Verif.Simp.plain_reading",
    "Verif.Simp.party_view"
   ],
   "note": "for objects that stand for one value (all parties of the type hold the same value), as in the protocols of mplang/libs; local functions may fail"
  },
  {
   "property": "C112",
   "status": "partial",
   "theorems": [
    "Verif.Sgb.Protocol.fit_correct_partial",
    "Verif.Sgb.Protocol.session_correct_partial",
    "Verif.Sgb.Protocol.fit_depth_zero_violated"
   ],
   "note": "violated for max_depth=0 with passive parties; the local array computations are parameters (their properties are C73-C78, C101-C104)"
  },
  {
   "property": "C113",
   "status": "proved",
   "theorems": [
    "Verif.Mpc.Net.transfer_network",
    "Verif.Mpc.Net.vole_network",
    "Verif.Mpc.Net.silent_network",
    "Verif.Mpc.Net.psi_network",
    "Verif.Mpc.Net.psi_network_any",
    "Verif.Mpc.Net.psi_refused",
    "Verif.Mpc.Net.unbalanced_network",
    "Verif.Mpc.Net.unbalanced_server_view",
    "Verif.Mpc.Net.oprf_network",
    "Verif.Mpc.Net.silver_network"
   ],
   "note": "random draws, hash and AES are parameters; draws avoid the coincidences modulo the group order that raise; marked-item guarantees with the Python OKVS solver (psi_network_any: every solver; the native solver's defects are C41/C50); lists of tensors that stay at a party are one value"
  },
  {
   "property": "C114",
   "status": "partial",
   "theorems": [
    "Verif.Comm.Sends.reported_sends_over",
    "Verif.Comm.Sends.messages_at_most_once",
    "Verif.Comm.Sends.transfers_bounded",
    "Verif.Comm.Sends.pending_is_unfinished",
    "Verif.Comm.Sends.counters_exact_partial",
    "Verif.Comm.Sends.sends_make_progress",
    "Verif.Comm.Sends.waiting_ends",
    "Verif.Comm.Sends.lost_message_reported_ok_violated",
    "Verif.Comm.Sends.late_message_violated",
    "Verif.Comm.Sends.unbuilt_send_uncounted_violated",
    "Verif.Comm.Sends.counters_since_reset_partial",
    "Verif.Comm.Sends.report_is_final"
   ],
   "note": "violated: a refused or timed-out send is only logged and the request is reported as a success; a wait that times out is dropped too, so a transfer can still be under way; sends that fail while being serialised are in no counter. Durations, averages and the receive counters are not modelled"
  },
  {
   "property": "C115",
   "status": "proved",
   "theorems": [
    "Verif.Mpc.Shuf.ot_network",
    "Verif.Mpc.Shuf.permutation_network",
    "Verif.Mpc.Shuf.groupby_network",
    "Verif.Mpc.Shuf.groupby_receiver_view",
    "Verif.Mpc.Shuf.groupby_sender_view",
    "Verif.Mpc.Shuf.groupby_helper_view",
    "Verif.Simp.runs_same",
    "Verif.Simp.same_view"
   ],
   "note": "for ordinary draws (all but at most 6/N of the scalars per element, C44); sender and receiver are different parties; the list form of apply_permutation is not modelled; the helper sees the whole bin vector (the docstring says bin sizes)"
  },
  {
   "property": "C116",
   "status": "partial",
   "theorems": [
    "Verif.Sgb.Kernels.session_predicts_partial",
    "Verif.Sgb.Kernels.trained_leaves_optimal_partial"
   ],
   "note": "Partial for the reasons of C112 (max_depth=0 with passive parties makes fit raise) and C74 (clamped and rounded thresholds break the agreement of training and prediction, so the second theorem assumes Exact). Histograms, gains and encryption are arbitrary total functions here (C75-C77, C103, C104 treat them); real numbers instead of float32."
  },
  {
   "property": "C117",
   "status": "partial",
   "theorems": [
    "Verif.Mpc.Gb.groupby_bfv_network_partial",
    "Verif.Mpc.Gb.groupby_bfv_sender_view_partial",
    "Verif.Mpc.Gb.groupby_bfv_outsider_view",
    "Verif.Mpc.Gb.groupby_bfv_receiver_view_violated"
   ],
   "note": "Result: partial as C66 (range of the plain modulus; across processes every chunk must hold an element of every bin; at least one bin). Sender view: ciphertexts are their slots, all of them compared; the noise, which the code does not flood and which may depend on the masks, is not modelled. Receiver view: violated, it ends every run with a key that decrypts the data (C67)."
  },
  {
   "property": "C118",
   "status": "proved",
   "theorems": [
    "Verif.Driver.Spmd.driver_plain_reading",
    "Verif.Simp.Runs.runsTo"
   ],
   "note": "The network theorems about particular protocols (C112, C113, C115, C116, C117) conclude `RunsTo`, which contains this: each of them holds for the traced graph and for the protocol called from the driver."
  },
  {
   "property": "C119",
   "status": "partial",
   "theorems": [
    "Verif.Tool.Cli.workers_find_each_other",
    "Verif.Tool.Cli.up_starts_all_workers",
    "Verif.Tool.Cli.driver_finds_workers_partial",
    "Verif.Tool.Cli.driver_finds_workers_violated",
    "Verif.Tool.Cli.status_asks_workers",
    "Verif.Tool.Cli.objects_asks_workers_partial",
    "Verif.Tool.Cli.objects_asks_workers_violated",
    "Verif.Tool.Cli.generated_config",
    "Verif.Tool.Cli.spu_addresses_partial",
    "Verif.Tool.Cli.spu_addresses_distinct",
    "Verif.Tool.Cli.spu_flag_ignored",
    "Verif.Tool.Cli.spu_addresses_violated"
   ],
   "note": "Agreement of the workers, up, status and generated files are proved for all inputs. The driver is proved to find the workers unless a config file is combined with --endpoints or an address begins with http but not with http:// or https:// (both witnessed); objects only with a config file (witnessed); SPU addresses for nodes written without a scheme and with the flags that are not ignored (five witnesses)."
  },
  {
   "property": "C12",
   "status": "proved",
   "theorems": [
    "Verif.Interp.async_returns_spec",
    "Verif.Interp.async_raises_spec",
    "Verif.Interp.async_agrees_with_sync"
   ],
   "note": ""
  },
  {
   "property": "C120",
   "status": "partial",
   "theorems": [
    "Verif.Tool.Cli.signal_stops_workers_partial",
    "Verif.Tool.Cli.signal_stops_workers_violated"
   ],
   "note": "Proved: at every moment all workers started so far are terminated except possibly the last, and all of them once the loop is over. Witness for every worker: a signal between its start and its entry in the list leaves it running (sys.exit then waits for it)."
  },
  {
   "property": "C121",
   "status": "partial",
   "theorems": [
    "Verif.Tool.Trace.runs_are_recorded",
    "Verif.Tool.Trace.disabled_records_nothing",
    "Verif.Tool.Trace.rank_read_back",
    "Verif.Tool.Trace.rank_only_from_name",
    "Verif.Tool.Trace.merge_keeps_events_partial",
    "Verif.Tool.Trace.merge_keeps_events_violated",
    "Verif.Tool.Trace.recorded_wellFormed",
    "Verif.Tool.Trace.ranks_apart",
    "Verif.Tool.Trace.processes_kept_partial",
    "Verif.Tool.Trace.processes_kept_violated",
    "Verif.Tool.Trace.saved_events_partial",
    "Verif.Tool.Trace.saved_events_violated",
    "Verif.Tool.Trace.cluster_ranks_violated"
   ],
   "note": "Recording, the rank in file names and the separation of ranks are proved in full. Partial: merging needs readable well-formed files (the recorded ones are), processes are kept apart up to multiples of 10000, saving needs 100 events. Witnessed: dropped rest of a file, duplicated events, small jobs not saved, earlier jobs' events in later files, and clusters whose files do not separate ranks."
  },
  {
   "property": "C122",
   "status": "partial",
   "theorems": [
    "Verif.Mpc.dense_encode_low_bits_partial",
    "Verif.Mpc.dense_encode_violated",
    "Verif.Mpc.decode_single_partial",
    "Verif.Mpc.decode_violated",
    "Verif.Mpc.generated_passes_partial",
    "Verif.Mpc.small_generated_violated",
    "Verif.Mpc.structure_check_exact",
    "Verif.Mpc.decode_blocks_bits",
    "Verif.Mpc.silver_base_bounds"
   ],
   "note": "Exactly what the dense encoder computes is proved (the lowest bit of each word of the syndrome). Decoding is proved for single errors whose column is not inside an earlier one, with witnesses that it fails otherwise, for two errors, and for blocks. The structure check is proved to accept every generated matrix with at least 50 columns and to reject every one with fewer than 30; it uses exact fractions instead of floats."
  },
  {
   "property": "C123",
   "status": "partial",
   "theorems": [
    "Verif.Serde.type_text_partial",
    "Verif.Serde.type_text_exact_partial",
    "Verif.Serde.type_text_schema_violated",
    "Verif.Serde.type_text_column_violated",
    "Verif.Graph.Printer.format_determines_partial",
    "Verif.Graph.Printer.intAttr_clear",
    "Verif.Graph.Printer.format_schema_violated",
    "Verif.Graph.Printer.to_string_determines_partial",
    "Verif.Graph.Printer.to_string_regions_violated"
   ],
   "note": "Violated: the encryption schema of a secret-shared type is not printed, and column names are quoted without escaping. Proved for all types and graphs with plain names up to that schema; python repr of attribute values is a parameter that must be unambiguous (proved for ints and tuples of ints); operation names are not printed. Also str(graph)/to_string/compiler_ir (edsl/graph.py:312-362), which print neither regions nor the types of further outputs (to_string_regions_violated)."
  },
  {
   "property": "C124",
   "status": "partial",
   "theorems": [
    "Verif.Driver.Lifecycle.collect_values",
    "Verif.Driver.Lifecycle.collect_error_partial",
    "Verif.Driver.Lifecycle.collect_error_down",
    "Verif.Driver.Lifecycle.healthy",
    "Verif.Driver.Lifecycle.later_submits_refused_violated",
    "Verif.Driver.Lifecycle.other_program_killed_violated",
    "Verif.Driver.Lifecycle.down_finishes",
    "Verif.Driver.Lifecycle.http_collect_error",
    "Verif.Driver.Lifecycle.http_collect_values",
    "Verif.Driver.Lifecycle.http_hides_cause_violated",
    "Verif.Driver.Lifecycle.request_keeps_shared",
    "Verif.Driver.Lifecycle.executor_stopped_once",
    "Verif.Driver.Lifecycle.shutdown_idempotent_violated"
   ],
   "note": "Violated: after one failed program the local simulator refuses every later program and kills the ones running; the remote driver waits in rank order, so a failure can be hidden behind a wait or its timeout; a second shutdown writes another trace file. Proved: results and errors of every history while the simulator is up, progress after a shutdown, what a request may stop. Worker code is an arbitrary outcome; stopping a computation that never receives is not modelled (a thread is assumed to end or to reach a receive)."
  },
  {
   "property": "C125",
   "status": "partial",
   "theorems": [
    "Verif.Spu.Run.compiled_is_call",
    "Verif.Spu.Run.spu_function_partial",
    "Verif.Spu.Run.public_argument_violated",
    "Verif.Spu.Run.visibility_by_type",
    "Verif.Spu.Run.other_types_refused",
    "Verif.Spu.Run.shares_round_trip",
    "Verif.Spu.Run.reconstruct_types",
    "Verif.Spu.Run.reconstruct_types_violated",
    "Verif.Spu.Run.element_types_refused"
   ],
   "note": "Violated: a Tensor argument is accepted as public while tracing, but its TensorValue cannot be shared by exec_impl and the run fails; reconstruct looks only at the type of its first argument. Proved: the joint execution for secret arguments (and bare arrays), tracing rules, types. libspu (sharing, compiling, running) is a contract, with an instance; the path for dynamic shapes (StableHLO compiled when run) is the same contract."
  },
  {
   "property": "C126",
   "status": "partial",
   "theorems": [
    "Verif.Driver.Env.default_environment",
    "Verif.Driver.Env.compile_context_same",
    "Verif.Driver.Env.parties_in_world",
    "Verif.Driver.Env.factories_complete",
    "Verif.Driver.Env.same_environment",
    "Verif.Driver.Env.size_mismatch_violated",
    "Verif.Driver.Env.missing_party_violated",
    "Verif.Driver.Env.smaller_world",
    "Verif.Driver.Env.larger_world_violated"
   ],
   "note": "Violated: a cluster of another size than the world is accepted everywhere, and steps on missing parties end without error and without values; a checked conditional over the first parties raises in a larger world. Proved: consistency of the defaults and of compile contexts, nesting, and that smaller worlds agree."
  },
  {
   "property": "C127",
   "status": "partial",
   "theorems": [
    "Verif.Tool.Profiler.profiling_transparent",
    "Verif.Tool.Profiler.recorded_exactly",
    "Verif.Tool.Profiler.call_recorded_iff",
    "Verif.Tool.Profiler.summary_exact",
    "Verif.Tool.Profiler.totals",
    "Verif.Tool.Profiler.printed_rows",
    "Verif.Tool.Profiler.leaf_total_partial",
    "Verif.Tool.Profiler.leaf_total_violated"
   ],
   "note": "Violated: the leaf summary leaves out a fixed list of simp operations, but func.call and tensor.elementwise also evaluate nested graphs, so the time of their inner operations is counted twice. Proved: transparency, exact recording, exact statistics, and the bound when only listed containers call other operations. Sequential executions with times as natural numbers; threads recording at the same time are not modelled."
  },
  {
   "property": "C128",
   "status": "partial",
   "theorems": [
    "Verif.Table.Constant.dict_constant_partial",
    "Verif.Table.Constant.frame_constant_partial",
    "Verif.Table.Constant.list_type_iff",
    "Verif.Table.Constant.ragged_refused",
    "Verif.Table.Constant.sent_same_iff",
    "Verif.Table.Constant.index_violated",
    "Verif.Table.Constant.party_columns",
    "Verif.Table.Constant.party_order_iff",
    "Verif.Table.Constant.party_order_violated",
    "Verif.Table.Constant.list_types_violated",
    "Verif.Table.Constant.arrow_table_violated"
   ],
   "note": "Violated: types are declared from pandas and values built by pyarrow, which disagree on lists with missing integers or booleans, empty lists, lists of None and bytes (exactly these: list_type_iff); an index of a DataFrame becomes an undeclared column in a simulator and is dropped on a cluster; simp.constant and mp.put order the columns of a dictionary by name and refuse Arrow tables. Inference of pandas and pyarrow is modelled for lists of one family with integers of at most 53 bits, and arbitrary otherwise."
  },
  {
   "property": "C129",
   "status": "partial",
   "theorems": [
    "Verif.Mpc.Net.transfer_traffic",
    "Verif.Mpc.Net.vole_traffic",
    "Verif.Mpc.Net.silent_traffic",
    "Verif.Mpc.Net.silver_traffic",
    "Verif.Mpc.Net.oprf_traffic",
    "Verif.Mpc.Net.psi_traffic",
    "Verif.Mpc.Net.unbalanced_traffic",
    "Verif.Mpc.Net.totals",
    "Verif.Mpc.Net.common_le",
    "Verif.Mpc.Net.psi_linear",
    "Verif.Mpc.Net.silver_bounded",
    "Verif.Mpc.Net.unbalanced_size_violated",
    "Verif.Mpc.Net.silver_estimate_violated",
    "Verif.Mpc.Net.silver_saving_violated",
    "Verif.Mpc.Net.solve_sized",
    "Verif.Mpc.Net.solve_native_sized",
    "Verif.Mpc.Net.tableRr22_bounds",
    "Verif.Mpc.Net.tableBase_bounds",
    "Verif.Mpc.Shuf.ot_sent",
    "Verif.Mpc.Shuf.permutation_sent",
    "Verif.Mpc.Shuf.groupby_sent",
    "Verif.Mpc.Shuf.permutation_linear",
    "Verif.Mpc.Gb.groupby_bfv_sent",
    "Verif.Mpc.Gb.bfv_total",
    "Verif.Sgb.Protocol.fit_route",
    "Verif.Sgb.Protocol.eval_route",
    "Verif.Sgb.Protocol.fit_messages",
    "Verif.Sgb.Protocol.no_passive_to_passive"
   ],
   "note": "the exact messages of every run of the seven protocols are proved (hence sizes independent of private items), intersection is linear and Silver bounded; violated: the unbalanced protocol sends at least 16 bytes per item of the server; the library's estimate is wrong by at least 49 times (Silver) and 128 times (Gilboa); the promised factor 1300 is not reached below 2.6 million correlations; the base transfer, the permutation, both group-bys and SecureBoost send what the specification lists, in every run"
  },
  {
   "property": "C13",
   "status": "proved",
   "theorems": [
    "Verif.Interp.async_progress",
    "Verif.Interp.async_terminates",
    "Verif.Interp.async_each_op_once",
    "Verif.Interp.async_returned_all_ops",
    "Verif.Interp.async_outcome"
   ],
   "note": ""
  },
  {
   "property": "C130",
   "status": "partial",
   "theorems": [
    "Verif.Serde.Registry.registry_first",
    "Verif.Serde.Registry.registry_stable",
    "Verif.Serde.Registry.register_accepts_iff",
    "Verif.Serde.Registry.reads_back_iff",
    "Verif.Serde.Registry.import_order",
    "Verif.Serde.Registry.library_classes",
    "Verif.Serde.Registry.subclass_violated",
    "Verif.Serde.Registry.reserved_violated"
   ],
   "note": "the registry, its stability and import-order independence, and the exact condition for an object to be read as its class are proved, and hold for all 39 classes of mplang; violated: an undecorated subclass without a kind of its own is written and read back as its base class, a built-in kind can be taken, an undecorated class with a kind is written and cannot be read"
  },
  {
   "property": "C131",
   "status": "partial",
   "theorems": [
    "Verif.Tool.Logging.silent_after_disable",
    "Verif.Tool.Logging.silent_by_default",
    "Verif.Tool.Logging.others_untouched",
    "Verif.Tool.Logging.setup_force_partial",
    "Verif.Tool.Logging.setup_adds",
    "Verif.Tool.Logging.setup_fresh",
    "Verif.Tool.Logging.setup_twice_violated",
    "Verif.Tool.Logging.propagate_inherits",
    "Verif.Tool.Logging.root_level_violated",
    "Verif.Tool.Logging.stream_false_violated",
    "Verif.Tool.Logging.bad_level",
    "Verif.Tool.Logging.bad_file_violated",
    "Verif.Tool.Logging.get_logger_under_iff",
    "Verif.Tool.Logging.get_logger_violated",
    "Verif.Tool.Logging.setup_twice",
    "Verif.Tool.Logging.import_respects",
    "Verif.Tool.Logging.setup_propagate_adds"
   ],
   "note": "silence (by default, after disable_logging at any point), exact delivery with force or on first use, exactly what is added without force, isolation of other loggers, and which names belong to the library are proved; violated: configuring twice writes records twice, propagate ignores the application's level, stream=False alone writes warnings to stderr, a file that cannot be opened leaves the old handlers removed, names like mplang_tools escape disable_logging"
  },
  {
   "property": "C132",
   "status": "partial",
   "theorems": [
    "Verif.Tool.Run.run_cleans_up_partial",
    "Verif.Tool.Run.run_from_shell_partial",
    "Verif.Tool.Run.run_no_driver",
    "Verif.Tool.Run.run_failed_load_violated",
    "Verif.Tool.Run.run_forced_root_violated"
   ],
   "note": "proved once the entry function is reached, for code without forced root changes, and for all code when started from the shell; violated: every failure between building the driver and calling the entry function leaves the driver on the context stack and running; a forced root change loses the outer contexts"
  },
  {
   "property": "C133",
   "status": "partial",
   "theorems": [
    "Verif.Driver.Stop.stop_outcome",
    "Verif.Driver.Stop.stop_progress",
    "Verif.Driver.Stop.stop_bounded",
    "Verif.Driver.Stop.stop_loses_tasks_violated"
   ],
   "note": "proved: the stop always proceeds and takes at most as many steps as work is left; a task that has not ended when the communicator is shut down ends, with success exactly if it sends nothing more and everything it still receives has arrived; violated: accepted tasks are lost, because the communicator is shut down before the pool. Each message is assumed to be read once; uvicorn's own waiting for open connections is part of 'serving'"
  },
  {
   "property": "C14",
   "status": "partial",
   "theorems": [
    "Verif.Interp.Lift.lazy_value_correct",
    "Verif.Interp.Lift.lazy_value_stable",
    "Verif.Interp.Lift.lazy_cached",
    "Verif.Interp.Lift.lazy_siblings_cached",
    "Verif.Interp.Lift.lazy_once_per_value",
    "Verif.Interp.Lift.lazy_op_runs_once_violated"
   ],
   "note": "values are right for every history with nested tracers; the 'each op at most once' half is violated (witness): every uncached request re-evaluates the whole graph"
  },
  {
   "property": "C15",
   "status": "partial",
   "theorems": [
    "Verif.Interp.Fp.fingerprint_iff_same",
    "Verif.Interp.Fp.stable_attrs_plain",
    "Verif.Interp.Fp.fingerprint_skips_unstable_violated",
    "Verif.Interp.Fp.exec_key_unmodified",
    "Verif.Interp.Fp.exec_key_stale_violated",
    "Verif.Interp.Fp.dict_order_irrelevant",
    "Verif.Interp.Fp.key_determines_types_partial",
    "Verif.Interp.Fp.key_ignores_schema_violated"
   ],
   "note": "json.dumps and sha256 taken as injective; violated: attributes without stable form are skipped, and the key cached on a graph object survives modification of the graph"
  },
  {
   "property": "C16",
   "status": "partial",
   "theorems": [
    "Verif.Simp.party_types_sound_partial",
    "Verif.Simp.straight_line_sound_partial",
    "Verif.Simp.program_correct",
    "Verif.Simp.strict_accepts",
    "Verif.Simp.party_types_violated"
   ],
   "note": "holds when no value with dynamic party set is given to a static call or shuffle; violated otherwise (witness). Straight-line programs need no assumption about the run"
  },
  {
   "property": "C17",
   "status": "proved",
   "theorems": [
    "Verif.Simp.pcall_accepted_iff",
    "Verif.Simp.pcall_runs_exactly"
   ],
   "note": ""
  },
  {
   "property": "C18",
   "status": "partial",
   "theorems": [
    "Verif.Simp.pcall_dynamic_partial",
    "Verif.Simp.pcall_dynamic_violated"
   ],
   "note": "the implementation runs the function on parties with missing inputs too"
  },
  {
   "property": "C19",
   "status": "partial",
   "theorems": [
    "Verif.Simp.shuffle_delivers_partial",
    "Verif.Simp.shuffle_swap_violated",
    "Verif.Simp.shuffle_accept_iff"
   ],
   "note": "violated for every routing in which two parties exchange values: they never return"
  },
  {
   "property": "C20",
   "status": "proved",
   "theorems": [
    "Verif.Simp.converge_rejected_iff",
    "Verif.Simp.converge_merges"
   ],
   "note": ""
  },
  {
   "property": "C21",
   "status": "proved",
   "theorems": [
    "Verif.Simp.uniform_check_passes",
    "Verif.Simp.uniform_check_blocks",
    "Verif.Simp.uniform_cond_raises",
    "Verif.Simp.uniform_cond_runs_branch"
   ],
   "note": ""
  },
  {
   "property": "C22",
   "status": "proved",
   "theorems": [
    "Verif.Simp.loop_iterates",
    "Verif.Simp.while_loop_correct",
    "Verif.Simp.loop_without_condition_value"
   ],
   "note": ""
  },
  {
   "property": "C23",
   "status": "proved",
   "theorems": [
    "Verif.Comm.p2p_matches",
    "Verif.Comm.p2p_no_overflow",
    "Verif.Comm.p2p_fresh_keys",
    "Verif.Comm.net_confluent",
    "Verif.Comm.net_maximal_unique"
   ],
   "note": ""
  },
  {
   "property": "C24",
   "status": "partial",
   "theorems": [
    "Verif.Comm.key_injective",
    "Verif.Comm.scopes_distinct",
    "Verif.Comm.scope_names_agree_partial",
    "Verif.Comm.scope_order_violated"
   ],
   "note": "distinct scopes always have distinct names; names agree across parties only if ops start in the same order (violated otherwise)"
  },
  {
   "property": "C25",
   "status": "proved",
   "theorems": [
    "Verif.Comm.broadcast_correct",
    "Verif.Comm.allgather_correct",
    "Verif.Comm.allreduce_and_correct",
    "Verif.Comm.allreduce_or_correct",
    "Verif.Comm.allreduce_xor_correct",
    "Verif.Comm.barrier_terminates",
    "Verif.Comm.barrier_waits",
    "Verif.Comm.normalize_rejects",
    "Verif.Comm.normalize_sorted"
   ],
   "note": ""
  },
  {
   "property": "C26",
   "status": "partial",
   "theorems": [
    "Verif.Comm.Req.request_final",
    "Verif.Comm.Req.status_exact",
    "Verif.Comm.Req.test_exact",
    "Verif.Comm.Req.wait_outcome_partial",
    "Verif.Comm.Req.wait_timeout_violated",
    "Verif.Comm.Req.wait_all_outcomes",
    "Verif.Comm.Req.wait_any_outcome",
    "Verif.Comm.Req.test_all_outcomes",
    "Verif.Comm.Req.test_any_outcome",
    "Verif.Comm.Req.cancelled_looks_completed_violated"
   ],
   "note": "violated for operations failing with TimeoutError: wait reports a timeout and leaves the handle pending"
  },
  {
   "property": "C27",
   "status": "proved",
   "theorems": [
    "Verif.Comm.Mailbox.mailbox_exactly_once",
    "Verif.Comm.Mailbox.mailbox_refuses_second",
    "Verif.Comm.Mailbox.mailbox_accepts",
    "Verif.Comm.Mailbox.mailbox_shutdown"
   ],
   "note": ""
  },
  {
   "property": "C28",
   "status": "partial",
   "theorems": [
    "Verif.Store.history",
    "Verif.Store.get_iff",
    "Verif.Store.get_put",
    "Verif.Store.get_delete",
    "Verif.Store.load_save",
    "Verif.Store.listKeys_spec",
    "Verif.Store.exists_mem",
    "Verif.Store.put_mem_ok",
    "Verif.Store.failed_put_keeps_old_value_violated",
    "Verif.Store.distinct_uris_independent_violated",
    "Verif.Store.exists_iff_stored_violated",
    "Verif.Store.fs_put_succeeds_iff"
   ],
   "note": "proved per object (memory key, file path) for all histories; violated: a put that fails while pickling destroys the old value, different URIs can name one file, exists is true for directories"
  },
  {
   "property": "C29",
   "status": "proved",
   "theorems": [
    "Verif.Store.splitsAt_iff",
    "Verif.Store.routing",
    "Verif.Store.put_routing",
    "Verif.Store.put_none"
   ],
   "note": ""
  },
  {
   "property": "C30",
   "status": "partial",
   "theorems": [
    "Verif.Store.inside_root_partial",
    "Verif.Store.resolved_partial",
    "Verif.Store.no_such_sibling",
    "Verif.Store.inside_root_violated"
   ],
   "note": "violated: keys like ../node10/x reach sibling directories whose name extends the root's; this is proved to be the only escape of keys (symbolic links not modelled; download and upload: C87)"
  },
  {
   "property": "C31",
   "status": "partial",
   "theorems": [
    "Verif.Worker.one_active",
    "Verif.Worker.submission",
    "Verif.Worker.monotone",
    "Verif.Worker.stages",
    "Verif.Worker.status_truthful",
    "Verif.Worker.task_ends",
    "Verif.Worker.sub_is_last",
    "Verif.Worker.poll_result_partial",
    "Verif.Worker.success_without_result_violated",
    "Verif.Worker.stale_result_violated"
   ],
   "note": "violated: success is visible before the result; reusing an id early mixes results"
  },
  {
   "property": "C32",
   "status": "proved",
   "theorems": [
    "Verif.Driver.dispatch_correct",
    "Verif.Driver.driver_correct"
   ],
   "note": "straight-line programs through the driver with arbitrary joint worker behaviour"
  },
  {
   "property": "C33",
   "status": "partial",
   "theorems": [
    "Verif.Device.accepts_iff",
    "Verif.Device.fromDict_sound",
    "Verif.Device.endpoints_by_rank",
    "Verif.Device.node_by_rank",
    "Verif.Device.simple_sound",
    "Verif.Device.ranks_checked_violated"
   ],
   "note": "Loaded specifications (from_dict) and ClusterSpec.simple are sound; the constructor itself does not check ranks nor that members are the cluster's own nodes (ranks_checked_violated)."
  },
  {
   "property": "C34",
   "status": "partial",
   "theorems": [
    "Verif.Device.dict_roundtrip_partial",
    "Verif.Device.parseRuntime_clean",
    "Verif.Device.dict_roundtrip_violated"
   ],
   "note": "Round trip for specifications listed in rank order with extra fields that avoid the recognised names; the dictionary drops ranks, so other specifications come back different (dict_roundtrip_violated)."
  },
  {
   "property": "C35",
   "status": "proved",
   "theorems": [
    "Verif.Device.infer_iff",
    "Verif.Device.infer_order",
    "Verif.Device.devices_exist"
   ],
   "note": "exact characterisation of the inferred device, order independence"
  },
  {
   "property": "C36",
   "status": "partial",
   "theorems": [
    "Verif.Device.transfer_preserves",
    "Verif.Device.transfer_delivers",
    "Verif.Device.transfer_same",
    "Verif.Device.transfer_rejected",
    "Verif.Device.put_host_ok",
    "Verif.Device.real_contracts",
    "Verif.Device.real_transfer_delivers",
    "Verif.Device.fetch_plain",
    "Verif.Device.fetch_spu_violated",
    "Verif.Spu.Run.host_put_spu"
   ],
   "note": "Transfers preserve plaintexts; the crypto and TEE backends are modelled (real_transfer_delivers), SPU share reconstruction is a library contract; host values put on an SPU are proved under the contract of C125 (host_put_spu); fetch of an SPU object returns the first share (fetch_spu_violated)."
  },
  {
   "property": "C37",
   "status": "partial",
   "theorems": [
    "Verif.Simp.transfer_correct",
    "Verif.Simp.replicate_correct",
    "Verif.Simp.collect_correct",
    "Verif.Simp.allreplicate_correct",
    "Verif.Simp.distribute_correct",
    "Verif.Simp.permute_correct_partial",
    "Verif.Simp.permute_violated"
   ],
   "note": "All helpers in every schedule; permute only for mappings without exchanges: its documented example deadlocks (permute_violated)."
  },
  {
   "property": "C38",
   "status": "partial",
   "theorems": [
    "Verif.Tool.artifact_roundtrip_partial",
    "Verif.Tool.artifact_roundtrip_violated",
    "Verif.Tool.unpack_checks",
    "Verif.Tool.digest_binds_graph",
    "Verif.Tool.compiled_valid",
    "Verif.Tool.empty_digest_not_checked",
    "Verif.Tool.compiled_header",
    "Verif.Tool.unpack_size"
   ],
   "note": "Round trip up to the order of dict items; pack sorts keys, which reorders the columns of table types and is invisible to the digest (artifact_roundtrip_violated). json/tar/gzip enter through a lossless contract, sha256 as an arbitrary function."
  },
  {
   "property": "C39",
   "status": "partial",
   "theorems": [
    "Verif.Tool.world_size_covers_partial",
    "Verif.Tool.world_size_violated",
    "Verif.Tool.parties_attribute"
   ],
   "note": "Covers every rank in a 'parties' attribute at any nesting depth; ranks in shuffle routing tables are ignored by the code (world_size_violated)."
  },
  {
   "property": "C40",
   "status": "partial",
   "theorems": [
    "Verif.Kern.gf128_mul_spec",
    "Verif.Kern.gf128_ring_laws",
    "Verif.Kern.gf128_no_zero_divisors",
    "Verif.Kern.gf128_inverse",
    "Verif.Kern.gf128_batch_rows",
    "Verif.Kern.gcmP_irreducible",
    "Verif.Kern.gf128_native_partial",
    "Verif.Kern.gf128_native_distrib_partial",
    "Verif.Kern.gf128_native_violated",
    "Verif.Kern.gf128_native_not_assoc"
   ],
   "note": "Fully proved for the Python kernel (reduction modulo an irreducible polynomial, field laws). Violated by the native kernel, whose reduction drops the top 64 bits of the product."
  },
  {
   "property": "C41",
   "status": "partial",
   "theorems": [
    "Verif.Kern.okvs_decodes_every_key",
    "Verif.Kern.okvs_solves_iff_peelable",
    "Verif.Kern.okvs_rejects_duplicate_keys",
    "Verif.Kern.okvs_decode_linear",
    "Verif.Kern.okvs_native_partial",
    "Verif.Kern.okvs_native_violated",
    "Verif.Kern.okvs_empty_table"
   ],
   "note": "Fully proved for the Python kernel and for every hash; the native kernel reports success with an all-zero table when peeling fails. The mega-binning kernel okvs_opt.cpp is C79."
  },
  {
   "property": "C42",
   "status": "proved",
   "theorems": [
    "Verif.Kern.indices_distinct",
    "Verif.Kern.indices_no_collision",
    "Verif.Kern.indices_two_cells"
   ],
   "note": "any two hash words, so Python and native kernels alike; three cells are necessary"
  },
  {
   "property": "C43",
   "status": "proved",
   "theorems": [
    "Verif.Kern.ldpc_encode_rows",
    "Verif.Kern.ldpc_encode_linear"
   ],
   "note": ""
  },
  {
   "property": "C44",
   "status": "proved",
   "theorems": [
    "Verif.Mpc.base_ot_correct",
    "Verif.Mpc.base_ot_total"
   ],
   "note": "for every curve backend satisfying the group contract CurveOk"
  },
  {
   "property": "C45",
   "status": "proved",
   "theorems": [
    "Verif.Mpc.iknp_correlation",
    "Verif.Mpc.iknp_total",
    "Verif.Mpc.transfer_ext_correct",
    "Verif.Mpc.transfer_ext_total",
    "Verif.Mpc.seed_block_iff",
    "Verif.Mpc.prg_uses_half",
    "Verif.Mpc.prg_blocks",
    "Verif.Mpc.rowBytes_get"
   ],
   "note": ""
  },
  {
   "property": "C46",
   "status": "partial",
   "theorems": [
    "Verif.Mpc.vole_correlation",
    "Verif.Mpc.vole_total",
    "Verif.Mpc.silent_vole_correlation",
    "Verif.Mpc.silent_total",
    "Verif.Mpc.silver_vole_noisy_partial",
    "Verif.Mpc.silver_vole_violated",
    "Verif.Mpc.silver_ldpc_violated",
    "Verif.Mpc.silver_ldpc_prefixes"
   ],
   "note": "Gilboa and silent VOLE proved for every input; violated by both Silver variants (noise term not cancelled, independent u and delta)."
  },
  {
   "property": "C47",
   "status": "partial",
   "theorems": [
    "Verif.Mpc.silent_no_repeat_partial",
    "Verif.Mpc.silent_value_of_source",
    "Verif.Mpc.silent_no_repeat_violated"
   ],
   "note": "violated: mask repetition across chunks of the expanded vector"
  },
  {
   "property": "C48",
   "status": "partial",
   "theorems": [
    "Verif.Mpc.sparse_noise_support_partial",
    "Verif.Mpc.sparse_noise_weight_partial",
    "Verif.Mpc.sparse_noise_violated"
   ],
   "note": "Positions inside the vector and zero elsewhere proved for all draws; violated for three or more positions: the shift past used positions can land on a used one, and the later value overwrites the earlier."
  },
  {
   "property": "C49",
   "status": "partial",
   "theorems": [
    "Verif.Mpc.oprf_agree",
    "Verif.Mpc.oprf_equal_iff_masked",
    "Verif.Mpc.itemBit_inj",
    "Verif.Mpc.oprf_total",
    "Verif.Mpc.oprf_surplus_constant",
    "Verif.Mpc.oprf_single_violated",
    "Verif.Mpc.hash_inputs_separated",
    "Verif.Mpc.transfer_input"
   ],
   "note": "Batch evaluation proved for all inputs; the single-item entry point sender_eval_prf always raises (oprf_single_violated); sender items beyond the number of rows all get one constant output."
  },
  {
   "property": "C50",
   "status": "partial",
   "theorems": [
    "Verif.Mpc.rr22_result",
    "Verif.Mpc.rr22_complete",
    "Verif.Mpc.psi_intersect_complete",
    "Verif.Mpc.unbalanced_complete",
    "Verif.Mpc.rr22_native_partial",
    "Verif.Mpc.unbalanced_native_partial",
    "Verif.Mpc.rr22_native_violated",
    "Verif.Mpc.unbalanced_native_violated",
    "Verif.Mpc.rr22_wrong_mark"
   ],
   "note": "Proved for the Python kernels for every input, hash and table size; with the native kernels a failed encoding is not reported and common elements are missed (\u2026_violated), proved for peelable inputs."
  },
  {
   "property": "C51",
   "status": "proved",
   "theorems": [
    "Verif.Mpc.cuckoo_valid",
    "Verif.Mpc.cuckoo_keeps",
    "Verif.Mpc.cuckoo_shared_prefix"
   ],
   "note": "for every outcome of the concurrent scatter writes"
  },
  {
   "property": "C52",
   "status": "proved",
   "theorems": [
    "Verif.Mpc.apply_permutation_correct",
    "Verif.Mpc.apply_permutation_total"
   ],
   "note": "one-dimensional data (the element-wise transfer rejects other shapes)"
  },
  {
   "property": "C53",
   "status": "partial",
   "theorems": [
    "Verif.Mpc.safe_rotate_correct",
    "Verif.Mpc.rotate_and_sum_partial",
    "Verif.Mpc.strided_sum_partial",
    "Verif.Mpc.bucket_aggregate_partial",
    "Verif.Mpc.rotate_and_sum_violated",
    "Verif.Mpc.bucket_aggregate_violated",
    "Verif.Mpc.bucket_straddle_violated",
    "Verif.Mpc.bucket_sums_extracted"
   ],
   "note": "for k not a power of two the doubling also adds the slots up to the next power of two; proved when those are zero"
  },
  {
   "property": "C54",
   "status": "proved",
   "theorems": [
    "Verif.Mpc.groupby_shuffle_correct",
    "Verif.Mpc.groupby_shuffle_total",
    "Verif.Mpc.groupby_share_masked"
   ],
   "note": ""
  },
  {
   "property": "C55",
   "status": "partial",
   "theorems": [
    "Verif.Tensor.transpose_shape_sound",
    "Verif.Tensor.transpose_rule_accepts_iff",
    "Verif.Tensor.gather_shape_sound",
    "Verif.Tensor.reshape_static_sound",
    "Verif.Tensor.reshape_dynamic_partial",
    "Verif.Tensor.reshape_dynamic_violated",
    "Verif.Tensor.slice_shape_partial",
    "Verif.Tensor.slice_static_sound",
    "Verif.Tensor.slice_zero_stride_violated",
    "Verif.Tensor.concat_shape_partial",
    "Verif.Tensor.concat_static_sound",
    "Verif.Tensor.concat_dynamic_violated",
    "Verif.Tensor.elementwise_rule_accepts_iff",
    "Verif.Tensor.elementwise_partial",
    "Verif.Tensor.elementwise_truncates_violated",
    "Verif.Tensor.scatter_rule_accepts_iff"
   ],
   "note": "Static shapes fully proved; with dynamic (-1) dimensions the rules for reshape, slice, concat and elementwise accept programs whose run-time values have another shape or raise (violated witnesses)."
  },
  {
   "property": "C56",
   "status": "proved",
   "theorems": [
    "Verif.Tensor.reshape_accepts_iff",
    "Verif.Tensor.reshape_dynamic_accepts_iff"
   ],
   "note": ""
  },
  {
   "property": "C57",
   "status": "partial",
   "theorems": [
    "Verif.Table.table_reader_native",
    "Verif.Table.table_reader_partial",
    "Verif.Table.table_reader_loses_rows_violated",
    "Verif.Table.read_all_fresh",
    "Verif.Table.read_all_after_batch_violated"
   ],
   "note": "violated: the reader returns only the first chunk of an accumulated batch"
  },
  {
   "property": "C58",
   "status": "partial",
   "theorems": [
    "Verif.Table.multi_table_partial",
    "Verif.Table.multi_drops_rows_violated"
   ],
   "note": "violated: rows after the first exhausted table are dropped"
  },
  {
   "property": "C59",
   "status": "proved",
   "theorems": [
    "Verif.Crypto.quote_bytes_roundtrip",
    "Verif.Crypto.quote_bytes_ok_iff",
    "Verif.Crypto.quote_json_roundtrip",
    "Verif.Crypto.attest_returns_bound_key",
    "Verif.Crypto.quote_long_key_truncated",
    "Verif.Crypto.quote_truncated_accepted",
    "Verif.Crypto.quote_bytes_injective"
   ],
   "note": ""
  },
  {
   "property": "C60",
   "status": "proved",
   "theorems": [
    "Verif.Crypto.kem_agree",
    "Verif.Crypto.tee_session_agree",
    "Verif.Crypto.tee_session_transport",
    "Verif.Crypto.tee_session_mem",
    "Verif.Crypto.tee_session_http",
    "Verif.Crypto.hkdf_ok_iff",
    "Verif.Crypto.kem_fallback_violated"
   ],
   "note": "X25519/HKDF/AES-GCM contracts in CryptoLib.Ok; kem_fallback_violated concerns the unknown-suite fallback, unreachable through kem_keygen"
  },
  {
   "property": "C61",
   "status": "partial",
   "theorems": [
    "Verif.Phe.expr_decrypts",
    "Verif.Phe.expr_exact",
    "Verif.Phe.expr_decodes",
    "Verif.Phe.int_roundtrip_partial",
    "Verif.Phe.float_roundtrip_partial",
    "Verif.Phe.negative_violated",
    "Verif.Phe.negative_decode_violated",
    "Verif.Phe.large_int_violated",
    "Verif.Phe.product_scale_violated",
    "Verif.Phe.tensor_encode_violated",
    "Verif.Phe.encoder_ignores_range",
    "Verif.Phe.int_roundtrip_error"
   ],
   "note": "Exact for every expression whose value stays within [0,n) and the float range; violated for negative values, integers above 2^53, products (scale counted once) and tensors. LightPHE contract PheLib.Ok."
  },
  {
   "property": "C62",
   "status": "partial",
   "theorems": [
    "Verif.Tensor.dtype_roundtrip",
    "Verif.Tensor.dtype_roundtrip_back",
    "Verif.Tensor.to_jax_iff",
    "Verif.Tensor.from_dtype_supported",
    "Verif.Tensor.dtype_injective",
    "Verif.Tensor.dtype_roundtrip_violated",
    "Verif.Tensor.column_types_agree_partial",
    "Verif.Tensor.column_types_violated",
    "Verif.Tensor.from_dtype_unsigned"
   ],
   "note": "Mutually inverse on the documented table; u1, i2, i4, u2, u4 convert to a dtype that does not come back; pandas and Arrow readers accept different columns."
  },
  {
   "property": "C63",
   "status": "proved",
   "theorems": [
    "Verif.Mpc.base_ot_choice_hidden"
   ],
   "note": ""
  },
  {
   "property": "C64",
   "status": "proved",
   "theorems": [
    "Verif.Mpc.silver_rows_good",
    "Verif.Mpc.csr_rows",
    "Verif.Mpc.silver_matrix_ok"
   ],
   "note": ""
  },
  {
   "property": "C65",
   "status": "proved",
   "theorems": [
    "Verif.Mpc.aggregate_sparse_correct",
    "Verif.Mpc.masked_aggregate_correct"
   ],
   "note": "slots within the first row; a source listed twice counts once"
  },
  {
   "property": "C66",
   "status": "partial",
   "theorems": [
    "Verif.Mpc.groupby_bfv_mod",
    "Verif.Mpc.groupby_bfv_partial",
    "Verif.Mpc.groupby_bfv_wrap_violated",
    "Verif.Mpc.groupby_bfv_empty_bin_violated"
   ],
   "note": "at least one bin (with none the code raises); sums wrap modulo the plain modulus, and across processes a bin absent from a chunk raises; proved otherwise"
  },
  {
   "property": "C67",
   "status": "partial",
   "theorems": [
    "Verif.Mpc.groupby_bfv_privacy_violated"
   ],
   "note": "violated: the relinearisation and Galois keys sent to the receiver are the secret context"
  },
  {
   "property": "C68",
   "status": "partial",
   "theorems": [
    "Verif.Table.failed_write_partial",
    "Verif.Table.failed_json_write_violated",
    "Verif.Table.failed_json_first_partial"
   ],
   "note": "violated for JSON"
  },
  {
   "property": "C69",
   "status": "proved",
   "theorems": [
    "Verif.Serde.type_from_any_json_sound",
    "Verif.Serde.type_json_roundtrip_sound",
    "Verif.Serde.type_from_any_bytes_sound"
   ],
   "note": "bfv annotations as enforced by from_json"
  },
  {
   "property": "C70",
   "status": "proved",
   "theorems": [
    "Verif.Crypto.sym_roundtrip",
    "Verif.Crypto.sym_encrypt_total",
    "Verif.Crypto.sym_decrypt_genuine",
    "Verif.Crypto.sym_algo_rejected"
   ],
   "note": "AES-GCM contract in CryptoLib.Ok"
  },
  {
   "property": "C71",
   "status": "partial",
   "theorems": [
    "Verif.Crypto.keygen_suite_violated",
    "Verif.Crypto.keygen_suite_partial",
    "Verif.Crypto.derive_suite",
    "Verif.Crypto.hkdf_suite"
   ],
   "note": "kem_keygen ignores the suite attribute at run time: violated for every suite but x25519"
  },
  {
   "property": "C72",
   "status": "proved",
   "theorems": [
    "Verif.Comm.Http.http_delivers",
    "Verif.Comm.Http.encode_fails_iff",
    "Verif.Comm.Http.mem_delivers",
    "Verif.Comm.Http.transports_agree",
    "Verif.Comm.Http.bad_headers_rejected",
    "Verif.Comm.Http.truncated_rejected",
    "Verif.Comm.Http.key_survives_url",
    "Verif.Comm.Http.truncated_raw_violated"
   ],
   "note": "raw-bytes bodies carry no length, so a truncated raw body is not detected (witness); HTTP itself and httpx URL quoting are trusted"
  },
  {
   "property": "C73",
   "status": "proved",
   "theorems": [
    "Verif.Sgb.predict_is_walk",
    "Verif.Sgb.single_party_mask"
   ],
   "note": "one row at a time; comparison arbitrary, NaN included"
  },
  {
   "property": "C74",
   "status": "partial",
   "theorems": [
    "Verif.Sgb.training_matches_prediction_partial",
    "Verif.Sgb.built_tree_well_formed",
    "Verif.Sgb.single_party_training_matches_prediction",
    "Verif.Sgb.clamped_threshold_violated",
    "Verif.Sgb.rounded_threshold_violated"
   ],
   "note": "violated when the search answers the bin behind the last boundary or float32 rounds a boundary; proved in full for a single party with exactly stored boundaries"
  },
  {
   "property": "C75",
   "status": "partial",
   "theorems": [
    "Verif.Sgb.enc_hist_value",
    "Verif.Sgb.enc_hist_aligned_partial",
    "Verif.Sgb.enc_hist_first_bucket",
    "Verif.Sgb.enc_hist_small_data_violated",
    "Verif.Sgb.enc_hist_violated",
    "Verif.Bfv.hist_empty_node_violated",
    "Verif.Sgb.Boost.encrypted_sum_exact_partial",
    "Verif.Sgb.Boost.default_modulus_overflow_violated",
    "Verif.Sgb.enc_hist_window",
    "Verif.Sgb.enc_hist_balanced_partial",
    "Verif.Sgb.skewed_bucket_violated",
    "Verif.Sgb.Pipeline.histogram_reads",
    "Verif.Sgb.Pipeline.histogram_correct_partial",
    "Verif.Sgb.Pipeline.histogram_flat_violated",
    "Verif.Sgb.Pipeline.default_histogram_flat_violated"
   ],
   "note": "violated: the mask assumes samples are moved to their bucket's region but the ciphertext keeps them in order; from the gradients to the cumulative histogram over any number of chunks (histogram_correct_partial); the division by the scale is exact in the model, float32 in the code"
  },
  {
   "property": "C76",
   "status": "partial",
   "theorems": [
    "Verif.Sgb.local_hist_correct",
    "Verif.Sgb.local_split_optimal",
    "Verif.Sgb.local_split_in_range",
    "Verif.Sgb.pp_left_sum",
    "Verif.Sgb.pp_split_violated"
   ],
   "note": "proved for the active party (exact arithmetic); violated for passive parties, whose histograms are accumulated twice"
  },
  {
   "property": "C77",
   "status": "proved",
   "theorems": [
    "Verif.Sgb.subtraction_correct",
    "Verif.Sgb.levels_routed",
    "Verif.Sgb.subtraction_below_leaf"
   ],
   "note": "exact arithmetic; decrypted left histograms taken as given (C75)"
  },
  {
   "property": "C78",
   "status": "partial",
   "theorems": [
    "Verif.Sgb.leaf_value_optimal_partial"
   ],
   "note": "under the conditions of C74 (boundaries in range and stored exactly); exact arithmetic"
  },
  {
   "property": "C79",
   "status": "partial",
   "theorems": [
    "Verif.Kern.okvs_opt_decodes_partial",
    "Verif.Kern.solveOpt_views",
    "Verif.Kern.okvs_opt_decode_linear",
    "Verif.Kern.optRow_distinct",
    "Verif.Kern.okvs_opt_fallback_violated",
    "Verif.Kern.okvs_opt_subset_violated"
   ],
   "note": "Proved for every environment and schedule when the rows can be peeled and the query list selects the kernel that encoded; violated: an unpeelable bin is reported as success, and fewer than 200000 queries read the other kernel's cells."
  },
  {
   "property": "C80",
   "status": "partial",
   "theorems": [
    "Verif.Kern.expand_native_blocks",
    "Verif.Kern.expand_native_stable",
    "Verif.Kern.expand_native_distinct",
    "Verif.Kern.expand_fallback_blocks",
    "Verif.Kern.expand_related_seeds_violated",
    "Verif.Kern.expand_same_workers",
    "Verif.Kern.expand_mixed_violated",
    "Verif.Kern.expand_fallback_range_violated"
   ],
   "note": "Blocks depend only on the seed and are distinct; violated: seeds that differ in the low bits share their blocks (fixed-key AES of seed xor counter)."
  },
  {
   "property": "C81",
   "status": "partial",
   "theorems": [
    "Verif.Spu.runtime_settings",
    "Verif.Spu.brpc_link",
    "Verif.Spu.runtime_reused",
    "Verif.Spu.runtimes_isolated",
    "Verif.Spu.exec_call_places",
    "Verif.Spu.exec_call_refused",
    "Verif.Spu.channel_peers_partial",
    "Verif.Spu.links_meet_partial",
    "Verif.Spu.spu_bytes_delivered",
    "Verif.Spu.channels_match",
    "Verif.Spu.spu_keys_disjoint",
    "Verif.Spu.spu_key_survives_url",
    "Verif.Spu.execute_result",
    "Verif.Spu.execute_history",
    "Verif.Spu.wrong_peers_violated",
    "Verif.Spu.link_order_violated",
    "Verif.Spu.tags_shared_violated",
    "Verif.Spu.spu_job_name_violated",
    "Verif.Simp.PartyScope.parties_lexical",
    "Verif.Simp.PartyScope.parties_contain_self",
    "Verif.Simp.PartyScope.parties_meet",
    "Verif.Simp.PartyScope.participants"
   ],
   "note": "Settings, brpc peers, reuse, isolation, byte transport, key separation and history independence proved for all histories; peers over the communicator only when all SPU calls of the worker name the same parties, and links meet only when all parties start the jobs in the same order: both violated otherwise. libspu's spawn numbering and kernel contract are assumptions."
  },
  {
   "property": "C82",
   "status": "partial",
   "theorems": [
    "Verif.Spu.config_roundtrip_iff",
    "Verif.Spu.roundtrip_effective",
    "Verif.Spu.merge_options",
    "Verif.Spu.from_dict_precedence",
    "Verif.Spu.flag_accepted",
    "Verif.Spu.empty_protocol_violated",
    "Verif.Spu.empty_link_desc_violated",
    "Verif.Spu.from_dict_flags",
    "Verif.Spu.link_settings",
    "Verif.Spu.env_ok_iff",
    "Verif.Spu.bad_env_violated",
    "Verif.Spu.options_brpc_only"
   ],
   "note": "Exact characterisation of the configurations that come back equal; violated for an empty protocol name (changes meaning) and an option-free link description (comes back as None, same meaning). Every option of a brpc link is traced to link_desc, the environment, mplang or libspu; violated by a malformed number in the environment, which makes every request of the worker fail."
  },
  {
   "property": "C83",
   "status": "partial",
   "theorems": [
    "Verif.Arrow.sparse_item_agrees_partial",
    "Verif.Arrow.sparse_duplicate_violated",
    "Verif.Arrow.one_hot_item_agrees",
    "Verif.Arrow.one_hot_single",
    "Verif.Arrow.one_hot_numpy_pylist",
    "Verif.Arrow.dense_rows_partial",
    "Verif.Arrow.dense_null_violated",
    "Verif.Arrow.table_matrix_partial",
    "Verif.Arrow.table_null_refused",
    "Verif.Arrow.table_null_misaligned_violated"
   ],
   "note": "violated for repeated sparse indices (item takes the first, to_numpy the last) and null dense rows (dropped, so a feature matrix is misaligned); proved otherwise"
  },
  {
   "property": "C84",
   "status": "partial",
   "theorems": [
    "Verif.Arrow.built_sound",
    "Verif.Arrow.vtype_eq_hash",
    "Verif.Arrow.type_names_roundtrip",
    "Verif.Arrow.meta_roundtrip_partial",
    "Verif.Arrow.sparse_meta_violated",
    "Verif.Arrow.ipc_forgets_violated",
    "Verif.Arrow.ipc_keeps_if_registered_partial",
    "Verif.Arrow.ipc_changes_matrix_violated",
    "Verif.Arrow.one_hot_type",
    "Verif.Arrow.one_hot_unchecked_violated",
    "Verif.Arrow.one_hot_values",
    "Verif.Arrow.one_hot_matrix_partial",
    "Verif.Arrow.one_hot_range_violated",
    "Verif.Arrow.registered_forgets",
    "Verif.Arrow.registered_four",
    "Verif.Arrow.registered_four_violated",
    "Verif.Arrow.integer_ranges"
   ],
   "note": "violated: sparse metadata never reads back, no vector type is ever registered so IPC forgets all of them, one_hot does not check the range; proved for construction, equality, and metadata of dense and one-hot types"
  },
  {
   "property": "C85",
   "status": "partial",
   "theorems": [
    "Verif.Arrow.table2tensor_rule",
    "Verif.Arrow.tensor2table_rule",
    "Verif.Arrow.table2tensor_typed_partial",
    "Verif.Arrow.table2tensor_rows_checked",
    "Verif.Arrow.table2tensor_width_violated",
    "Verif.Arrow.tensor_table_tensor",
    "Verif.Arrow.table_tensor_table",
    "Verif.Arrow.tensor2table_width_checked",
    "Verif.Arrow.table2tensor_rows"
   ],
   "note": "violated: the number of columns is not checked at run time, so a table wider than its type yields another shape; round trips proved both ways"
  },
  {
   "property": "C86",
   "status": "partial",
   "theorems": [
    "Verif.Table.Sql.held_tables_stable",
    "Verif.Table.Sql.sql_result_partial",
    "Verif.Table.Sql.fresh_query_answered",
    "Verif.Table.Sql.hidden_table_violated",
    "Verif.Table.Sql.name_clash_violated",
    "Verif.Table.Sql.read_between_violated"
   ],
   "note": "SQL semantics a parameter assumed monotone in the visible tables; violated when queries share a connection"
  },
  {
   "property": "C87",
   "status": "partial",
   "theorems": [
    "Verif.Store.Transfer.download_delivers",
    "Verif.Store.Transfer.upload_refuses",
    "Verif.Store.Transfer.upload_delivers_partial",
    "Verif.Store.Transfer.write_read_partial",
    "Verif.Store.Transfer.cross_party_read_violated",
    "Verif.Store.Transfer.write_after_read_violated",
    "Verif.Store.Transfer.cross_party_write_violated",
    "Verif.Store.Transfer.upload_self_link_violated",
    "Verif.Store.Transfer.local_copy_escapes_violated",
    "Verif.Store.Transfer.download_missing_refused"
   ],
   "note": "violated: .tmp paths are shared by all parties of one working directory, and writes after reads go through links into the store; proved for a single party with fresh paths"
  },
  {
   "property": "C88",
   "status": "partial",
   "theorems": [
    "Verif.Trace.call_applies_partial",
    "Verif.Trace.call_arity_checked",
    "Verif.Trace.func_capture_violated",
    "Verif.Trace.func_handle_input_violated"
   ],
   "note": "proved for functions that capture nothing; violated: captured values are dropped and handles that come from outside the current trace cannot be called"
  },
  {
   "property": "C89",
   "status": "partial",
   "theorems": [
    "Verif.Table.Files.write_read_back_partial",
    "Verif.Table.Files.write_succeeds_iff",
    "Verif.Table.Files.write_frame",
    "Verif.Table.Files.write_back_destroys_violated",
    "Verif.Table.Files.write_back_json",
    "Verif.Table.Files.value_stable_partial",
    "Verif.Table.Files.lazy_value_changes_violated",
    "Verif.Table.Files.same_hint_roundtrip",
    "Verif.Table.Files.default_formats_violated",
    "Verif.Table.Files.quoted_name_read",
    "Verif.Table.Files.quote_injective",
    "Verif.Table.Files.sql_and_open_agree_partial",
    "Verif.Table.Files.sql_f16_violated",
    "Verif.Table.Files.duckdb_names_distinct",
    "Verif.Table.Files.write_rule_iff",
    "Verif.Table.Parquet.parquet_open",
    "Verif.Table.Parquet.parquet_read"
   ],
   "note": "violated: writing a lazily read table to its own path destroys it, later writes change lazily read values, default formats of read and write differ, f16 columns open but not in SQL; proved otherwise"
  },
  {
   "property": "C90",
   "status": "partial",
   "theorems": [
    "Verif.Jax.run_jax_history",
    "Verif.Jax.run_jax_result_partial",
    "Verif.Jax.run_jax_converts",
    "Verif.Jax.static_shape_checked",
    "Verif.Jax.dynamic_result_iff",
    "Verif.Jax.type_string_iff",
    "Verif.Jax.run_jax_output_types_partial",
    "Verif.Jax.compilation_ids_distinct",
    "Verif.Jax.unknown_sizes_violated",
    "Verif.Jax.unknown_matrix_violated",
    "Verif.Jax.unknown_empty_violated",
    "Verif.Jax.dynamic_dtype_violated",
    "Verif.Jax.dynamic_x64_violated",
    "Verif.Jax.dynamic_complex_violated",
    "Verif.Jax.bfloat16_output_violated",
    "Verif.Jax.retrace_violated",
    "Verif.Jax.dimension_names",
    "Verif.Jax.dynamic_iff"
   ],
   "note": "proved for static shapes; violated: all unknown dimensions share one name, so different lengths, non-square matrices and empty tensors are refused; with unknown dimensions nothing is converted; bfloat16 outputs are typed f16; retracing yields a different operation"
  },
  {
   "property": "C91",
   "status": "partial",
   "theorems": [
    "Verif.Jax.constant_value_partial",
    "Verif.Jax.constant_accepted_iff",
    "Verif.Jax.constant_shared_iff",
    "Verif.Jax.constant_byte_order_violated",
    "Verif.Jax.constant_bfloat16_violated",
    "Verif.Jax.constant_reset_violated"
   ],
   "note": "violated for big-endian arrays, bfloat16 and reset tracers; proved otherwise"
  },
  {
   "property": "C92",
   "status": "partial",
   "theorems": [
    "Verif.Bfv.bfv_program_sound",
    "Verif.Bfv.bfv_decoded",
    "Verif.Bfv.encrypt_decrypt",
    "Verif.Bfv.decoded_type_partial",
    "Verif.Bfv.decoded_type_violated",
    "Verif.Bfv.too_long_violated",
    "Verif.Bfv.decode_encode_violated",
    "Verif.Bfv.encrypt_decrypted_violated",
    "Verif.Bfv.sub_self_violated",
    "Verif.Bfv.zero_product_violated",
    "Verif.Bfv.zero_after_wire_violated",
    "Verif.Bfv.mixed_keys_violated",
    "Verif.Bfv.derived_keys_iff",
    "Verif.Bfv.crypt_keys_iff",
    "Verif.Bfv.evaluation_keys_iff",
    "Verif.Bfv.arith_types_iff",
    "Verif.Bfv.no_private_no_decrypt",
    "Verif.Bfv.handler_needs_keys",
    "Verif.Bfv.coding_types_iff"
   ],
   "note": "whatever a program returns is proved right; that accepted programs run to the end is violated: zero products, self-subtraction, two plaintext representations sharing a type, zero masks after a move, wrong declared shapes, mixed keys"
  },
  {
   "property": "C93",
   "status": "partial",
   "theorems": [
    "Verif.Bfv.keygen_shared_violated",
    "Verif.Bfv.keygen_distinct_partial",
    "Verif.Bfv.keygen_after_clear",
    "Verif.Bfv.clear_separates"
   ],
   "note": "violated: a process-wide cache hands the same pair to every caller with the same parameters; proved: distinct for different parameters or processes"
  },
  {
   "property": "C94",
   "status": "partial",
   "theorems": [
    "Verif.Phe.Typed.add_type_iff",
    "Verif.Phe.Typed.mul_type_iff",
    "Verif.Phe.Typed.arith_type_comm",
    "Verif.Phe.Typed.phe_program_sound",
    "Verif.Phe.Typed.phe_types_sound_partial",
    "Verif.Phe.Typed.phe_secrecy",
    "Verif.Phe.Typed.decrypt_needs_private",
    "Verif.Phe.Typed.encode_ct_accepted_violated",
    "Verif.Phe.Typed.encode_ct_violated",
    "Verif.Phe.Typed.decrypt_scheme_violated",
    "Verif.Phe.Typed.decoded_type_violated",
    "Verif.Phe.Typed.public_key_decrypts_violated",
    "Verif.Phe.Typed.mixed_keys_violated",
    "Verif.Phe.Typed.scheme_names_violated",
    "Verif.Phe.Typed.keygen_accepts_iff"
   ],
   "note": "types of arithmetic, meaning of programs under one key and secrecy without a private key proved in full; violated: encoding a ciphertext is accepted, decoded values are always declared f64, keys and ciphertexts of different pairs mix, the public key object is the private key, two documented scheme names are unknown to the library; tensors in the type rules only (C61: they fail at run time)"
  },
  {
   "property": "C95",
   "status": "partial",
   "theorems": [
    "Verif.Crypto.Curve.curve_program_sound",
    "Verif.Crypto.Curve.curve_program_runs_iff",
    "Verif.Crypto.Curve.curve_types_sound",
    "Verif.Crypto.Curve.curve_types_iff",
    "Verif.Crypto.Curve.point_bytes_len",
    "Verif.Crypto.Curve.sub_self_violated",
    "Verif.Crypto.Curve.identity_bytes_violated",
    "Verif.Crypto.Curve.curve_mixed_violated",
    "Verif.Crypto.Curve.scalar_as_point_violated"
   ],
   "note": "results, exact failure condition and types proved; violated: a point minus itself (or plus its opposite) raises instead of giving the identity, the identity does not survive being written to bytes, curve names are never checked and every curve has secp256k1's generator, scalars are accepted as points"
  },
  {
   "property": "C96",
   "status": "partial",
   "theorems": [
    "Verif.Crypto.Hash.hash_batch_rows",
    "Verif.Crypto.Hash.hash_batch_single",
    "Verif.Crypto.Hash.hash_batch_type",
    "Verif.Crypto.Hash.hash_batch_local",
    "Verif.Crypto.Hash.hash_batch_empty_violated"
   ],
   "note": "violated for rows of no bytes: the type rule declares a result, the run raises"
  },
  {
   "property": "C97",
   "status": "partial",
   "theorems": [
    "Verif.Crypto.Random.random_bits_values",
    "Verif.Crypto.Random.random_bits_uniform",
    "Verif.Crypto.Random.random_tensor_uniform",
    "Verif.Crypto.Random.random_tensor_size",
    "Verif.Crypto.Random.random_scalar_count_partial",
    "Verif.Crypto.Random.random_scalar_near_uniform",
    "Verif.Crypto.Random.random_scalar_violated",
    "Verif.Crypto.Random.random_bool_violated"
   ],
   "note": "bits and tensors proved uniform by counting; scalars are not exactly uniform (32 bytes modulo the order): the count per scalar is proved, and the distance is bounded (below 2^-127 for secp256k1); random_tensor of bool is far from uniform (a byte is true unless it is 0)"
  },
  {
   "property": "C98",
   "status": "partial",
   "theorems": [
    "Verif.Crypto.Random.bytes_to_bits_spec",
    "Verif.Crypto.Random.bits_round_trip_partial",
    "Verif.Crypto.Random.bits_round_trip_iff",
    "Verif.Crypto.Random.little_round_trip",
    "Verif.Crypto.Random.bits_round_trip_violated"
   ],
   "note": "bytes_to_bits proved; the round trip is violated: it reverses the bits of every byte, and is the identity exactly on bytes that read the same both ways"
  },
  {
   "property": "C99",
   "status": "proved",
   "theorems": [
    "Verif.Kern.Native.native_solve_safe",
    "Verif.Kern.Native.native_store_decodes",
    "Verif.Kern.Native.native_decode_safe",
    "Verif.Kern.Native.native_mul_safe_iff",
    "Verif.Kern.Native.native_expand_safe_iff",
    "Verif.Kern.Native.native_ldpc_agrees",
    "Verif.Kern.Native.native_solve_needs_values",
    "Verif.Kern.Native.native_solve_no_cells"
   ],
   "note": "every array access of the C++ code is checked in the model; C++ int counters are taken as unbounded (3n and m below 2^31), OpenMP loops in index order"
  }
 ]
}