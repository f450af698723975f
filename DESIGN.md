# Formal model of secretflow/mplang in Lean 4 — design

## Trusted base

* The Lean 4.33.0 kernel. The axioms used by the theorems named in MANIFEST.json (checked with `#print axioms` for each of
  them) are at most `propext`, `Classical.choice` and `Quot.sound`; nobody else's axioms, no compiled-code tactics.
* The reading of `/repo` (Python and C++ text) into the definitions under `lean/Verif/*`. Every definition cites file and lines
  and says where it simplifies. The code was never run.
* Contracts of third-party code. They appear as hypotheses of the theorems (structures with a `.Ok` predicate, each with a
  concrete instance proved to satisfy it), or as definitions that state the library behaviour:

| library | where | what is assumed |
|---|---|---|
| gzip, float text of CPython | `Serde.WireLib.Ok` | decompress∘compress = id; `float(repr(x)) = x` for finite x, and the text is a JSON number |
| CPython json | `Serde/JsonText.lean` | modelled completely (escapes, ints up to 4300 digits, whitespace, duplicate keys) |
| CPython base64 | `Serde/Wire.lean` | modelled as the non-strict decoder loop |
| cryptography (X25519, HKDF, AES-GCM) | `Crypto.CryptoLib.Ok` | DH commutes, decrypt∘encrypt = id and only genuine ciphertexts decrypt, fixed lengths |
| coincurve / EC backend | `Mpc.CurveOk` | prime order group laws |
| LightPHE | `Phe.PheLib.Ok` | decryption of sums and scalar products modulo n |
| SEAL/TenSEAL | `Mpc/Aggregate.lean` | slot semantics of add, multiply by plain, rotate within rows |
| SPU runtime | `Device.Contracts` | reveal∘share = id for the shares of one sharing |
| numpy, jax | `Tensor/Arrays.lean`, the kernels | index semantics of reshape/slice/concat/transpose/gather; x64 enabled; both parties use the same kernel build |
| pyarrow, pandas | `Table/Reader.lean`, `Tensor/Dtypes.lean` | batches and slicing, native chunking, column type of a pandas dtype |
| httpx, FastAPI | `Comm/Http.lean` | path quoting is undone by the server, body and headers arrive unchanged |
| OS file system | `Store/Model.lean` | a file map keyed by normalised absolute path, no symbolic links |
| jax tree utilities | `Trace/FuncUtils.lean` | ordered flattening and its inverse |
| sha256, json.dumps as a hash key | `Interp/Fingerprint.lean` | injective |

## What is modelled, what is not

Modelled: `edsl/{typing,serde,graph,tracer,context,program}`, `utils/func_utils`, `runtime/{interpreter,object_store}`,
`backends/simp_worker/*` (communicator, collectives, requests, http worker, ops), `backends/simp_driver/*`, `dialects/simp`
(type rules), `dialects/dtypes`, `libs/collective`, `libs/device/*`, `tool/program`, `kernels/{py_kernels,gf128.cpp,okvs.cpp,
ldpc.cpp}`, `backends/{field_impl,crypto_impl,tee_impl,phe_impl,table_impl readers/writers}`, `libs/mpc/*`, `libs/ml/sgb`, shape rules and
evaluation of the structural operations of `dialects/tensor` / `backends/tensor_impl`, slot arithmetic of `backends/bfv_impl`.
Further areas are listed with the properties below.

Not modelled: the JAX compilation pipeline (`run_jax`, StableHLO, IREE), the SPU runtime, the numerical libraries, `cli.py`, the
printer, logging, profiling, cryptographic security in the computational sense (only exact statements such as perfect hiding,
C63, are proved), wall-clock timeouts (a timeout is a nondeterministic step), memory exhaustion and rank numbers with more than
4300 digits.

## Layout

`lean/Verif/<Area>/Model.lean` (or a file named after the modelled module) — definitions with citations.
`lean/Verif/<Area>/*Lemmas.lean` — helper lemmas.  `*Props.lean` or the end of the file — the property theorems, each beside a
non-vacuity `example`.  Naming: `_partial` marks a theorem for the part of a property that holds, `_violated` a proved
statement that the full property is false of the code (see "Disagreements found").

## Properties: model, proof, theorems

### C01 — Type JSON round trip (proved)

For every type that the type constructors accept (scalars, tensors, vectors, tables with or without row count, custom types, secret-shared and multi-party types, nested arbitrarily), serialising it with to_json and deserialising the result with from_json gives back an equal type.

*Model and proof.* `Ty` has one constructor per type class (core types, named crypto/field/store types, BFV, TEE, PHE), `tyToJson`/`tyFromJson` follow the methods class by class; constructor checks are `Ty.localOk`. Mutual structural induction; `type_ctor_accepts_iff` pins the constructor checks to an independent specification.

*Theorems.* `Verif/Serde/Accept.lean`: `type_ctor_accepts_iff`; `Verif/Serde/Props.lean`: `type_json_roundtrip`, `type_json_raises_iff`, `type_json_total_roundtrip`, `type_json_injective`.

*Note.* HE/PHE-style types without registration are the error branch

### C02 — Python value JSON round trip (proved)

For every value built from None, bool, int, float, str, bytes, list, tuple and dict (string or non-string keys, nested arbitrarily), type objects, numpy arrays, pyarrow tables and the runtime values of the backends (tensors, tables, keys, curve points, quotes, secret shares), from_json(to_json(v)) == v with the container kind preserved (list stays list, tuple stays tuple, bool stays bool, bytes stay bytes, dict keeps order and keys).

*Model and proof.* `PyVal` values, tagged JSON encoding, CPython's `json.dumps/loads` text (escapes, integers, whitespace), UTF-8, gzip and base64 (non-strict decoder loop). Mutual induction on values, then a printer/parser proof at character level.

*Theorems.* `Verif/Serde/Props.lean`: `value_json_roundtrip`, `value_json_total_roundtrip`; `Verif/Serde/Wire.lean`: `dumps_loads`, `dumpsB64_loads`, `dumps_fails_iff`; `Verif/Serde/Accept.lean`: `b64dec_ignores_foreign`; `Verif/Serde/WireProps.lean`: `nan_bits_violated`, `huge_int_violated`; `Verif/Serde/JsonNumber.lean`: `json_number_read`.

*Note.* byte level included (JSON text, UTF-8, base64); assumes gzip and float text contracts (WireLib.Ok). Values holding a NaN with a non-standard payload or an int over 4300 digits are excluded, with witnesses

### C03 — Binary container framing round trip and truncation detection (proved)

Encoding metadata and any list of byte segments into the binary container and decoding it returns exactly the same metadata bytes and segments in order; and every proper prefix of a container is rejected or decodes to a strictly shorter segment list, never to altered segment contents.

*Model and proof.* Bytes as lists of naturals below 256, little endian u32 framing, every error branch of the reader. List induction; every strict prefix of a container is rejected.

*Theorems.* `Verif/Serde/BinaryProps.lean`: `container_roundtrip`, `container_pack_succeeds_iff`, `container_truncation`, `binary_value_roundtrip`, `binary_truncation_rejected`; `Verif/Serde/Wire.lean`: `dumpsBin_loads`, `dumpsBin_truncation_rejected`.

*Note.* byte level included

### C04 — Equal types are interchangeable as dictionary keys (partial)

If two types compare equal then they hash equal, so a type can be used as a dict/set key (for example in caches keyed by signature).

*Model and proof.* `Ty.eq` and the hashed tuple of each class. Structural induction; a concrete pair of tables is the witness of the violation.

*Theorems.* `Verif/Serde/Props.lean`: `type_eq_implies_hash_eq_partial`, `type_eq_implies_hash_eq_violated`.

*Note.* violated for tables whose schemas differ only in column order; holds otherwise

### C05 — Graph JSON round trip (partial)

Serialising a graph produced by the graph builder (any number of inputs, ops with regions, outputs) and deserialising it yields a graph with the same structure: same inputs, same ops in order with the same opcodes, attributes, operands and nested regions, and the same outputs, with the same value names and types.

*Model and proof.* Graph builder as a state machine and `to_json/from_json` including the renaming loop; the byte-level theorems compose with C02. Invariant of the rebuild loop, induction on region depth.

*Theorems.* `Verif/Graph/Props.lean`: `graph_json_roundtrip_partial`, `builder_op_never_fails`, `graph_json_roundtrip_violated`; `Verif/Graph/Wire.lean`: `graph_bytes_roundtrip_partial`, `graph_b64_roundtrip_partial`; `Verif/Graph/Foreign.lean`: `foreign_names_roundtrip`.

*Note.* holds for every graph built without a failed add_op (regions of any depth); after a failed add_op with an input named like a generated value the read back raises

### C06 — Argument flattening round trip (proved)

Splitting the arguments of a traced function into variables and immediates and re-assembling them returns the original argument structure; replacing the variables by others changes exactly the variable positions.

*Model and proof.* Rose trees with variables and immediates, `var_morph`/`var_demorph`, `normalize_fn`. Induction over the flattened list.

*Theorems.* `Verif/Trace/FuncUtils.lean`: `morph_roundtrip`, `morph_replace`, `morph_variables`, `morph_positions`, `normalize_fn_same`, `unflatten_exact`.

*Note.* jax tree_flatten/unflatten are external and modelled as ordered trees

### C07 — Graph builder keeps single assignment form (proved)

Any sequence of graph-builder calls (add input, add op, add output, with errors reported rather than applied) leaves a graph where value names are unique, every operand of an op is an input or a result of an earlier op, and every output is a defined value, provided the operands and outputs handed in are values the same builder returned (values of other graphs are accepted unchecked).

*Model and proof.* Builder state machine with all calls. Inductive invariant over arbitrary call histories.

*Theorems.* `Verif/Graph/Props.lean`: `builder_ssa`, `builder_operand_types`, `builder_rejections_apply_nothing`, `builder_accepts_foreign_operand`; `Verif/Graph/Foreign.lean`: `builder_returns_own_values`.

*Note.* operands must be values of the same graph: add_op does not check this (witness builder_accepts_foreign_operand)

### C08 — Tracing then evaluating equals calling (proved)

Tracing a function that applies primitives to its arguments, captured values and constants, and evaluating the resulting graph on the same arguments and captured values, gives the same results (including constants returned untouched and the output structure) as applying the primitives directly.

*Model and proof.* Straight-line python functions over tracer objects versus direct calls; tracer state, graph evaluation. Simulation by induction over the program.

*Theorems.* `Verif/Trace/TracerProps.lean`: `trace_then_evaluate`, `eager_call_applies`, `eager_call_no_output_violated`.

*Note.* primitives defined by def_abstract_eval; eager execution skips primitives without outputs (witness)

### C09 — Region captures are merged without changing meaning (proved)

When two traced regions (the branches of a conditional, or condition and body of a loop) capture outer values, the shared region argument list contains each captured object exactly once, and after alignment each region computes on that common list the same results as it did on its own captures.

*Model and proof.* `merge_captures`, `align_region_inputs`, tracer runs. Invariant of tracer runs, permutation of captures.

*Theorems.* `Verif/Trace/Align.lean`: `merge_captures_correct`, `align_region_preserves`, `run_traceWF`, `regions_share_captures`.

### C10 — Context stack discipline (partial)

Any well-nested use of contexts restores the enclosing context on exit; popping or peeking follows last-in first-out order; the nearest enclosing context that satisfies a query is the one found; the root context can only be replaced when forced; threads do not disturb each other.

*Model and proof.* Stack machine with push, pop, with-blocks, forced and unforced roots. Induction over histories.

*Theorems.* `Verif/Trace/Context.lean`: `context_lexical`, `with_block_restores`, `find_context_innermost`, `set_root_unforced`, `forced_root_in_with_violated`, `find_with_state_partial`, `find_with_state_violated`; `Verif/Trace/Threads.lean`: `threads_serial_partial`, `threads_overlap_violated`.

*Note.* violated: threads that overlap share one stack, a forced root inside with is popped, find_context_with_state raises under a tracer

### C100 — Field operations are safe and have the declared type (partial)

Every field operation the type rules accept runs without faulting in native code and returns a tensor of the declared element type and shape.

*Model and proof.* NumPy arrays as shape and words in C order; wrappers call the checked native kernels; type rules as functions on types; documented operands as a separate predicate.

*Theorems.* `Verif/Kern/WrapProps.lean`: `field_ops_sound`, `field_ops_shape_partial`, `solve_short_values_violated`, `mul_broadcast_violated`, `single_seed_violated`, `wide_seeds_violated`, `element_type_violated`, `no_cells_violated`, `flat_storage_violated`, `field_store_round_trip`, `field_mul_blocks`, `field_ldpc_blocks`.

*Note.* proved for the operands the documentation asks for; for any operands the result is 64-bit words of the declared shape (aes_expand excepted); violated: the type rules accept operands whose buffers are too short, which native code then reads past, or a table of no cells

### C101 — Boosting trains on what prediction gives (proved)

Fitting a SecureBoost model of n estimators yields n trees; each tree was built from the gradients of the log loss at exactly the scores the preceding trees give the training samples when predicting; the fitted model answers for every sample the sigmoid of base score plus shrunken leaf values; fitting fewer estimators yields a prefix; an unfitted model refuses.

*Model and proof.* Boosting loop over an arbitrary builder per round; specification by recursion over rounds and by walks down the trees; C73 links prediction to walks.

*Theorems.* `Verif/Sgb/Boost.lean`: `boosting_sound`, `fewer_rounds_prefix`, `unfitted_refuses`, `new_accepts_iff`.

*Note.* floats are reals; n_samples is the number of rows (a wrong value 1 is silently broadcast: one_sample_broadcast)

### C102 — Gradients, base score and accuracy mean what they should (proved)

The gradients and Hessians used in training are the first and second derivative of the log loss by the score; for labels in [0,1] gradients are below 1 in size and Hessians in (0, 1/4]; the base score predicts the share of positives and no other constant has a smaller loss; predictions are probabilities; accuracy is the share of scores of the right sign; quantisation moves a number by at most 2^-16 and a sum of m numbers by at most m 2^-16.

*Model and proof.* Real analysis with Mathlib: derivative of the sigmoid, log x <= x - 1 for the optimum, rounding to even.

*Theorems.* `Verif/Sgb/Boost.lean`: `gradients_are_derivatives`, `gradient_range`, `base_score_is_mean`, `base_score_optimal`, `probability_range`, `accuracy_spec`, `quantize_error`, `histogram_error`.

*Note.* floats are reals, so float32 rounding is outside

### C103 — Equal-width bins (proved)

A feature is cut into max_bin bins of equal width between its smallest and largest value: boundaries are sorted, bins are below max_bin and monotone in the value, the extremes are in the first and last bin, a constant feature has one bin, and shifting or rescaling the feature does not change any bin.

*Model and proof.* Boundaries as a list of reals extended by infinity; digitize as in C74.

*Theorems.* `Verif/Sgb/Bins.lean`: `bins_ordered`, `bin_interval`, `extremes_separated`, `constant_feature`, `bins_affine`.

*Note.* floats are reals; no NaN

### C104 — Packed histogram pipeline (partial)

The passive party's pipeline draws for each node, feature and chunk exactly its mask, and what the active party unpacks for a node, feature and bucket is the aggregate of that node's and feature's masked gradients at that bucket.

*Model and proof.* The nested loops with their shared mask iterator over slot functions; induction over nodes, batches, features and chunks; slot arithmetic of rotations within rows.

*Theorems.* `Verif/Sgb/Pack.lean`: `tree_sum_correct`, `packed_pipeline_partial`, `packing_row_violated`.

*Note.* proved as long as no region in which features are packed crosses a row of the ciphertext; violated with the default nine buckets and more than 456 features per party

### C105 — A program run through the driver means what it says, end to end (proved)

Running a traced multi-party program operation by operation through the driver (wrapper graphs, URIs, stores, worker processes and their messages) ends for every operation on every worker, and fetching the driver's variables gives every party exactly the values the program means, None where a party holds nothing.

*Model and proof.* Composition: wrapper_ev (the wrapper graph means the operation), request_correct (every schedule of one request ends as specified and leaves the mailboxes empty, so that the next request may reuse message names), dispatch_correct (C32); induction over the operations.

*Theorems.* `Verif/Driver/Spmd.lean`: `spmd_end_to_end`.

*Note.* for programs that have a meaning (C16-C22 say which: e.g. no exchange in a shuffle); one program at a time (C106 for several); loops need enough fuel, i.e. terminate

### C106 — Requests running at the same time do not disturb one another (partial)

Several requests executing on the same workers at the same time each end exactly as they would alone.

*Model and proof.* Network with one process per request and party and mailboxes shared by all, keyed by context id; projection of every schedule to each request (simulation), confluence per request (C23); pool as a first-in first-out queue with world_size threads.

*Theorems.* `Verif/Driver/Concurrent.lean`: `requests_isolated`, `requests_progress`, `pool_in_turn_completes`, `anonymous_requests_mix_violated`, `anonymous_requests_fail_violated`, `pool_interleaved_violated`, `shared_context_iff`; `Verif/Driver/Workers.lean`: `workers_in_order_complete`, `workers_few_complete`, `workers_reordered_violated`.

*Note.* proved for requests with different job ids, and for the thread pool when requests are submitted one after the other; violated as the driver submits them: without a job id all requests share the context "anonymous", and interleaved submissions can occupy all threads with parties that wait for queued ones

### C107 — Evaluating and fetching at the host boundary (partial)

mp.fetch keeps the structure of its argument and returns, for every object, the data of its device's party, or one entry per party (None where a party holds nothing); it is the identity while tracing and never returns another party's data or a made-up value. mp.evaluate of a compiled program takes exactly its flat inputs and yields objects that fetch like those of the direct call; mp.function runs on all parties of the innermost context with parties.

*Model and proof.* Trees of objects over the worker stores of C32; tree_map with exceptions; theorems leaf by leaf, evaluation of traced functions through C08.

*Theorems.* `Verif/Driver/Api.lean`: `fetch_tracing`, `fetch_context`, `fetch_leafwise`, `fetch_parties`, `fetch_missing`, `fetch_device`, `fetch_device_absent`, `function_parties`, `evaluateCompiled_spec`, `evaluateTraced_direct`, `fetch_after_compile_violated`, `fetch_after_compile_partial`, `fetch_spu_violated`, `fetch_spu_partial`.

*Note.* results of compiled programs lose the device attribute and are fetched as per-party lists; objects on an SPU are fetched as the first share instead of the reconstructed value

### C108 — Programs over devices compute the plain result (partial)

A program of put (host values and device objects) and device(dev)(f)(x, ...) calls, with the device given or inferred and arguments moved automatically, computes for every variable what evaluating f on plain values computes, whatever the kinds of the devices, the randomness and the schedule: every variable ends up on the device the placement rules name, with the plain value, and fetching it returns that value. Programs whose placement is not defined (no or several candidate devices, unsupported transfer, unknown device) raise.

*Model and proof.* Statements over the transfer model of C36 and the inference of C35; each statement is a segment of simp operations run at all parties under every schedule plus, on an SPU, a joint kernel step; refinement of the plain evaluator by induction over the program, determinism, and soundness of placement.

*Theorems.* `Verif/Device/Program.lean`: `device_program_partial`, `placement_sound`, `spu_order_violated`, `idealKernel_ok`.

*Note.* proved for clusters whose SPU member lists are ascending by rank; libspu is a contract (KernelOk), shown to be satisfiable by the ideal kernel for every scheme meeting the sharing contract

### C109 — Nested evaluations talk in the scope of their request (partial)

All messages an evaluation sends, at any nesting of calls, conditionals and loops and after any history of successful and failed evaluations on the thread, are in the scope of the request, so the matching operations of all parties meet; with an executor every operation has a scope of its own whose name depends only on where the operation is.

*Model and proof.* Runs as trees of handler actions; thread state with the thread-local reference and a heap of context objects; mutual induction over the trees for the sequential evaluator (invariant: one context) and for the asynchronous one (frame lemma: an operation touches only its own context and new ones); a two-iteration loop for all names as witness.

*Theorems.* `Verif/Interp/Scopes.lean`: `one_scope`, `outside_violated`, `scope_by_position_partial`, `loop_scopes_violated`, `async_failure_reported`.

*Note.* sequential evaluation (all shipped clusters) in full except that after a failed evaluation the scope stays readable outside; with an executor proved for handlers that evaluate one nested graph at most; violated for loops whose body calls a function on some parties only

### C11 — Synchronous graph evaluation computes the dataflow meaning (proved)

Evaluating a graph op by op with eager release of dead values returns exactly what evaluation without any release returns: no value is released while an op or an output still needs it, and a well-formed graph never fails for a missing value.

*Model and proof.* Synchronous evaluator with reference counters and release of values, versus a specification evaluator that never releases. Loop invariant.

*Theorems.* `Verif/Interp/Props.lean`: `sync_eval_correct`, `sync_eval_never_missing`.

### C110 — A primitive call records what was called, and its implementation is the one in force (partial)

Calling a primitive with objects records exactly one operation with these objects as inputs, in order, and the keyword arguments as attributes, and returns its new outputs (one object or a list); a custom trace function takes precedence; a primitive with neither is refused. An operation is run by the interpreter's own handler, else by the implementation registered last, else refused; profiling never changes a result and holds one sample per completed operation.

*Model and proof.* Primitives with flat, positional and variadic rules over a graph state; equivalence between acceptance and the specification of the recorded operation; dispatch as a state machine over registrations, profiling switches and executions, by induction over histories.

*Theorems.* `Verif/Trace/Bind.lean`: `call_recorded`, `precedence`, `constants_dropped_violated`, `concat_array_violated`, `dispatch_latest`, `profiling_transparent`, `profile_samples`, `own_handlers_unprofiled_violated`, `summary_consistent`.

*Note.* violated: non-object positional arguments vanish silently for rules taking any number of inputs (concat, converge, write, reconstruct); objects in keyword arguments are recorded instead of refused; operations with handlers of the interpreter's own are not profiled

### C111 — A protocol written as one program computes its plain reading (proved)

A library protocol that only computes at named parties (pcall_static), moves values (shuffle_static) and joins equal copies (converge) can be read as an ordinary program without parties. If this reading succeeds (every argument is where it is used, every transfer starts where the value is), tracing succeeds, the distributed evaluation ends under every schedule, and each party holds exactly the objects, with the values, the reading gives it; the messages are the transfers written in the program and no others. What a party learns depends on nothing but its own inputs and the values sent to it.

*Model and proof.* Programs as a free monad over the three operations; relational plain semantics with the transfers; step-by-step simulation by tracing (building blocks of C17, C19, C20), then the schedule independence of C12/C16 for the recorded graph; party_view by induction over two runs of the same program.

*Theorems.* `Verif/Simp/Chor.lean`: `plain_reading`, `party_view`.

*Note.* for objects that stand for one value (all parties of the type hold the same value), as in the protocols of mplang/libs; local functions may fail

### C112 — SecureBoost among parties is SecureBoost in one place, and sends only what it may (partial)

SecureBoost.fit, predict and evaluate run by an active party and any number of passive parties end under every schedule with exactly the model, probabilities and accuracy of the same algorithm run in one place on all the data; split features and thresholds are held by the party whose columns they concern, leaf flags and owners by everyone, leaf values, predictions and scores by the active party only. Messages to a passive party are ciphertexts, public and evaluation keys' parts, the samples' nodes, leaf flags, owners, node numbers and the best splits of its own columns; messages to the active party are encrypted histograms, the samples' nodes and prediction masks. Labels, gradients, predictions, the secret key, columns and bins are never sent.

*Model and proof.* The protocol transcribed as a program of calls, moves and shares (C111) beside the algorithm without parties; program-logic rules for each construct; correspondence of objects and values as the loop invariant of levels, rounds and trees.

*Theorems.* `Verif/Sgb/ProtocolMain.lean`: `fit_correct_partial`, `session_correct_partial`, `fit_depth_zero_violated`.

*Note.* violated for max_depth=0 with passive parties; the local array computations are parameters (their properties are C73-C78, C101-C104)

### C113 — Two-party protocols between parties compute what they compute in one place, and send only what they may (proved)

The OT extension, the VOLE and silent VOLE, the RR22 and the unbalanced set intersection and the OPRF, run by two of any number of parties, end under every schedule: the OT receiver has exactly the messages its bits choose, VOLE shares satisfy w = v + u*delta at the right parties, the PSI receiver (client) has a mask with every common item marked (and for RR22 an item the sender does not have is marked only by a hash or tag coincidence), the OPRF outputs agree for equal items of a row; no third party gets anything. The only messages are, per protocol, the listed ones: common point, public keys, encrypted seeds, correction matrix, ciphertexts, VOLE corrections, expansion seed, hash seed, masked table, truncated tag hashes; no secret choice vector, private key, PRG seed, share, delta, item list, unmasked table or full tag is ever sent. In the unbalanced protocol nothing the server holds depends on the client's items.

*Model and proof.* The protocols transcribed as programs of calls and moves (C111) whose local functions see only what the party holds; program-logic proof that they compute the central models of C45, C46, C49, C50; then those properties' theorems.

*Theorems.* `Verif/Mpc/NetMain.lean`: `transfer_network`, `vole_network`, `silent_network`, `psi_network`, `psi_network_any`, `psi_refused`, `unbalanced_network`, `unbalanced_server_view`, `oprf_network`; `Verif/Mpc/TrafficMain.lean`: `silver_network`.

*Note.* random draws, hash and AES are parameters; draws avoid the coincidences modulo the group order that raise; marked-item guarantees with the Python OKVS solver (psi_network_any: every solver; the native solver's defects are C41/C50); lists of tensors that stay at a party are one value

### C114 — The sends of a reported request are over, and the statistics count them (partial)

When a worker reports a request as executed, every send the request made has been delivered or has failed, the messages of those that succeeded are stored at their receivers, exactly once; a failed send is reported as a failure of the request. The set of outstanding sends never leaks: in rest it holds exactly the unfinished ones. No more transfers run at a time than there are parties, every transfer eventually runs and ends, and waiting for them ends. The counters of the statistics are, at every moment, the number and total bytes of the successful sends and the number of failed ones.

*Model and proof.* Transition system with one step per atomic action of each thread (submit, add, install callback, take job, store at peer, finish, callback, copy the set, wait); inductive invariant over all event lists; a measure for progress.

*Theorems.* `Verif/Comm/SendsProps.lean`: `reported_sends_over`, `messages_at_most_once`, `transfers_bounded`, `pending_is_unfinished`; `Verif/Comm/SendsMain.lean`: `counters_exact_partial`, `sends_make_progress`, `waiting_ends`, `lost_message_reported_ok_violated`, `late_message_violated`, `unbuilt_send_uncounted_violated`, `counters_since_reset_partial`, `report_is_final`.

*Note.* violated: a refused or timed-out send is only logged and the request is reported as a success; a wait that times out is dropped too, so a transfer can still be under way; sends that fail while being serialised are in no counter. Durations, averages and the receive counters are not modelled

### C115 — Base transfer, permutation and shuffle group-by between the parties: result and what each party learns (proved)

Run by parties that exchange messages: the base oblivious transfer delivers exactly the chosen messages to the receiver, the oblivious permutation delivers the permuted list, and the shuffle-based group-by delivers the sum of each bin modulo 2^64, whatever the ranks, the number of parties and the schedule, and only the documented messages are sent. In the group-by the receiver learns nothing about the data beyond the sums: for data with the same sums it sees the same for matching masks. The sender learns nothing about the bins: for any other bins it sees the same after reflecting the receiver's scalars at fixed positions. The helper learns nothing about the data at all.

*Model and proof.* Programs in the choreography language of C111 whose local functions get only their own arguments; Hoare-style rules give the plain reading; every message has its own kind, so the rule same_view compares two runs message by message; the central theorems of C44, C52, C54, C63 supply the values.

*Theorems.* `Verif/Mpc/NetShuffleMain.lean`: `ot_network`, `permutation_network`, `groupby_network`, `groupby_receiver_view`, `groupby_sender_view`, `groupby_helper_view`; `Verif/Simp/ChorViews.lean`: `runs_same`, `same_view`.

*Note.* for ordinary draws (all but at most 6/N of the scalars per element, C44); sender and receiver are different parties; the list form of apply_permutation is not modelled; the helper sees the whole bin vector (the docstring says bin sizes)

### C116 — SecureBoost by the parties computes the boosted model (partial)

When the parties run SecureBoost fit, predict and evaluate over the network, the run ends without an error under every schedule, the number of trees is n_estimators, each tree is built level by level from what the split search answers (winner of a node: the first party no later party beats; a node becomes a leaf exactly if the winning gain says so), its leaf values are those of the gradients at the scores of the earlier trees, and the active party alone gets for every new row the sigmoid of the base score plus learning rate times the values of the leaves the row is led to, and their accuracy. If the search keeps to its boundaries, every leaf value minimises the regularised second order loss over the training samples the finished tree leads to that leaf.

*Model and proof.* Fill in the kernels of the C112 protocol with the array code of C73-C78, C101 and prove the plain run total by induction over levels and rounds, then apply the C112 theorem.

*Theorems.* `Verif/Sgb/KernelsMain.lean`: `session_predicts_partial`, `trained_leaves_optimal_partial`.

*Note.* Partial for the reasons of C112 (max_depth=0 with passive parties makes fit raise) and C74 (clamped and rounded thresholds break the agreement of training and prediction, so the second theorem assumes Exact). Histograms, gains and encryption are arbitrary total functions here (C75-C77, C103, C104 treat them); real numbers instead of float32.

### C117 — Homomorphic group-by over the network: result, messages, views (partial)

When the parties run the BFV group-by over the network, under every schedule the receiver ends with the sum of the data in every bin, the only messages are the encrypted chunks, keys, encoder and result to the receiver and the encrypted sums to the sender; the sender learns about the bins only the sums it decrypts, the receiver about the data only the sums, other parties nothing.

*Model and proof.* The program as a C111 choreography; every slot of rotate-and-sum over a full row is the total of the row (cyclic reindexing); then the C111 theorem for results and messages and its view rule for pairs of runs.

*Theorems.* `Verif/Mpc/NetGroupBfvMain.lean`: `groupby_bfv_network_partial`, `groupby_bfv_sender_view_partial`, `groupby_bfv_outsider_view`, `groupby_bfv_receiver_view_violated`.

*Note.* Result: partial as C66 (range of the plain modulus; across processes every chunk must hold an element of every bin; at least one bin). Sender view: ciphertexts are their slots, all of them compared; the noise, which the code does not flood and which may depend on the masks, is not modelled. Receiver view: violated, it ends every run with a key that decrypts the data (C67).

### C118 — Protocols called from the driver (proved)

A multi-party protocol called directly from the driver, so that every local computation, transfer and merge is a request of its own, leaves with the parties exactly what it leaves when it is part of one traced graph: fetching any of its results gives the value for the parties that hold it and None for the others, whatever else is in the workers' stores and under every schedule.

*Model and proof.* The recorded operations have the recorded types (induction over the program), so C105 applies to them; its final variables are the plain reading of C111.

*Theorems.* `Verif/Driver/Chor.lean`: `driver_plain_reading`; `Verif/Simp/ChorArgs.lean`: `runsTo`.

*Note.* The network theorems about particular protocols (C112, C113, C115, C116, C117) conclude `RunsTo`, which contains this: each of them holds for the traced graph and for the protocol called from the driver.

### C119 — Clusters started from the command line (partial)

Workers started with the same flags or config file agree on all addresses, and the address each has for rank s names the port on which worker s listens; up starts exactly the workers that worker --rank would; the driver started by run, and the status and objects commands, look for the workers where they are; a config file written by config gen gives the cluster that the same flags give; and the SPU addresses are those asked for, different for different ranks.

*Model and proof.* Model of build_endpoints and the commands over the config dictionary of C33; splitting at colons; the driver's list by C33's endpoints_by_rank.

*Theorems.* `Verif/Tool/CliProps.lean`: `workers_find_each_other`, `up_starts_all_workers`, `driver_finds_workers_partial`, `driver_finds_workers_violated`, `status_asks_workers`, `objects_asks_workers_partial`, `objects_asks_workers_violated`; `Verif/Tool/CliMain.lean`: `generated_config`, `spu_addresses_partial`, `spu_addresses_distinct`, `spu_flag_ignored`, `spu_addresses_violated`.

*Note.* Agreement of the workers, up, status and generated files are proved for all inputs. The driver is proved to find the workers unless a config file is combined with --endpoints or an address begins with http but not with http:// or https:// (both witnessed); objects only with a config file (witnessed); SPU addresses for nodes written without a scheme and with the flags that are not ignored (five witnesses).

### C12 — Asynchronous evaluation is schedule independent (proved)

Evaluating a graph with any number of worker threads gives, for every order in which ready ops are started and completed, the same outputs as sequential evaluation.

*Model and proof.* Asynchronous evaluator as a labelled transition system: any completion order, any failure. Inductive invariant, agreement with the specification evaluator.

*Theorems.* `Verif/Interp/Props.lean`: `async_returns_spec`, `async_raises_spec`, `async_agrees_with_sync`.

### C120 — Stopping a local cluster (partial)

When a local cluster started with up receives an interrupt or termination signal, at whatever moment while it is starting or running, every worker process it started is terminated.

*Model and proof.* Interleaving of the handler with the two actions per worker of the main thread; induction on the number of workers.

*Theorems.* `Verif/Tool/CliMain.lean`: `signal_stops_workers_partial`, `signal_stops_workers_violated`.

*Note.* Proved: at every moment all workers started so far are terminated except possibly the last, and all of them once the loop is over. Witness for every worker: a signal between its start and its entry in the list leaves it running (sys.exit then waits for it).

### C121 — Execution traces (partial)

With tracing on, every run of an operation leaves exactly one event for its time in the queue and one for its time running, with its opcode, times and process, however threads interleave; a disabled tracer records nothing; a saved file holds the events of the job; merging the files of the workers of a job keeps every event, tags it with the rank that recorded it, keeps events of one process together and never mixes events of different ranks or processes.

*Model and proof.* Events projected per (operation, interpreter) key: the projection of any interleaving is the sequential history, and equal projections give a permutation; arithmetic modulo 10000 for the merge.

*Theorems.* `Verif/Tool/TraceProps.lean`: `runs_are_recorded`, `disabled_records_nothing`, `rank_read_back`, `rank_only_from_name`, `merge_keeps_events_partial`, `merge_keeps_events_violated`, `recorded_wellFormed`, `ranks_apart`, `processes_kept_partial`, `processes_kept_violated`, `saved_events_partial`, `saved_events_violated`, `cluster_ranks_violated`.

*Note.* Recording, the rank in file names and the separation of ranks are proved in full. Partial: merging needs readable well-formed files (the recorded ones are), processes are kept apart up to multiples of 10000, saving needs 100 events. Witnessed: dropped rest of a file, duplicated events, small jobs not saved, earlier jobs' events in later files, and clusters whose files do not separate ranks.

### C122 — LDPC reference encoder, decoder and structure check (partial)

The dense reference encoder agrees with the sparse encoder on every matrix and message; decoding the syndrome of an error of the stated weight returns that error; and every generated matrix passes the structure check.

*Model and proof.* Xor over a filtered range; the greedy search finds the first maximum; row weights of C64.

*Theorems.* `Verif/Mpc/LdpcRef.lean`: `dense_encode_low_bits_partial`, `dense_encode_violated`, `decode_single_partial`, `decode_violated`, `generated_passes_partial`, `small_generated_violated`, `structure_check_exact`, `decode_blocks_bits`, `silver_base_bounds`.

*Note.* Exactly what the dense encoder computes is proved (the lowest bit of each word of the syndrome). Decoding is proved for single errors whose column is not inside an earlier one, with witnesses that it fails otherwise, for two errors, and for blocks. The structure check is proved to accept every generated matrix with at least 50 columns and to reject every one with fewer than 30; it uses exact fractions instead of floats.

### C123 — What is printed is what will run (partial)

The text of a type (str(type)) determines the type, and the text of a graph (format_graph; str(graph), to_string and compiler_ir) determines the graph: two graphs that print alike have the same inputs, operations in the same order, opcodes, operands, nesting of regions and outputs, and the same types and attributes as far as the options show them.

*Model and proof.* The text followed by anything that does not continue it is read back in one way: mutual induction on types and columns, and on graphs, operations and regions.

*Theorems.* `Verif/Serde/TypeText.lean`: `type_text_partial`, `type_text_exact_partial`, `type_text_schema_violated`, `type_text_column_violated`; `Verif/Graph/Printer.lean`: `format_determines_partial`, `intAttr_clear`, `format_schema_violated`; `Verif/Graph/ToStr.lean`: `to_string_determines_partial`, `to_string_regions_violated`.

*Note.* Violated: the encryption schema of a secret-shared type is not printed, and column names are quoted without escaping. Proved for all types and graphs with plain names up to that schema; python repr of attribute values is a parameter that must be unambiguous (proved for ints and tuples of ints); operation names are not printed. Also str(graph)/to_string/compiler_ir (edsl/graph.py:312-362), which print neither regions nor the types of further outputs (to_string_regions_violated).

### C124 — Failing programs and shutdown (partial)

A program whose parties all end well returns their results in the order of the parties; a program in which a party fails raises that party's error, of this very program, and does not affect other programs or later ones. After a shutdown nobody waits for ever. Shutting an interpreter down again changes nothing, and the interpreter of a request never stops what it shares with others.

*Model and proof.* A transition system of tasks on a bounded thread pool; invariant on the origin of every error, measure for the drain after shutdown.

*Theorems.* `Verif/Driver/Lifecycle.lean`: `collect_values`, `collect_error_partial`, `collect_error_down`, `healthy`, `later_submits_refused_violated`, `other_program_killed_violated`, `down_finishes`, `http_collect_error`, `http_collect_values`, `http_hides_cause_violated`, `request_keeps_shared`, `executor_stopped_once`, `shutdown_idempotent_violated`.

*Note.* Violated: after one failed program the local simulator refuses every later program and kills the ones running; the remote driver waits in rank order, so a failure can be hidden behind a wait or its timeout; a second shutdown writes another trace file. Proved: results and errors of every history while the simulator is up, progress after a shutdown, what a request may stop. Worker code is an arbitrary outcome; stopping a computation that never receives is not modelled (a thread is assumed to end or to reach a receive).

### C125 — A function run on the SPU (partial)

spu.run_jax(f, ...) inside a static call of the SPU's members: every member gets shares in the structure of f's result, and the shares of an output, opened together in member order, are the output of f (in SPU arithmetic) on the values behind the arguments, with every plain argument where the user put it, and whatever earlier runs left in the members' runtimes. Arguments that are neither shares of tensors nor tensors are refused; shares are secret and tensors public. Shares made of a tensor and opened again give its value; what is opened together must be shares of one tensor.

*Model and proof.* Joint execution of the members as a function over their variable stores; induction-free list reasoning on rows and columns of shares, from the library contract.

*Theorems.* `Verif/Spu/RunJax.lean`: `compiled_is_call`, `spu_function_partial`, `public_argument_violated`, `visibility_by_type`, `other_types_refused`, `shares_round_trip`, `reconstruct_types`, `reconstruct_types_violated`, `element_types_refused`.

*Note.* Violated: a Tensor argument is accepted as public while tracing, but its TensorValue cannot be shared by exec_impl and the run fails; reconstruct looks only at the type of its first argument. Proved: the joint execution for secret arguments (and bare arrays), tracing rules, types. libspu (sharing, compiling, running) is a contract, with an instance; the path for dynamic shapes (StableHLO compiled when run) is the same contract.

### C126 — The environment a program is compiled and run in (partial)

A simulator, a driver or a compile context made for n parties has a cluster of n nodes, so devices and mp.function stand for parties that exist; a compile context sees what the simulator or driver of the same cluster sees; nested contexts: devices and mp.function follow the same, innermost environment. A cluster and a number of parties that do not fit are refused. A program that uses only the first parties gives them the same values in a smaller or larger world.

*Model and proof.* Factories as functions; a program meaning for M parties is restricted to N by induction on the evaluation; the missing-party case goes through the end-to-end theorem of C105.

*Theorems.* `Verif/Driver/Environment.lean`: `default_environment`, `compile_context_same`, `parties_in_world`, `factories_complete`, `same_environment`, `size_mismatch_violated`, `missing_party_violated`, `smaller_world`, `larger_world_violated`.

*Note.* Violated: a cluster of another size than the world is accepted everywhere, and steps on missing parties end without error and without values; a checked conditional over the first parties raises in a larger world. Proved: consistency of the defaults and of compile contexts, nesting, and that smaller worlds agree.

### C127 — The operation profiler (partial)

Enabling profiling changes neither values nor errors nor the course of a program. From enabling on, every operation that returns is recorded once with its duration, one that raises is not; switched off, nothing is recorded. The summary has one row per recorded operation, in order of names, with the number, sum, smallest and largest of its times; the table shows the rows with the largest totals in falling order and says how many are left out. The total of the leaf summary counts no time twice: it is at most the time that passed.

*Model and proof.* Executions as trees with a clock; structural induction against a specification that lists the calls that return; min, max and sums of the summary by induction on the records.

*Theorems.* `Verif/Tool/Profiler.lean`: `profiling_transparent`, `recorded_exactly`, `call_recorded_iff`, `summary_exact`, `totals`, `printed_rows`, `leaf_total_partial`, `leaf_total_violated`.

*Note.* Violated: the leaf summary leaves out a fixed list of simp operations, but func.call and tensor.elementwise also evaluate nested graphs, so the time of their inner operations is counted twice. Proved: transparency, exact recording, exact statistics, and the bound when only listed containers call other operations. Sequential executions with times as natural numbers; threads recording at the same time are not modelled.

### C128 — Tables given as constants (partial)

A table given as a constant (a dictionary of columns, a DataFrame or an Arrow table) evaluates to a table with exactly the given columns in the given order, whose types are the declared ones, whether it is built in place, in the process of a worker that received the program, or put on a party with simp.constant or mp.put.

*Model and proof.* Inference rules of the two libraries as functions on lists; the six families of a list reduce the comparison to a truth table; tables by induction on the columns.

*Theorems.* `Verif/Table/Constant.lean`: `dict_constant_partial`, `frame_constant_partial`, `list_type_iff`, `ragged_refused`, `sent_same_iff`, `index_violated`, `party_columns`, `party_order_iff`, `party_order_violated`, `list_types_violated`, `arrow_table_violated`.

*Note.* Violated: types are declared from pandas and values built by pyarrow, which disagree on lists with missing integers or booleans, empty lists, lists of None and bytes (exactly these: list_type_iff); an index of a DataFrame becomes an undeclared column in a simulator and is dropped on a cluster; simp.constant and mp.put order the columns of a dictionary by name and refuse Arrow tables. Inference of pandas and pyarrow is modelled for lists of one family with integers of at most 53 bits, and arbitrary otherwise.

### C129 — How much the protocols send (partial)

For every run of oblivious transfer, VOLE (Gilboa, silent, Silver), OPRF, private set intersection and unbalanced intersection, the number, direction and size in bytes of the messages are fixed by public numbers (item counts, table and base sizes) as documented: linear in the receiver's or sender's items, below the library's own estimates, in the client's size for the unbalanced protocol, and about 1300 times less for Silver. The same holds, in numbers of elements, for the base transfer, the oblivious permutation and both group-bys (whatever the data, the permutation and the bins), and, in number and order of messages, for training and evaluating SecureBoost (whatever the labels, the columns and the shape of the trees).

*Model and proof.* Logic of traffic (Simp/Traffic.lean) over the programs of Mpc/Net.lean: every run appends exactly these messages, with sizes of the values moved (bytes of the arrays; framing and serialisation overhead not counted). Base transfer, permutation and the group-bys: the same logic with the number of elements as size. SecureBoost: sender and receiver of every message of every run (Simp/Route.lean), with arbitrary local computations; the kinds of the messages are C112's, their sizes are not modelled.

*Theorems.* `Verif/Mpc/TrafficMain.lean`: `transfer_traffic`, `vole_traffic`, `silent_traffic`, `silver_traffic`, `oprf_traffic`, `psi_traffic`, `unbalanced_traffic`, `totals`, `common_le`, `psi_linear`, `silver_bounded`, `unbalanced_size_violated`, `silver_estimate_violated`, `silver_saving_violated`, `tableRr22_bounds`, `tableBase_bounds`; `Verif/Mpc/Traffic.lean`: `solve_sized`, `solve_native_sized`; `Verif/Mpc/TrafficShuffle.lean`: `ot_sent`, `permutation_sent`, `groupby_sent`, `permutation_linear`; `Verif/Mpc/TrafficGroupBfv.lean`: `groupby_bfv_sent`, `bfv_total`; `Verif/Sgb/Route.lean`: `fit_route`, `eval_route`, `fit_messages`, `no_passive_to_passive`.

*Note.* the exact messages of every run of the seven protocols are proved (hence sizes independent of private items), intersection is linear and Silver bounded; violated: the unbalanced protocol sends at least 16 bytes per item of the server; the library's estimate is wrong by at least 49 times (Silver) and 128 times (Gilboa); the promised factor 1300 is not reached below 2.6 million correlations; the base transfer, the permutation, both group-bys and SecureBoost send what the specification lists, in every run

### C13 — Asynchronous evaluation terminates and reports errors (proved)

Asynchronous evaluation never gets stuck: as long as ops remain and no error occurred some op is in flight, every op runs exactly once, and if some handler fails the caller gets an error instead of a result or a hang.

*Model and proof.* Same transition system: progress, termination measure, each operation started exactly once.

*Theorems.* `Verif/Interp/Props.lean`: `async_progress`, `async_terminates`, `async_each_op_once`, `async_returned_all_ops`, `async_outcome`.

### C130 — Serialised objects come back as their own class (partial)

A kind belongs to the first class decorated with it, later decorations never take it away and a second class with the same kind is refused; so every accepted object of a class is read back, in the JSON and the binary format, as an instance of exactly that class, whatever the order in which the processes imported the modules.

*Model and proof.* Registry as a partial map built by any history of decorations; classes as single-inheritance chains; specification: the first class of the history with the kind.

*Theorems.* `Verif/Serde/Registry.lean`: `registry_first`, `registry_stable`, `register_accepts_iff`, `reads_back_iff`, `import_order`, `library_classes`, `subclass_violated`, `reserved_violated`.

*Note.* the registry, its stability and import-order independence, and the exact condition for an object to be read as its class are proved, and hold for all 39 classes of mplang; violated: an undecorated subclass without a kind of its own is written and read back as its base class, a built-in kind can be taken, an undecorated class with a kind is written and cannot be read

### C131 — Logging reaches the chosen outputs once (partial)

The library writes nothing unless logging is configured, and nothing after disable_logging, whatever happened before and for every logger get_logger gives; setup_logging sends each record from the level on exactly once to the stream and file asked for, lower ones nowhere; logging of the rest of the application is never affected.

*Model and proof.* Python's logger tree (levels, handlers, propagation, last resort) as a function from names to loggers; specification: the list of outputs a record is written to.

*Theorems.* `Verif/Tool/Logging.lean`: `silent_after_disable`, `silent_by_default`, `others_untouched`, `setup_force_partial`, `setup_adds`, `setup_fresh`, `setup_twice_violated`, `propagate_inherits`, `root_level_violated`, `stream_false_violated`, `bad_level`, `bad_file_violated`, `get_logger_under_iff`, `get_logger_violated`, `setup_twice`, `import_respects`, `setup_propagate_adds`.

*Note.* silence (by default, after disable_logging at any point), exact delivery with force or on first use, exactly what is added without force, isolation of other loggers, and which names belong to the library are proved; violated: configuring twice writes records twice, propagate ignores the application's level, stream=False alone writes warnings to stderr, a file that cannot be opened leaves the old handlers removed, names like mplang_tools escape disable_logging

### C132 — Running a job from the command line (partial)

When mplang run or mplang sim has reached the entry function of the user's file, then however that function ends, the user's code has run with the driver as its context, the context stack afterwards is the one from before, exactly this driver is shut down, the result is printed if it is not None, and the command fails iff the entry function failed. A command that fails earlier leaves nothing behind.

*Model and proof.* The user's code is a program of the context-stack model of C10; cmd_run over the stack, the drivers shut down, the contexts seen and the lines printed. What shutdown does is C109, the addresses are C119.

*Theorems.* `Verif/Tool/Run.lean`: `run_cleans_up_partial`, `run_from_shell_partial`, `run_no_driver`, `run_failed_load_violated`, `run_forced_root_violated`.

*Note.* proved once the entry function is reached, for code without forced root changes, and for all code when started from the shell; violated: every failure between building the driver and calling the entry function leaves the driver on the context stack and running; a forced root change loses the outer contexts

### C133 — Stopping a worker (partial)

When a worker process is asked to stop, its stop comes to an end, every task it accepted has ended by then, and tasks that were accepted succeed as they would without the stop.

*Model and proof.* Transition system of one worker: tasks as lists of local steps, sends and receives in a first-in first-out pool of two threads; stages serving, leaving, closed, gone in the order of the lifespan function. Invariant on what a task has left; a decreasing measure for termination.

*Theorems.* `Verif/Driver/Stop.lean`: `stop_outcome`, `stop_progress`, `stop_bounded`, `stop_loses_tasks_violated`.

*Note.* proved: the stop always proceeds and takes at most as many steps as work is left; a task that has not ended when the communicator is shut down ends, with success exactly if it sends nothing more and everything it still receives has arrived; violated: accepted tasks are lost, because the communicator is shut down before the pool. Each message is assumed to be read once; uvicorn's own waiting for open connections is part of 'serving'

### C14 — Execution cache does not change results (partial)

Evaluating graph fragments lazily with the interpreter's cache of already executed multi-output ops gives the same values as evaluating without cache, and each op is executed at most once per cache lifetime.

*Model and proof.* Tracer/interpreter `lift` cache machine with arbitrary histories of requests. Invariant relating cache and specification value.

*Theorems.* `Verif/Interp/LiftProps.lean`: `lazy_value_correct`, `lazy_value_stable`, `lazy_cached`, `lazy_siblings_cached`, `lazy_once_per_value`, `lazy_op_runs_once_violated`.

*Note.* values are right for every history with nested tracers; the 'each op at most once' half is violated (witness): every uncached request re-evaluates the whole graph

### C15 — Structural graph fingerprint is sound (partial)

Two graphs given the same execution fingerprint key are equal up to renaming of values: same ops in order, same operand wiring, same outputs and same types and stable attributes.

*Model and proof.* Structural term behind the execution key (canonical renumbering, stable attributes). Injectivity up to renaming.

*Theorems.* `Verif/Interp/FingerprintProps.lean`: `fingerprint_iff_same`, `stable_attrs_plain`, `fingerprint_skips_unstable_violated`, `exec_key_unmodified`, `exec_key_stale_violated`, `dict_order_irrelevant`; `Verif/Interp/FingerprintTypes.lean`: `key_determines_types_partial`, `key_ignores_schema_violated`.

*Note.* json.dumps and sha256 taken as injective; violated: attributes without stable form are skipped, and the key cached on a graph object survives modification of the graph

### C16 — Party types are sound at run time (partial)

In every multi-party program accepted by the type rules, after running it each result with party set S is held by exactly the parties in S: parties in S hold a value and parties outside hold nothing.

*Model and proof.* Local state `Option V` per rank, type rules of the SIMP dialect, per-rank runs of every primitive, regions included. Induction over programs.

*Theorems.* `Verif/Simp/Props.lean`: `party_types_sound_partial`, `straight_line_sound_partial`, `program_correct`, `strict_accepts`, `party_types_violated`.

*Note.* holds when no value with dynamic party set is given to a static call or shuffle; violated otherwise (witness). Straight-line programs need no assumption about the run

### C17 — Per-party call runs exactly on the requested parties (proved)

A per-party call on parties P is accepted only if every requested party holds all arguments; at run time each party in P gets the result of the function on its own local arguments, every other party gets nothing, and no party's data influences another's.

*Model and proof.* Type rule and run of pcall_static. Case analysis against an independent membership specification.

*Theorems.* `Verif/Simp/Props.lean`: `pcall_accepted_iff`, `pcall_runs_exactly`.

### C18 — Dynamic per-party call skips parties that miss an input (partial)

A dynamic per-party call runs on exactly those parties that hold all inputs; a party for which any input is absent gets nothing.

*Model and proof.* Type rule and run of pcall_dynamic; the violated half is a general theorem.

*Theorems.* `Verif/Simp/Props.lean`: `pcall_dynamic_partial`, `pcall_dynamic_violated`.

*Note.* the implementation runs the function on parties with missing inputs too

### C19 — Shuffle delivers along the routing table (partial)

After a shuffle with routing {target: source}, each target holds exactly the value its source held and every other party holds nothing, for every routing table the type rule accepts, in every message schedule, and the operation always terminates.

*Model and proof.* Shuffle compiled to sends and receives on the network of C23, all schedules. Confluence + invariant; deadlock proof for exchanges.

*Theorems.* `Verif/Simp/Shuffle.lean`: `shuffle_delivers_partial`, `shuffle_swap_violated`; `Verif/Simp/More.lean`: `shuffle_accept_iff`.

*Note.* violated for every routing in which two parties exchange values: they never return

### C20 — Converge merges disjoint party values (proved)

Converging values whose party sets are pairwise disjoint gives each party the value it held in the unique input it takes part in; overlapping party sets or different value types are rejected when the parties are statically known.

*Model and proof.* converge type rule and run. Case analysis.

*Theorems.* `Verif/Simp/Props.lean`: `converge_rejected_iff`, `converge_merges`.

### C21 — Uniform conditional keeps parties in agreement (proved)

With uniformity checking on, all parties take the same branch or all parties raise an error; no party ever runs a branch that another party does not run.

*Model and proof.* verify_uniform through allreduce, branch selection; all ranks. Uses C25.

*Theorems.* `Verif/Simp/Props.lean`: `uniform_check_passes`, `uniform_check_blocks`, `uniform_cond_raises`, `uniform_cond_runs_branch`.

### C22 — While loop iterates the body while the condition holds (proved)

A loop returns the first state, in the sequence obtained by applying the body repeatedly to the initial state, for which the condition is false; captured values stay constant; if the condition depends only on replicated data, all parties do the same number of iterations.

*Model and proof.* Loop with fuel as the relational semantics of `while`; per-rank runs. Induction on iterations.

*Theorems.* `Verif/Simp/Props.lean`: `loop_iterates`, `while_loop_correct`; `Verif/Simp/More.lean`: `loop_without_condition_value`.

### C23 — Point to point messages match by program order (proved)

When two parties run the same communication script, the n-th receive of one party from the other gets exactly the message of the matching send for every schedule, no two in-flight messages share a key, and no mailbox slot is overwritten.

*Model and proof.* Processes exchanging keyed messages over mailboxes, every interleaving. Confluence (diamond + termination) of the network, then closed forms.

*Theorems.* `Verif/Comm/CollectiveProps.lean`: `p2p_matches`, `p2p_no_overflow`, `p2p_fresh_keys`; `Verif/Comm/Net.lean`: `net_confluent`, `net_maximal_unique`.

### C24 — Communication scopes of concurrent ops are independent (partial)

Two parties evaluating the same graph concurrently, in different completion orders, give each op the same communication scope name, so its messages meet; distinct ops of one scope get distinct names.

*Model and proof.* Communicator ids and spawn counters as strings. Injectivity of the f-string encoding.

*Theorems.* `Verif/Comm/Scope.lean`: `key_injective`, `scopes_distinct`, `scope_names_agree_partial`, `scope_order_violated`.

*Note.* distinct scopes always have distinct names; names agree across parties only if ops start in the same order (violated otherwise)

### C25 — Collectives compute their mathematical result at every participant (proved)

Broadcast gives every participant the root's value; all-gather gives every participant the list of all values ordered by party number; boolean all-reduce gives every participant the conjunction/disjunction of all values; nobody returns from a barrier before everybody has entered it; all terminate; parties outside the group are rejected.

*Model and proof.* The collective algorithms as network programs; barrier as an ordering statement over traces. Confluence of C23 plus symbolic execution by induction on the participant list.

*Theorems.* `Verif/Comm/CollectiveProps.lean`: `broadcast_correct`, `allgather_correct`, `allreduce_and_correct`, `allreduce_or_correct`, `allreduce_xor_correct`, `barrier_terminates`, `normalize_rejects`, `normalize_sorted`; `Verif/Comm/Barrier.lean`: `barrier_waits`.

### C26 — Request completion is final (partial)

A communication request moves from pending to exactly one of done, failed or cancelled and a finished status never changes; waiting on a finished request returns its stored outcome; test never blocks and reports done exactly when finished; waiting for all returns outcomes in argument order, waiting for any returns a finished one.

*Model and proof.* Request state machine (status, result, waiters). Induction over histories.

*Theorems.* `Verif/Comm/Mailbox.lean`: `request_final`, `status_exact`, `test_exact`, `wait_outcome_partial`, `wait_timeout_violated`, `wait_all_outcomes`, `wait_any_outcome`; `Verif/Comm/Poll.lean`: `test_all_outcomes`, `test_any_outcome`, `cancelled_looks_completed_violated`.

*Note.* violated for operations failing with TimeoutError: wait reports a timeout and leaves the handle pending

### C27 — Mailbox never loses or duplicates a message (proved)

A message put under (sender, key) is handed to exactly one receive for that sender and key; a second message for an occupied slot is refused with an error; after shutdown every blocked or later receive fails instead of hanging.

*Model and proof.* ThreadCommunicator mailbox with shutdown. Refinement to a map of undelivered messages.

*Theorems.* `Verif/Comm/Mailbox.lean`: `mailbox_exactly_once`, `mailbox_refuses_second`, `mailbox_accepts`, `mailbox_shutdown`.

### C28 — Object store returns what was put (partial)

get(put(v)) returns v for every backend; storing at a URI and reading the same URI returns the latest value stored there; deleting removes exactly that object; objects under other URIs and in other backends are unaffected.

*Model and proof.* Object store machine: memory and file backends, put/get/delete/exists/list. Refinement to a finite map per object.

*Theorems.* `Verif/Store/Props.lean`: `history`, `get_iff`, `get_put`, `get_delete`, `load_save`, `listKeys_spec`, `exists_mem`, `put_mem_ok`, `failed_put_keeps_old_value_violated`, `distinct_uris_independent_violated`, `exists_iff_stored_violated`; `Verif/Store/More.lean`: `fs_put_succeeds_iff`.

*Note.* proved per object (memory key, file path) for all histories; violated: a put that fails while pickling destroys the old value, different URIs can name one file, exists is true for directories

### C29 — Object store URI routing (proved)

A URI is split at its first '://' into scheme and key and routed to that backend; a name without scheme goes to the persistent backend; unknown schemes are rejected; put without URI uses the memory backend with a fresh key.

*Model and proof.* URI parser `partition('://')` and routing. String induction.

*Theorems.* `Verif/Store/Props.lean`: `splitsAt_iff`, `routing`, `put_routing`, `put_none`.

### C30 — File store keeps every access inside its root directory (partial)

Whatever key a caller supplies (with '..', '.', repeated or absolute separators), the file store only touches files inside its own root directory, otherwise it raises.

*Model and proof.* `os.path.normpath/join/abspath` on component lists and `_resolve_key`. Path algebra; complete characterisation of the escapes.

*Theorems.* `Verif/Store/Props.lean`: `inside_root_partial`, `resolved_partial`, `no_such_sibling`, `inside_root_violated`.

*Note.* violated: keys like ../node10/x reach sibling directories whose name extends the root's; this is proved to be the only escape of keys (symbolic links not modelled; download and upload: C87)

### C31 — Worker task states are monotone and results match their task (partial)

A submitted task goes pending, running, then success or failed, never back; at most one task is active per worker and a second submission is refused; a task reported successful has its result available, and the result returned for a task id belongs to the last submission under that id.

*Model and proof.* Worker task machine: submissions, thread steps, polls, reuse of ids, in any interleaving. Inductive invariants over histories; witnesses for the races.

*Theorems.* `Verif/Worker/Props.lean`: `one_active`, `submission`, `monotone`, `stages`, `status_truthful`, `task_ends`, `sub_is_last`, `poll_result_partial`, `success_without_result_violated`, `stale_result_violated`.

*Note.* violated: success is visible before the result; reusing an id early mixes results

### C32 — Driver collects one value per party per output (proved)

Running a program on all workers and collecting yields, for each program output, the vector whose i-th component is what worker i returned for that output, in output order and rank order.

*Model and proof.* Driver dispatch: run on every rank, collect, transpose. Simulation of straight-line programs.

*Theorems.* `Verif/Driver/Props.lean`: `dispatch_correct`, `driver_correct`.

*Note.* straight-line programs through the driver with arbitrary joint worker behaviour

### C33 — Cluster spec validation (partial)

A cluster specification is accepted only if node ranks are unique and form 0..n-1, every device member is a known node, device names are consistent and every PPU has exactly one member; accepted specs list endpoints in rank order, one per rank.

*Model and proof.* ClusterSpec constructor checks, from_dict, simple, endpoints. List reasoning.

*Theorems.* `Verif/Device/Cluster.lean`: `accepts_iff`, `fromDict_sound`, `endpoints_by_rank`, `node_by_rank`, `simple_sound`, `ranks_checked_violated`.

*Note.* Loaded specifications (from_dict) and ClusterSpec.simple are sound; the constructor itself does not check ranks nor that members are the cluster's own nodes (ranks_checked_violated).

### C34 — Cluster spec dictionary round trip (partial)

Loading a spec from the dictionary it was exported to gives an equal spec.

*Model and proof.* to_dict/from_dict. Round trip with frame conditions on extra fields.

*Theorems.* `Verif/Device/Cluster.lean`: `dict_roundtrip_partial`, `parseRuntime_clean`, `dict_roundtrip_violated`.

*Note.* Round trip for specifications listed in rank order with extra fields that avoid the recognised names; the dictionary drops ranks, so other specifications come back different (dict_roundtrip_violated).

### C35 — Device inference picks the unique legal device (proved)

For a call without explicit device: with all arguments on one device that device is chosen; with several devices the single secure device among them is chosen if there is exactly one, otherwise the call is rejected; inference does not depend on argument order.

*Model and proof.* `_infer_device_from_args`. Complete characterisation and permutation invariance.

*Theorems.* `Verif/Device/Infer.lean`: `infer_iff`, `infer_order`, `devices_exist`.

*Note.* exact characterisation of the inferred device, order independence

### C36 — Device transfers preserve values (partial)

Moving an object between devices (PPU to PPU, to and from SPU, to and from TEE) yields an object on the target device whose plaintext equals the source plaintext, and moving to the same device is a no-op; unsupported pairs raise.

*Model and proof.* All device-to-device transfers composed from SIMP, crypto, TEE and SPU operations; `Real.lean` instantiates the crypto/TEE part with the modelled backends.

*Theorems.* `Verif/Device/TransferProps.lean`: `transfer_preserves`, `transfer_delivers`, `transfer_same`, `transfer_rejected`, `put_host_ok`, `fetch_plain`, `fetch_spu_violated`; `Verif/Device/Real.lean`: `real_contracts`, `real_transfer_delivers`; `Verif/Spu/HostPut.lean`: `host_put_spu`.

*Note.* Transfers preserve plaintexts; the crypto and TEE backends are modelled (real_transfer_delivers), SPU share reconstruction is a library contract; host values put on an SPU are proved under the contract of C125 (host_put_spu); fetch of an SPU object returns the first share (fetch_spu_violated).

### C37 — Collective library helpers (partial)

transfer, replicate, distribute, collect, allreplicate and permute built on shuffle and converge put each value at exactly the documented parties.

*Model and proof.* collective library helpers on the network of C23.

*Theorems.* `Verif/Simp/Collective.lean`: `transfer_correct`, `replicate_correct`, `collect_correct`, `allreplicate_correct`, `distribute_correct`, `permute_correct_partial`, `permute_violated`.

*Note.* All helpers in every schedule; permute only for mappings without exchanges: its documented example deadlocks (permute_violated).

### C38 — Program artifact pack/unpack round trip (partial)

Unpacking a packed compiled program returns the same program, and unpacking validates format name, version, digest and signature so that a corrupted artifact is rejected.

*Model and proof.* Program artifact, sorted-key JSON, digest. Sorting proof, round trip modulo key order.

*Theorems.* `Verif/Tool/ProgramProps.lean`: `artifact_roundtrip_partial`, `artifact_roundtrip_violated`, `unpack_checks`, `digest_binds_graph`, `compiled_valid`, `empty_digest_not_checked`, `unpack_size`; `Verif/Tool/More.lean`: `compiled_header`.

*Note.* Round trip up to the order of dict items; pack sorts keys, which reorders the columns of table types and is invisible to the digest (artifact_roundtrip_violated). json/tar/gzip enter through a lossless contract, sha256 as an arbitrary function.

### C39 — Required world size covers every party the program uses (partial)

The required world size recorded for a program is greater than every party rank that occurs in it, so a program that passes the check never addresses a missing party.

*Model and proof.* `_collect_parties` over nested graphs. Structural induction.

*Theorems.* `Verif/Tool/ProgramProps.lean`: `world_size_covers_partial`, `world_size_violated`; `Verif/Tool/More.lean`: `parties_attribute`.

*Note.* Covers every rank in a 'parties' attribute at any nesting depth; ranks in shuffle routing tables are ignored by the code (world_size_violated).

### C40 — GF(2^128) multiplication (partial)

The field multiplication kernel returns the product of the two polynomials over GF(2) reduced modulo x^128+x^7+x^2+x+1 for all pairs of 128-bit inputs; hence it is commutative, associative and distributes over XOR with unit 1.

*Model and proof.* Bit-level multiplication kernels (python loops; the C++ PCLMUL code with its immediates) versus polynomials over GF(2) modulo x^128+x^7+x^2+x+1, with an irreducibility proof. Carry-less product = polynomial product, reduction congruence.

*Theorems.* `Verif/Kern/Gf128Props.lean`: `gf128_mul_spec`; `Verif/Kern/Gf128Field.lean`: `gf128_ring_laws`, `gf128_no_zero_divisors`, `gf128_inverse`, `gf128_batch_rows`, `gcmP_irreducible`, `gf128_native_partial`, `gf128_native_distrib_partial`, `gf128_native_violated`, `gf128_native_not_assoc`.

*Note.* Fully proved for the Python kernel (reduction modulo an irreducible polynomial, field laws). Violated by the native kernel, whose reduction drops the top 64 bits of the product.

### C41 — OKVS decodes every encoded key (partial)

If encoding keys and values succeeds, decoding any of the keys from the produced table returns its value; encoding succeeds exactly when the peeling of the key hypergraph reaches every key; decode is linear in the table.

*Model and proof.* Peeling loop, reverse assignment, decode, for an abstract hash. Loop invariants; solver succeeds iff the hypergraph is peelable.

*Theorems.* `Verif/Kern/OkvsSolve.lean`: `okvs_decodes_every_key`, `okvs_solves_iff_peelable`, `okvs_rejects_duplicate_keys`, `okvs_decode_linear`, `okvs_native_partial`, `okvs_native_violated`; `Verif/Kern/OkvsOptProps.lean`: `okvs_empty_table`.

*Note.* Fully proved for the Python kernel and for every hash; the native kernel reports success with an all-zero table when peeling fails. The mega-binning kernel okvs_opt.cpp is C79.

### C42 — OKVS hash yields three distinct in-range positions (proved)

For every 128-bit key, seed and table size of at least three the three positions are pairwise distinct and smaller than the table size.

*Model and proof.* Index arithmetic. Modular arithmetic.

*Theorems.* `Verif/Kern/OkvsProps.lean`: `indices_distinct`, `indices_no_collision`, `indices_two_cells`.

*Note.* any two hash words, so Python and native kernels alike; three cells are necessary

### C43 — LDPC encoding is the sparse matrix product over GF(2) (proved)

Encoding returns for each row the XOR of the message blocks selected by that row, and encode(a xor b) = encode(a) xor encode(b).

*Model and proof.* CSR matrix product over GF(2). List induction.

*Theorems.* `Verif/Kern/OkvsSolve.lean`: `ldpc_encode_rows`, `ldpc_encode_linear`.

### C44 — Base oblivious transfer is correct (proved)

In the base OT, for each index the receiver obtains exactly the message selected by its choice bit.

*Model and proof.* Naor-Pinkas style OT over an abstract curve backend (`CurveOk`). Group algebra.

*Theorems.* `Verif/Mpc/BaseOt.lean`: `base_ot_correct`, `base_ot_total`.

*Note.* for every curve backend satisfying the group contract CurveOk

### C45 — OT extension correlation and transfer are correct (proved)

After the OT extension the receiver's row equals the sender's row xor (choice AND sender secret) at every position, and in extended transfer the receiver obtains the chosen message for every index.

*Model and proof.* IKNP over abstract PRG. GF(2) vector algebra.

*Theorems.* `Verif/Mpc/Iknp.lean`: `iknp_correlation`, `iknp_total`, `transfer_ext_correct`, `transfer_ext_total`; `Verif/Mpc/SeedBlock.lean`: `seed_block_iff`, `prg_uses_half`, `prg_blocks`, `rowBytes_get`.

### C46 — VOLE correlation (partial)

The VOLE protocols output vectors with w = v xor u*delta over GF(2^128) at every position, where the sender holds u and v and the receiver holds w and delta (Gilboa, silent and Silver variants).

*Model and proof.* Gilboa, silent, Silver VOLE. GF(2^128) algebra using C40.

*Theorems.* `Verif/Mpc/Vole.lean`: `vole_correlation`, `vole_total`; `Verif/Mpc/Silent.lean`: `silent_vole_correlation`, `silent_total`; `Verif/Mpc/Silver.lean`: `silver_vole_noisy_partial`, `silver_vole_violated`, `silver_ldpc_violated`, `silver_ldpc_prefixes`.

*Note.* Gilboa and silent VOLE proved for every input; violated by both Silver variants (noise term not cancelled, independent u and delta).

### C47 — Expanded randomness does not repeat (partial)

The expanded random vector of the silent VOLE does not reuse the same pseudo-random block for different positions.

*Model and proof.* Chunked expansion. Index arithmetic, general violation.

*Theorems.* `Verif/Mpc/Silent.lean`: `silent_no_repeat_partial`, `silent_value_of_source`, `silent_no_repeat_violated`.

*Note.* violated: mask repetition across chunks of the expanded vector

### C48 — Sparse noise has exactly the requested weight (partial)

The noise generator returns exactly the requested number of distinct positions, all inside the vector.

*Model and proof.* Position generation. Characterisation, witness.

*Theorems.* `Verif/Mpc/Silver.lean`: `sparse_noise_support_partial`, `sparse_noise_weight_partial`, `sparse_noise_violated`.

*Note.* Positions inside the vector and zero elsewhere proved for all draws; violated for three or more positions: the shift past used positions can land on a used one, and the later value overwrites the earlier.

### C49 — OPRF sides agree (partial)

For equal items at the same row the sender's and the receiver's pseudo-random outputs are equal; for different items the pre-hash values are equal only if the codeword difference is masked out by the sender secret.

*Model and proof.* OPRF batch and single evaluation.

*Theorems.* `Verif/Mpc/Oprf.lean`: `oprf_agree`, `oprf_equal_iff_masked`, `itemBit_inj`, `oprf_total`, `oprf_surplus_constant`, `oprf_single_violated`; `Verif/Mpc/Separation.lean`: `hash_inputs_separated`, `transfer_input`.

*Note.* Batch evaluation proved for all inputs; the single-item entry point sender_eval_prf always raises (oprf_single_violated); sender items beyond the number of rows all get one constant output.

### C50 — PSI never misses a common element (partial)

If the encoding step succeeds, every receiver item that is also a sender item is marked in the intersection result, at its own position; marking a non-common item requires a tag collision.

*Model and proof.* RR22 and unbalanced PSI composed from C41, C46.

*Theorems.* `Verif/Mpc/Psi.lean`: `rr22_result`, `rr22_complete`, `psi_intersect_complete`, `unbalanced_complete`, `rr22_native_partial`, `unbalanced_native_partial`, `rr22_native_violated`, `unbalanced_native_violated`; `Verif/Mpc/PsiSound.lean`: `rr22_wrong_mark`.

*Note.* Proved for the Python kernels for every input, hash and table size; with the native kernels a failed encoding is not reported and common elements are missed (…_violated), proved for peelable inputs.

### C51 — Cuckoo placement is a valid injection (proved)

When batch insertion reports success every item sits in one of its own candidate slots, no two items share a slot, slot and position tables agree, and slots already occupied keep their item.

*Model and proof.* Three-round insertion with an arbitrary resolution of concurrent scatter writes. Invariant.

*Theorems.* `Verif/Mpc/Cuckoo.lean`: `cuckoo_valid`, `cuckoo_keeps`, `cuckoo_shared_prefix`.

*Note.* for every outcome of the concurrent scatter writes

### C52 — Oblivious permutation applies the permutation (proved)

The switch controls computed for a permutation make the network output element i equal to the input element perm[i], for every permutation and every length (padding included).

*Model and proof.* Bitonic network with secret swaps. Inductive sorting proof (no zero-one principle), protocol composition with C45.

*Theorems.* `Verif/Mpc/Permute.lean`: `apply_permutation_correct`, `apply_permutation_total`.

*Note.* one-dimensional data (the element-wise transfer rejects other shapes)

### C53 — Rotate-and-sum aggregates the intended slots (partial)

After rotate-and-sum over k slots, slot 0 (and every slot in the replicated variants) holds the sum of the k slots it covers; composed safe rotations equal a single rotation by the requested step.

*Model and proof.* Slot vectors, SEAL rotation semantics. Induction on doubling steps.

*Theorems.* `Verif/Mpc/Aggregate.lean`: `safe_rotate_correct`, `rotate_and_sum_partial`, `strided_sum_partial`, `bucket_aggregate_partial`, `rotate_and_sum_violated`, `bucket_aggregate_violated`, `bucket_straddle_violated`, `bucket_sums_extracted`.

*Note.* for k not a power of two the doubling also adds the slots up to the next power of two; proved when those are zero

### C54 — Group-by sum shares reconstruct the group sums (proved)

The shuffle-based group-by sum returns, for every group, the sum modulo 2^64 of the values assigned to it, whatever masks and permutations are drawn; and the share the receiver sees is perfectly masked.

*Model and proof.* Shuffle group-by composed from C45/C52.

*Theorems.* `Verif/Mpc/Groupby.lean`: `groupby_shuffle_correct`, `groupby_shuffle_total`, `groupby_share_masked`.

### C55 — Tensor shape rules predict the run-time shape (partial)

For transpose, reshape, concat, gather, slice and elementwise ops, whenever the shape rule accepts the arguments, the shape it computes is the shape of the actual result for every run-time shape compatible with the declared one, and the op does not fail for shape reasons.

*Model and proof.* Shape rules versus the numpy semantics in `Arrays.lean`.

*Theorems.* `Verif/Tensor/Transpose.lean`: `transpose_shape_sound`, `transpose_rule_accepts_iff`, `gather_shape_sound`; `Verif/Tensor/Reshape.lean`: `reshape_static_sound`, `reshape_dynamic_partial`, `reshape_dynamic_violated`; `Verif/Tensor/Slice.lean`: `slice_shape_partial`, `slice_static_sound`, `slice_zero_stride_violated`; `Verif/Tensor/Concat.lean`: `concat_shape_partial`, `concat_static_sound`, `concat_dynamic_violated`; `Verif/Tensor/Elementwise.lean`: `elementwise_rule_accepts_iff`, `elementwise_partial`, `elementwise_truncates_violated`, `scatter_rule_accepts_iff`.

*Note.* Static shapes fully proved; with dynamic (-1) dimensions the rules for reshape, slice, concat and elementwise accept programs whose run-time values have another shape or raise (violated witnesses).

### C56 — Reshape element count (proved)

A reshape is accepted only for a target shape describing the same number of elements, with at most one inferred dimension and no other negative dimension.

*Model and proof.* reshape element count rule.

*Theorems.* `Verif/Tensor/Reshape.lean`: `reshape_accepts_iff`, `reshape_dynamic_accepts_iff`.

### C57 — Batched table reading returns every row once (partial)

Concatenating the batches of a table reader, for any batch size and any chunking of the underlying source, gives exactly the rows of the table in order, and every batch but the last has the requested size.

*Model and proof.* Chunked stream reader over native batches. Invariant.

*Theorems.* `Verif/Table/ReaderProps.lean`: `table_reader_native`, `table_reader_partial`, `table_reader_loses_rows_violated`, `read_all_fresh`, `read_all_after_batch_violated`.

*Note.* violated: the reader returns only the first chunk of an accumulated batch

### C58 — Joined table reading never drops rows silently (partial)

Reading several tables column-wise in step either yields all rows of all tables or raises because the row counts differ.

*Model and proof.* Multi-reader. Invariant and witness.

*Theorems.* `Verif/Table/Multi.lean`: `multi_table_partial`, `multi_drops_rows_violated`.

*Note.* violated: rows after the first exhausted table are dropped

### C59 — Attestation quote round trip (proved)

Parsing the bytes of a mock quote gives back the platform, suite and public key, and attesting a generated quote returns the public key that was bound into it.

*Model and proof.* Quote byte layout and JSON. Round trip.

*Theorems.* `Verif/Crypto/Tee.lean`: `quote_bytes_roundtrip`, `quote_bytes_ok_iff`, `quote_json_roundtrip`, `attest_returns_bound_key`, `quote_long_key_truncated`, `quote_truncated_accepted`, `quote_bytes_injective`.

### C60 — Key agreement gives both sides the same key (proved)

Deriving a shared key from one's own private key and the peer's public key gives the same key on both sides for every supported suite name.

*Model and proof.* KEM keygen/derive/HKDF over `CryptoLib.Ok`; TEE session protocol on both transports.

*Theorems.* `Verif/Crypto/KemProps.lean`: `kem_agree`, `tee_session_agree`, `tee_session_transport`, `hkdf_ok_iff`, `kem_fallback_violated`; `Verif/Crypto/Session.lean`: `tee_session_mem`, `tee_session_http`.

*Note.* X25519/HKDF/AES-GCM contracts in CryptoLib.Ok; kem_fallback_violated concerns the unknown-suite fallback, unreachable through kem_keygen

### C61 — Encrypted arithmetic tracks fixed point scale (partial)

Encoding a number in fixed point, adding ciphertexts or multiplying by plaintext and decoding returns the exact result of the same operations on the encoded integers, and integer-typed values are recovered exactly within the plaintext range.

*Model and proof.* Encoder, LightPHE contract, float rounding (round to nearest even on naturals). Induction over expressions.

*Theorems.* `Verif/Phe/Props.lean`: `expr_decrypts`, `expr_exact`, `expr_decodes`, `int_roundtrip_partial`, `float_roundtrip_partial`, `negative_violated`, `negative_decode_violated`, `large_int_violated`, `product_scale_violated`, `tensor_encode_violated`, `encoder_ignores_range`; `Verif/Phe/Error.lean`: `int_roundtrip_error`.

*Note.* Exact for every expression whose value stays within [0,n) and the float range; violated for negative values, integers above 2^53, products (scale counted once) and tensors. LightPHE contract PheLib.Ok.

### C62 — Data type tables are mutually inverse (partial)

Converting a scalar type to an array library dtype and back returns the same type for every supported scalar type.

*Model and proof.* All four conversion tables and the name fallback. Complete characterisation of acceptance.

*Theorems.* `Verif/Tensor/Dtypes.lean`: `dtype_roundtrip`, `dtype_roundtrip_back`, `to_jax_iff`, `from_dtype_supported`, `dtype_injective`, `dtype_roundtrip_violated`, `column_types_agree_partial`, `column_types_violated`, `from_dtype_unsigned`.

*Note.* Mutually inverse on the documented table; u1, i2, i4, u2, u4 convert to a dtype that does not come back; pandas and Arrow readers accept different columns.

### C63 — The OT receiver's choice bit is hidden (proved)

In base OT the message the receiver sends for choice bit 0 and the message for choice bit 1 are equally distributed over its random scalar: every group element is sent for exactly as many scalars in either case, so the sender learns nothing about the bit from it.

*Model and proof.* Distribution of the receiver's message: explicit bijection on the randomness.

*Theorems.* `Verif/Mpc/BaseOt.lean`: `base_ot_choice_hidden`.

### C64 — Generated LDPC matrices are well formed (proved)

The generated Silver matrix has for every row strictly ascending column indices within range, with the documented weight, and the CSR arrays describe exactly those rows, for every random stream and every size.

*Model and proof.* Generation of the LDPC matrix rows and CSR form.

*Theorems.* `Verif/Mpc/Silver.lean`: `silver_rows_good`, `csr_rows`, `silver_matrix_ok`.

### C65 — Sparse and masked aggregation compute the listed sums (proved)

Sparse aggregation returns in every target slot the sum of the slots listed for it and zero in the other slots; masked aggregation returns the slotwise sum of the products and rejects lists of different length.

*Model and proof.* Sparse and masked aggregation on slots.

*Theorems.* `Verif/Mpc/Aggregate.lean`: `aggregate_sparse_correct`, `masked_aggregate_correct`.

*Note.* slots within the first row; a source listed twice counts once

### C66 — Homomorphic group-by returns the exact group sums (partial)

The BFV group-by sum returns for every bin the exact sum of the values assigned to it, for any number of values and bins, whether or not the parties share a process.

*Model and proof.* BFV group-by on slots, all chunks.

*Theorems.* `Verif/Mpc/Groupby.lean`: `groupby_bfv_mod`, `groupby_bfv_partial`, `groupby_bfv_wrap_violated`, `groupby_bfv_empty_bin_violated`.

*Note.* at least one bin (with none the code raises); sums wrap modulo the plain modulus, and across processes a bin absent from a chunk raises; proved otherwise

### C67 — Homomorphic group-by keeps the values from the receiver (partial)

No object sent to the receiver of the BFV group-by lets it decrypt the sender's values.

*Model and proof.* What the receiver gets in the BFV group-by.

*Theorems.* `Verif/Mpc/Groupby.lean`: `groupby_bfv_privacy_violated`.

*Note.* violated: the relinearisation and Galois keys sent to the receiver are the secret context

### C68 — A failed table write leaves no partial file (partial)

When writing a table fails part way, the target path holds no partially written file afterwards, for CSV, Parquet and JSON alike.

*Model and proof.* Writers and the removal of failed output.

*Theorems.* `Verif/Table/Multi.lean`: `failed_write_partial`, `failed_json_write_violated`, `failed_json_first_partial`.

*Note.* violated for JSON

### C69 — Decoding a type from untrusted JSON yields only valid types (proved)

Whatever JSON document from_json is given, it either raises or returns a type in which every component satisfies the documented constructor conditions (power-of-two integer widths, supported float widths, positive or unknown dimensions, scalar vector elements, distinct columns).

*Model and proof.* `tyFromJson` on arbitrary JSON: whatever is accepted passed all constructor checks.

*Theorems.* `Verif/Serde/Accept.lean`: `type_from_any_json_sound`, `type_json_roundtrip_sound`; `Verif/Serde/WireProps.lean`: `type_from_any_bytes_sound`.

*Note.* bfv annotations as enforced by from_json

### C70 — Symmetric encryption round trip and authenticity (proved)

Whatever sym_encrypt returns for a serialisable value under a 16, 24 or 32 byte key, sym_decrypt with the same key bytes (in any key form) returns that value; sym_decrypt succeeds only on a nonce followed by a ciphertext made with that key and nonce, and both operations reject any algorithm but aes-gcm.

*Model and proof.* AES-GCM wrap format over `CryptoLib.Ok`.

*Theorems.* `Verif/Crypto/KemProps.lean`: `sym_roundtrip`, `sym_encrypt_total`, `sym_decrypt_genuine`, `sym_algo_rejected`.

*Note.* AES-GCM contract in CryptoLib.Ok

### C71 — A key value belongs to the suite its type names (partial)

At run time the keys produced by kem_keygen, kem_derive and hkdf carry the suite named in the types announced while tracing.

*Model and proof.* Type-level suite versus the key produced.

*Theorems.* `Verif/Crypto/KemProps.lean`: `keygen_suite_violated`, `keygen_suite_partial`, `derive_suite`, `hkdf_suite`.

*Note.* kem_keygen ignores the suite attribute at run time: violated for every suite but x25519

### C72 — A message arrives as it was sent over every transport (proved)

A value sent by a worker over HTTP (binary body or JSON envelope) or in memory reaches the mailbox of the receiver as the same value, from the same sender rank and under the same key; values that cannot be serialised fail at the sender; a request with a missing or malformed sender rank, an unknown format or a truncated body is refused.

*Model and proof.* HTTP request build and parse, URL path quoting, body kinds, memory transport.

*Theorems.* `Verif/Comm/Http.lean`: `http_delivers`, `encode_fails_iff`, `mem_delivers`, `transports_agree`, `bad_headers_rejected`, `truncated_rejected`, `key_survives_url`, `truncated_raw_violated`.

*Note.* raw-bytes bodies carry no length, so a truncated raw body is not detected (witness); HTTP itself and httpx URL quoting are trusted

### C73 — SecureBoost prediction follows the tree (proved)

For every well-formed tree and every row split over the parties, the value predict gives for the row is that of the one leaf reached by following, from the root, the owner's comparison at each split, whatever the number of parties and the distribution of features.

*Model and proof.* Location matrix of each party, consensus, argmax (one row); invariant of the propagation loop against reachability, uniqueness of the walk.

*Theorems.* `Verif/Sgb/Predict.lean`: `predict_is_walk`, `single_party_mask`.

*Note.* one row at a time; comparison arbitrary, NaN included

### C74 — SecureBoost training and prediction put a sample in the same leaf (partial)

After fit, predict sends every training row to the leaf the row was counted in while the tree was built.

*Model and proof.* Level loop with arbitrary split answers, tree arrays, bt update and merge; loop invariant that the sample's node is on the walk of the tree built so far. Single party: the modelled search, existence of the run.

*Theorems.* `Verif/Sgb/Train.lean`: `training_matches_prediction_partial`, `built_tree_well_formed`, `clamped_threshold_violated`, `rounded_threshold_violated`; `Verif/Sgb/End.lean`: `single_party_training_matches_prediction`.

*Note.* violated when the search answers the bin behind the last boundary or float32 rounds a boundary; proved in full for a single party with exactly stored boundaries

### C75 — The encrypted histogram holds the bucket sums (partial)

For each node and each feature of a passive party, the histogram decrypted by the active party holds, per bucket, the sum of the gradients of the node's samples in that bucket.

*Model and proof.* Packed mask, slotwise product and bucket aggregation over a commutative ring (BFV slot semantics of Verif.Mpc.Aggregate); counting lemma for the mask.

*Theorems.* `Verif/Sgb/Hist.lean`: `enc_hist_value`, `enc_hist_aligned_partial`, `enc_hist_first_bucket`, `enc_hist_small_data_violated`, `enc_hist_violated`; `Verif/Bfv/Props.lean`: `hist_empty_node_violated`; `Verif/Sgb/Boost.lean`: `encrypted_sum_exact_partial`, `default_modulus_overflow_violated`; `Verif/Sgb/Skew.lean`: `enc_hist_window`, `enc_hist_balanced_partial`, `skewed_bucket_violated`; `Verif/Sgb/Pipeline.lean`: `histogram_reads`, `histogram_correct_partial`, `histogram_flat_violated`, `default_histogram_flat_violated`.

*Note.* violated: the mask assumes samples are moved to their bucket's region but the ciphertext keeps them in order; from the gradients to the cumulative histogram over any number of chunks (histogram_correct_partial); the division by the scale is exact in the model, float32 in the code

### C76 — The split search finds the best split (partial)

For each node the search returns a feature and bin in range whose gain, computed from the samples of the node, is the largest among all features and bins respecting min_child_weight, and no split when there is none.

*Model and proof.* segment_sum histogram, cumulative sums, gain, argmax over rationals with bottom for -inf; optimality against gains computed from the samples.

*Theorems.* `Verif/Sgb/Split.lean`: `local_hist_correct`, `local_split_optimal`, `local_split_in_range`, `pp_left_sum`, `pp_split_violated`.

*Note.* proved for the active party (exact arithmetic); violated for passive parties, whose histograms are accumulated twice

### C77 — Histogram subtraction (proved)

At every level the histogram derived for a right child as parent minus left child is the histogram of the samples in that child, for every node a sample can be in.

*Model and proof.* Level recursion of derived histograms; induction over levels, samples routed as the modelled training loop routes them.

*Theorems.* `Verif/Sgb/Hist.lean`: `subtraction_correct`, `subtraction_below_leaf`; `Verif/Sgb/End.lean`: `levels_routed`.

*Note.* exact arithmetic; decrypted left histograms taken as given (C75)

### C78 — Leaf values are optimal for the samples predicted into the leaf (partial)

The value of a leaf minimises the regularised second-order loss over exactly the training rows that predict sends to that leaf.

*Model and proof.* Leaf value from segment sums; completing the square; C74 identifies the samples.

*Theorems.* `Verif/Sgb/End.lean`: `leaf_value_optimal_partial`.

*Note.* under the conditions of C74 (boundaries in range and stored exactly); exact arithmetic

### C79 — Binned OKVS (partial)

If solve_okvs_opt succeeds, decode_okvs_opt of any of the encoded keys, in any number, returns its value, whatever kernel (Python, naive native, binned native) the back end picks and however the threads take the bins; decode is linear in the table.

*Model and proof.* Bins as disjoint slices of one table, tasks folded in any permutation; invariant on bin views; peeling of the whole key set restricts to bins.

*Theorems.* `Verif/Kern/OkvsOptProps.lean`: `okvs_opt_decodes_partial`, `solveOpt_views`, `okvs_opt_decode_linear`, `optRow_distinct`, `okvs_opt_fallback_violated`, `okvs_opt_subset_violated`.

*Note.* Proved for every environment and schedule when the rows can be peeled and the query list selects the kernel that encoded; violated: an unpeelable bin is reported as success, and fewer than 200000 queries read the other kernel's cells.

### C80 — Seed expansion (partial)

aes_expand returns for each seed a block sequence that depends only on the seed (not on the other seeds, the order of threads or the requested length), the blocks of a seed are distinct, and different seeds have unrelated expansions.

*Model and proof.* Stores of the threads in any permutation of (seed, block) pairs; last write per cell; injectivity of the cipher.

*Theorems.* `Verif/Kern/Expand.lean`: `expand_native_blocks`, `expand_native_stable`, `expand_native_distinct`, `expand_fallback_blocks`, `expand_related_seeds_violated`; `Verif/Kern/ExpandMixed.lean`: `expand_same_workers`, `expand_mixed_violated`, `expand_fallback_range_violated`.

*Note.* Blocks depend only on the seed and are distinct; violated: seeds that differ in the low bits share their blocks (fixed-key AES of seed xor counter).

### C81 — SPU links and runtimes (partial)

An SPU execution on a worker runs with the settings its configuration names, on a link whose peers are the parties of this SPU in their order, which no other request or configuration shares, and which meets the same request at the other parties; its messages arrive byte for byte, are never mixed with other traffic on the communicator, and the result depends only on this call's arguments.

*Model and proof.* Worker state = template links with spawn counters and the runtime caches of all jobs; invariant over histories; simulation between two parties of one group; keys as strings; runtime as variable table.

*Theorems.* `Verif/Spu/Link.lean`: `runtime_settings`, `brpc_link`, `runtime_reused`, `runtimes_isolated`, `exec_call_places`, `exec_call_refused`, `channel_peers_partial`, `links_meet_partial`, `wrong_peers_violated`, `link_order_violated`, `tags_shared_violated`; `Verif/Spu/Channel.lean`: `spu_bytes_delivered`, `channels_match`, `spu_keys_disjoint`, `spu_key_survives_url`, `execute_result`, `execute_history`, `spu_job_name_violated`; `Verif/Simp/PartyScope.lean`: `parties_lexical`, `parties_contain_self`, `parties_meet`, `participants`.

*Note.* Settings, brpc peers, reuse, isolation, byte transport, key separation and history independence proved for all histories; peers over the communicator only when all SPU calls of the worker name the same parties, and links meet only when all parties start the jobs in the same order: both violated otherwise. libspu's spawn numbering and kernel contract are assumptions.

### C82 — SPU configuration round trip and merge (partial)

An SPU configuration written to JSON and read back means the same settings and the same link options; settings in runtime_config win over top-level ones and those over the defaults; the link options of an SPU override the process defaults one by one; profiling flags are never taken from truthiness.

*Model and proof.* Configurations over arbitrary setting values, JSON as association lists; characterisation of the round trip by cases on the optional fields.

*Theorems.* `Verif/Spu/Config.lean`: `config_roundtrip_iff`, `roundtrip_effective`, `merge_options`, `from_dict_precedence`, `flag_accepted`, `empty_protocol_violated`, `empty_link_desc_violated`, `from_dict_flags`; `Verif/Spu/Env.lean`: `link_settings`, `env_ok_iff`, `bad_env_violated`, `options_brpc_only`.

*Note.* Exact characterisation of the configurations that come back equal; violated for an empty protocol name (changes meaning) and an option-free link description (comes back as None, same meaning). Every option of a brpc link is traced to link_desc, the environment, mplang or libspu; violated by a malformed number in the environment, which makes every request of the worker fail.

### C83 — Vector columns expand to the vectors they stand for (partial)

For a dense, sparse or one-hot vector column, reading one item, converting to a Python list and converting to a numpy matrix describe the same vectors: entry j of row i is the stored value (a sparse position not listed is 0, a one-hot row has a single 1 at its index), a null row is never silently dropped, and row i of the feature matrix of a table belongs to row i of every other column.

*Model and proof.* Arrays as in the Arrow layout (values, indices, offsets, validity); item, to_pylist, to_numpy transcribed; equality by induction over rows and index lists; witnesses on small arrays.

*Theorems.* `Verif/Arrow/VectorProps.lean`: `sparse_item_agrees_partial`, `sparse_duplicate_violated`, `one_hot_item_agrees`, `one_hot_single`, `one_hot_numpy_pylist`, `dense_rows_partial`, `dense_null_violated`; `Verif/Arrow/TableProps.lean`: `table_matrix_partial`, `table_null_refused`, `table_null_misaligned_violated`.

*Note.* violated for repeated sparse indices (item takes the first, to_numpy the last) and null dense rows (dropped, so a feature matrix is misaligned); proved otherwise

### C84 — Vector types keep their meaning (partial)

A vector type can be built exactly for the documented sizes and value types, equal types have equal hashes, its metadata reads back to an equal type, and a column written to Arrow IPC comes back with the same vector type; one_hot only builds arrays whose indices are in range.

*Model and proof.* Types as records with their checked constructors; metadata as strings with a reader for the JSON subset used; IPC as reading under a registry; cases on the registry.

*Theorems.* `Verif/Arrow/Types.lean`: `built_sound`, `vtype_eq_hash`, `type_names_roundtrip`, `meta_roundtrip_partial`, `sparse_meta_violated`, `ipc_forgets_violated`, `ipc_keeps_if_registered_partial`, `ipc_changes_matrix_violated`, `one_hot_type`, `one_hot_unchecked_violated`; `Verif/Arrow/OneHotFn.lean`: `one_hot_values`, `one_hot_matrix_partial`, `one_hot_range_violated`, `registered_forgets`, `registered_four`, `registered_four_violated`, `integer_ranges`.

*Note.* violated: sparse metadata never reads back, no vector type is ever registered so IPC forgets all of them, one_hot does not check the range; proved for construction, equality, and metadata of dense and one-hot types

### C85 — Table and tensor conversion (partial)

table2tensor is accepted exactly for non-empty tables of one numeric column type, and the tensor it produces at run time has the static type; tensor2table is its inverse: converting there and back restores the rows, the columns in order and the values.

*Model and proof.* Abstract-evaluation rules over schemas, run-time tables as column lists, tensors as row-major lists; round trip by list algebra.

*Theorems.* `Verif/Arrow/Convert.lean`: `table2tensor_rule`, `tensor2table_rule`, `table2tensor_typed_partial`, `table2tensor_rows_checked`, `table2tensor_width_violated`, `tensor_table_tensor`, `table_tensor_table`, `tensor2table_width_checked`, `table2tensor_rows`.

*Note.* violated: the number of columns is not checked at run time, so a table wider than its type yields another shape; round trips proved both ways

### C86 — SQL queries see exactly the tables they are given (partial)

The result of run_sql is the answer of its query to the tables passed in, with the names passed in, no matter which queries ran before, which results were already read, or in which order lazily evaluated results are forced; a table value once obtained never changes.

*Model and proof.* Connection state = catalogue of registered names to relations; query answers are a parameter monotone in the catalogue; invariant over histories.

*Theorems.* `Verif/Table/SqlProps.lean`: `held_tables_stable`, `sql_result_partial`, `fresh_query_answered`, `hidden_table_violated`, `name_clash_violated`, `read_between_violated`.

*Note.* SQL semantics a parameter assumed monotone in the visible tables; violated when queries share a connection

### C87 — Files travel through the object store unchanged (partial)

A table written to a store URI by one party and read back there is the table written; a write refuses to overwrite; parties of one process do not see or overwrite each other's files; download and upload touch only the store and the temporary directory.

*Model and proof.* File system with symbolic links and bounded link following, store root, `.tmp` directory; operations transcribed; update/lookup lemmas; witnesses with two parties.

*Theorems.* `Verif/Store/TransferProps.lean`: `download_delivers`, `upload_refuses`, `upload_delivers_partial`, `write_read_partial`, `cross_party_read_violated`, `write_after_read_violated`, `cross_party_write_violated`, `upload_self_link_violated`, `local_copy_escapes_violated`, `download_missing_refused`.

*Note.* violated: .tmp paths are shared by all parties of one working directory, and writes after reads go through links into the store; proved for a single party with fresh paths

### C88 — Calling a defined function equals calling the Python function (partial)

func.call on a handle made by func.func from a Python function, with arguments of the same structure, yields what the Python function yields on them; a wrong number of arguments is refused, and values the function captures from its surroundings are those present when it was defined.

*Model and proof.* `func.func` as tracing (C08's `trace`) without binding the captured values, `func.call` as `evalSync` on the traced graph; reuse of trace-then-evaluate; witnesses for captures and foreign handles.

*Theorems.* `Verif/Trace/Func.lean`: `call_applies_partial`, `call_arity_checked`, `func_capture_violated`, `func_handle_input_violated`.

*Note.* proved for functions that capture nothing; violated: captured values are dropped and handles that come from outside the current trace cannot be called

### C89 — Tables kept in files (partial)

A table written to a path and read back from it with the same format is the table written, other files are untouched, and a table value once read does not change when files are written later; a table name given to SQL names exactly that table, and a column that can be opened can be used in SQL; a Parquet file read with a declared schema delivers exactly the declared columns, in the declared order and types, whatever else the file has.

*Model and proof.* Directory as map from paths to file contents, lazily read tables as (path, format) until forced, write as truncate-then-stream; DuckDB quoting and type names at character level.

*Theorems.* `Verif/Table/FilesProps.lean`: `write_read_back_partial`, `write_succeeds_iff`, `write_frame`, `write_back_destroys_violated`, `write_back_json`, `value_stable_partial`, `lazy_value_changes_violated`, `same_hint_roundtrip`, `default_formats_violated`, `quoted_name_read`, `quote_injective`, `sql_and_open_agree_partial`, `sql_f16_violated`, `duckdb_names_distinct`, `write_rule_iff`; `Verif/Table/Parquet.lean`: `parquet_open`, `parquet_read`.

*Note.* violated: writing a lazily read table to its own path destroys it, later writes change lazily read values, default formats of read and write differ, f16 columns open but not in SQL; proved otherwise

### C90 — run_jax computes the function it is given (partial)

tensor.run_jax(f, *args, **kwargs) evaluated on inputs of the declared types returns what jax returns for f on those inputs, with the declared output types, for any number of earlier compilations and however often the operation is executed; inputs whose shape is not the declared one are refused, and dimensions declared unknown accept every length.

*Model and proof.* `compile_jax`, the registry of compiled modules, the type strings sent to stablehlo-opt, `run_jax` in both branches and the execution with its shape checks and conversions; jax, XLA, stablehlo-opt and SHA-256 are the structure `JaxLib` with the contract `JaxLib.Ok`; invariant over the compile history.

*Theorems.* `Verif/Jax/RunProps.lean`: `run_jax_history`, `type_string_iff`; `Verif/Jax/RunMain.lean`: `run_jax_result_partial`, `run_jax_converts`, `static_shape_checked`, `dynamic_result_iff`, `run_jax_output_types_partial`, `compilation_ids_distinct`, `unknown_sizes_violated`, `unknown_matrix_violated`, `unknown_empty_violated`, `dynamic_dtype_violated`, `dynamic_x64_violated`, `dynamic_complex_violated`, `bfloat16_output_violated`, `retrace_violated`, `dimension_names`, `dynamic_iff`.

*Note.* proved for static shapes; violated: all unknown dimensions share one name, so different lengths, non-square matrices and empty tensors are refused; with unknown dimensions nothing is converted; bfloat16 outputs are typed f16; retracing yields a different operation

### C91 — Constants embedded in a program (partial)

A constant put into a traced program evaluates to exactly the array that was given; equal constants of one trace share one value and different ones are never merged; a reused tracer does not answer with values of an earlier graph.

*Model and proof.* The constant cache of the tracer as an association list keyed by (bytes, shape, type), numpy bytes with dtype name and byte order; invariant over histories of constants, emitted operations and resets.

*Theorems.* `Verif/Jax/Constant.lean`: `constant_value_partial`, `constant_accepted_iff`, `constant_shared_iff`, `constant_byte_order_violated`, `constant_bfloat16_violated`, `constant_reset_violated`.

*Note.* violated for big-endian arrays, bfloat16 and reset tracers; proved otherwise

### C92 — Homomorphic integer programs (partial)

A program of BFV operations (encode, batch_encode, encrypt, add, sub, mul, relinearize, rotate, rotate_columns, decrypt, decode, moves between processes) that the type rules accept runs to the end and decodes to the slot-wise arithmetic modulo the plaintext modulus on the encoded vectors, as centred remainders, with the declared shape and element type.

*Model and proof.* Straight-line programs over a library structure `Seal` with contract `Seal.Ok` (noise permitting); the backend's shortcuts for zero, contexts and errors are modelled, the specification is a separate interpreter on vectors over ZMod t; simulation by induction on the program.

*Theorems.* `Verif/Bfv/Sound.lean`: `bfv_program_sound`, `bfv_decoded`; `Verif/Bfv/Props.lean`: `encrypt_decrypt`, `decoded_type_partial`, `decoded_type_violated`, `too_long_violated`, `decode_encode_violated`, `encrypt_decrypted_violated`, `sub_self_violated`, `zero_product_violated`, `zero_after_wire_violated`, `mixed_keys_violated`; `Verif/Bfv/Keys.lean`: `derived_keys_iff`, `crypt_keys_iff`, `evaluation_keys_iff`, `arith_types_iff`, `no_private_no_decrypt`, `handler_needs_keys`, `coding_types_iff`.

*Note.* whatever a program returns is proved right; that accepted programs run to the end is violated: zero products, self-subtraction, two plaintext representations sharing a type, zero masks after a move, wrong declared shapes, mixed keys

### C93 — Homomorphic key generation is fresh (partial)

Every call of bfv.keygen gives its caller a key pair of its own.

*Model and proof.* The process-wide cache as an association list, histories of calls; invariant of the cache.

*Theorems.* `Verif/Bfv/Keygen.lean`: `keygen_shared_violated`, `keygen_distinct_partial`, `keygen_after_clear`, `clear_separates`.

*Note.* violated: a process-wide cache hands the same pair to every caller with the same parameters; proved: distinct for different parameters or processes

### C94 — Typed encrypted programs (partial)

phe.add and phe.mul_plain accept exactly a ciphertext with a ciphertext of the same scheme (add only) or with an encoded integer, in either order, with compatible shapes, and give a ciphertext; an accepted program runs without type errors to values of the declared types and computes on ciphertexts what the same program computes on integers; without a private key a program reveals nothing about what is encrypted.

*Model and proof.* Type rules and dispatch transcribed; run-time programs over one library per key; specification is a separate integer interpreter; secrecy as a relation between two runs.

*Theorems.* `Verif/Phe/Typed.lean`: `add_type_iff`, `mul_type_iff`, `arith_type_comm`, `encode_ct_accepted_violated`, `decrypt_scheme_violated`; `Verif/Phe/TypedRun.lean`: `phe_program_sound`, `phe_types_sound_partial`, `phe_secrecy`, `decrypt_needs_private`, `encode_ct_violated`, `decoded_type_violated`, `public_key_decrypts_violated`, `mixed_keys_violated`, `scheme_names_violated`, `keygen_accepts_iff`.

*Note.* types of arithmetic, meaning of programs under one key and secrecy without a private key proved in full; violated: encoding a ciphertext is accepted, decoded values are always declared f64, keys and ciphertexts of different pairs mix, the public key object is the private key, two documented scheme names are unknown to the library; tensors in the type rules only (C61: they fail at run time)

### C95 — Curve programs compute in the curve group (partial)

Every program of ec_generator, ec_mul, ec_add, ec_sub, ec_point_to_bytes, ec_bytes_to_point, scalars, select and sending computes, whenever it runs to the end, what the same program computes in the curve group; it runs to the end exactly when no addition has opposite operands and no subtraction equal ones; values have the declared types.

*Model and proof.* Points as byte strings parsed when used, None as identity; coincurve as a structure with a group contract; specification is a separate interpreter in the group; simulation over the program.

*Theorems.* `Verif/Crypto/CurveProps.lean`: `curve_program_sound`, `curve_program_runs_iff`, `curve_types_sound`, `curve_types_iff`, `point_bytes_len`, `sub_self_violated`, `identity_bytes_violated`, `curve_mixed_violated`, `scalar_as_point_violated`.

*Note.* results, exact failure condition and types proved; violated: a point minus itself (or plus its opposite) raises instead of giving the identity, the identity does not survive being written to bytes, curve names are never checked and every curve has secp256k1's generator, scalars are accepted as points

### C96 — Batch hashing (partial)

hash_batch of a tensor of shape (..., D) with D > 0 has shape (..., 32), and the 32 bytes at each batch index are the digest of that row's bytes alone; vectors and scalars are one row; the declared shape is the actual one.

*Model and proof.* Arrays in row-major order; row of an index specified by element access, not by the reshape; induction over ranks via ravel.

*Theorems.* `Verif/Crypto/Hash.lean`: `hash_batch_rows`, `hash_batch_single`, `hash_batch_type`, `hash_batch_local`, `hash_batch_empty_violated`.

*Note.* violated for rows of no bytes: the type rule declares a result, the run raises

### C97 — Random bits, tensors and scalars are uniform (partial)

When os.urandom is uniform: random_bits(n) gives n bits and every bit vector is equally likely; random_tensor gives every tensor of the shape and element size with equal probability; ec_random_scalar gives every scalar below the order with the same probability.

*Model and proof.* Counting preimages: bijections between byte strings and digit lists, then cardinalities of fibres.

*Theorems.* `Verif/Crypto/Random.lean`: `random_bits_values`, `random_bits_uniform`, `random_tensor_uniform`, `random_tensor_size`, `random_scalar_count_partial`, `random_scalar_near_uniform`, `random_scalar_violated`, `random_bool_violated`.

*Note.* bits and tensors proved uniform by counting; scalars are not exactly uniform (32 bytes modulo the order): the count per scalar is proved, and the distance is bounded (below 2^-127 for secp256k1); random_tensor of bool is far from uniform (a byte is true unless it is 0)

### C98 — Bits and bytes are converted back (partial)

bytes_to_bits lists the bits of each byte lowest first, and bits_to_bytes(bytes_to_bits(x)) = x.

*Model and proof.* Digits of a byte in both orders; induction over the byte string.

*Theorems.* `Verif/Crypto/Random.lean`: `bytes_to_bits_spec`, `bits_round_trip_partial`, `bits_round_trip_iff`, `little_round_trip`, `bits_round_trip_violated`.

*Note.* bytes_to_bits proved; the round trip is violated: it reverses the bits of every byte, and is the identity exactly on bytes that read the same both ways

### C99 — The native kernels stay inside their buffers (proved)

Given buffers as long as announced, the native OKVS solver and decoder, sparse encoder, field multiplication and seed expansion never read or write outside an array and always end; the solver leaves the same table as the reference algorithm, so that with three or more cells decoding gives every key's value or the keys cannot be peeled and the table is zero.

*Model and proof.* Checked lists for every C++ array; counting-sort invariant for the CSR arrays; simulation of the peeling loop against the abstract peeling state; termination by queue length plus three times the remaining rows.

*Theorems.* `Verif/Kern/NativeSafe.lean`: `native_solve_safe`, `native_store_decodes`, `native_decode_safe`, `native_mul_safe_iff`, `native_expand_safe_iff`, `native_ldpc_agrees`, `native_solve_needs_values`, `native_solve_no_cells`.

*Note.* every array access of the C++ code is checked in the model; C++ int counters are taken as unbounded (3n and m below 2^31), OpenMP loops in index order

## Disagreements found

Each entry is a place where the code does not do what the property (usually its own documentation) says; a machine-checked
witness or a general theorem is named.

* C04: tables equal up to column order are `==` but hash differently (`type_eq_implies_hash_eq_violated`).
* C05: after a rejected `add_op`, an input named like a generated value makes the read back fail (`graph_json_roundtrip_violated`).
* C08: eager calls skip primitives without outputs (`eager_call_no_output_violated`).
* C10: a root context forced inside a `with` is popped by its exit; `find_context_with_state` raises under a tracer.
* C14: every uncached request evaluates the whole graph again (`lazy_op_runs_once_violated`).
* C15: attributes without stable form are left out of the key; the key cached on a graph survives its modification.
* C16: a value with dynamic party set given to a static call breaks party typing (`party_types_violated`).
* C18: pcall_dynamic runs the function also where inputs are missing (`pcall_dynamic_violated`).
* C19, C37: two parties exchanging values in one shuffle never return; the documented `permute` example is one
  (`shuffle_swap_violated`, `permute_violated`).
* C24: child communicator names depend on the order in which operations start (`scope_order_violated`).
* C26: an operation failing with TimeoutError leaves its handle pending (`wait_timeout_violated`).
* C28: a put that fails while pickling destroys the old value; different URIs name one file; `exists` is true for directories.
* C30: `../node10/x` under root `node1` is accepted (`inside_root_violated`).
* C31: a poll can see SUCCESS without result; early reuse of an id mixes results.
* C33, C34: the ClusterSpec constructor does not check ranks; the dictionary form drops them.
* C36: fetch of an SPU object returns the first share (`fetch_spu_violated`).
* C38: pack sorts keys, which reorders table columns, invisibly to the digest (`artifact_roundtrip_violated`).
* C39: ranks in shuffle routing tables are ignored by the world size check (`world_size_violated`).
* C40: the native GF(2^128) kernel drops the top 64 bits of the product (`gf128_native_violated`).
* C41, C50: the native OKVS solver returns an all-zero table on failure; PSI then misses common elements.
* C46: both Silver VOLE variants do not satisfy w = v + u·Δ.
* C47: silent OT repeats its masks from chunk to chunk.
* C48: sparse noise positions repeat.
* C49: `sender_eval_prf` always raises; surplus sender items share one output.
* C53, C66: rotate-and-sum adds foreign slots for a non power of two; group sums wrap; an absent bin raises.
* C55: shape rules for unknown dimensions accept programs whose values have another shape.
* C57, C58: the table reader loses rows; the multi-reader stops at the first exhausted table.
* C61: PHE fixed point fails on negative values, integers over 2^53, products; the backend module is imported by no loader and
  `TensorValue` has no arithmetic, so the operations do not run unless the user imports and unwraps.
* C62: u1, i2, i4, u2, u4 do not survive the dtype round trip; `bfloat16` is read as f16; pandas `boolean` and `timedelta64`
  columns are accepted by one of the two column readers only.
* C67: the relinearisation and Galois keys sent to the receiver are the secret context.
* C68: a failed JSON write leaves a partial file.
* C71: `kem_keygen` ignores its suite.
* C74: `n_buckets = max_bin + 1` lets the search answer a bin with no boundary; training sends everybody left, prediction compares
  with the last boundary (`clamped_threshold_violated`). Thresholds are float32, features may be float64 (`rounded_threshold_violated`).
* C75: `_build_packed_mask_jit` computes where samples *should* be scattered but nothing scatters the ciphertext: bucket b receives
  the slots b*stride, ...; with at most 8192/(max_bin+1) samples every bucket but the first is reported empty
  (`enc_hist_small_data_violated`).
* C76: `_process_decrypted_jit` returns running sums, `compute_best_split_from_hist` accumulates them again, so passive parties report
  positive gains where no admissible split exists (`pp_split_violated`).
* C79: `decode_okvs_opt` chooses the kernel by the number of queried keys, so fewer than 200000 queries against a table of 200000 or
  more keys read the wrong cells; a bin that cannot be peeled falls back to a solver with another hash and never raises.
* C80: `aes_128_expand` is AES under a fixed key of seed xor counter, so seeds differing in the low bits share their blocks.
* C81: the SPU link and runtime cache keys lack the parties (two SPU devices with equal configuration on one worker share one
  link to the wrong peers) and spawned links are numbered by local start order, so jobs started in different orders at two
  parties are connected crosswise; all templates share one tag namespace.
* C82: an empty `brpc_channel_protocol` overrides the local default but is lost in JSON; `SPULinkDesc()` comes back as `None`.
* C83: `item` of a sparse vector takes the first of repeated indices, `to_numpy` the last; null rows of a dense vector column are
  dropped, so the rows of `table_to_numpy` no longer belong together.
* C84: sparse metadata is never accepted by its own reader; the registration call is wrong, so a column read from IPC is no longer a
  vector column (and its matrix changes); `one_hot` accepts out-of-range indices.
* C85: the number of columns is never checked at run time.
* C86: a query sees tables registered by earlier queries on the same connection; two independent queries that give one lazy input the
  same name clash; reading a table between two queries makes the second one refuse.
* C87: `.tmp/<path>` is shared by all parties of one working directory: alice's lazily read table becomes bob's file, a write
  after a read goes through the link and overwrites the stored file without the overwrite check, also another party's; uploading the
  same file twice can leave a link to itself; `..` in a key escapes `.tmp`.
* C88: values captured by a function given to `func.func` are dropped, so the call is always refused (or a surplus argument takes
  their place); a handle that comes from outside the current trace (a parameter, a region, eager mode) can never be called.
* C89: writing a lazily read table back to its own path destroys it (parquet is deleted, csv truncated); a lazily read value changes
  when its file is rewritten; `write` defaults to parquet whatever the extension while `read` goes by the extension; f16 columns
  open but cannot be used in SQL.
* C90: unnamed unknown dimensions all get the same symbolic name, so two arguments of different lengths, a non-square matrix or an
  empty tensor are refused at run time; with unknown dimensions inputs are not converted (float64 for f32 is refused, 64-bit types
  under jax's default configuration, complex types); bfloat16 outputs are typed f16; the counter in `text_ref` makes retracing the
  same function give a different operation.
* C91: a big-endian array is read back in machine order (1 becomes 16777216); bfloat16 becomes float16 with the same bytes
  (1.0 becomes 1.875); a tracer used again after reset answers with a value of the old graph.
* C92: a product with a batch-encoded zero vector is an empty ciphertext that cannot be decrypted, subtracted, multiplied, moved to
  the other row or sent (assuming SEAL refuses empty ciphertexts, as its validity check does); `sub(c, c)` is refused; `decode`
  of an `encode` result and `encrypt` of a `decrypt` result are well typed and fail; a received ciphertext cannot be multiplied
  by a zero tensor; the declared shape and dtype of a decoded tensor are those of the encoder and the original tensor, whatever
  the key; ciphertexts and keys of different key pairs have the same types.
* C75: a tree node without samples (every node below an early leaf) stops the encrypted training for the same reason.
* C93: all parties of a simulation and all sessions of a worker that ask for the same parameters get the same secret key.
* C94: `phe.encode` accepts ciphertexts and encoded integers (both are scalar types); the former raises at run time. `phe.decode`
  declares f64 whatever the encoder was made for. Types name the scheme but not the key, so ciphertexts of different keys are
  added and decrypted to garbage; `decrypt` does not even compare schemes. `keygen` returns the same object as public and private
  key: whoever receives the "public key" holds the secret one. `scheme="elgamal"` and `"okamoto-uchiyama"` are capitalised to
  names LightPHE does not have (its own names taken from its documentation).
* C95: `ec_sub(p, p)` and `ec_add(p, -p)` raise (coincurve refuses the point at infinity) although `None` stands for the identity;
  `ec_bytes_to_point(ec_point_to_bytes(identity))` gives an object that raises when used; the `curve` attribute is never read by a handler
  and never compared by a type rule.
* C96: `hash_batch` of a tensor whose last dimension is 0 raises at run time (`reshape(-1, 0)`), although its rows have a digest and the
  type rule declares one.
* C97: `ec_random_scalar` reduces 32 random bytes modulo the order, so the smallest 2^256 - N scalars (0 included) are twice as likely; the
  bias is below 2^-127.
* C98: `bytes_to_bits` lists bits lowest first, `bits_to_bytes` packs highest first: the byte 1 comes back as 128.
* C100: the field type rules check nothing: `mul` by one shared factor of shape (2,), `solve_okvs` with fewer values than keys,
  `aes_expand` of a single seed vector and `decode_okvs` of a flat storage are accepted and make native code read past a buffer;
  `m = 0` divides by zero in native code (SIGFPE); `aes_expand` regroups wider rows and returns more rows than declared; `mul`, `solve_okvs` and
  `decode_okvs` declare the operand's element type although they always return u64.
* C75, overflow: keys are generated with the default plaintext modulus 1032193 while gradients are scaled by 2^15, so that a bucket
  sum is only safe up to 15 samples: 32 positive samples of a balanced data set have gradient sum -16, which decrypts to +15.5
  (`default_modulus_overflow_violated`).  The source warns about large data sets, but the class offers no way to set the modulus.
* C104: with the default `max_bin = 8` there are nine buckets in 8192 slots and bucket 4 (slots 3640 to 4549) crosses the row
  boundary at 4096.  From the 457th feature of a passive party on, rotations wrap inside the row: the feature's bucket 4 reads
  empty and its content is added to bucket 0 of another feature (`packing_row_violated`).
* C106: `_generic_simp_dispatch` submits without a job id, so every request runs in the context "anonymous" with counters from zero.  Two
  threads evaluating programs on one simulator or cluster receive each other's messages (`anonymous_requests_mix_violated`) or fail with
  "Mailbox overflow" (`anonymous_requests_fail_violated`), although request.py promises isolation.  Even with ids the simulator's pool of
  `world_size` threads (and the HTTP driver's, which also blocks one thread per submitted party) deadlocks when the submissions of two
  requests interleave (`pool_interleaved_violated`).
* C107: results of `mp.evaluate(mp.compile(fn))` carry no device attribute, so `mp.fetch` returns a list with one entry per party where the same
  call without `mp.compile` returns the value (`fetch_after_compile_violated`; the authors' TODO in tutorials/05_run_sql.py).  `device.fetch`
  documents "returns reconstructed value" for SPU objects and returns the first party's share (`fetch_spu_violated`).
* C108: an SPU whose members are not listed in ascending rank order deals and gathers shares in member order (api.py:505-564) while `pcall_static`
  sorts the parties (simp.py:410) and libspu's rank is the index in the sorted tuple (spu_impl.py:268-270); for a sharing scheme in which the
  order of shares matters the device computes on the wrong value (`spu_order_violated`).
* C109: `_evaluate_graph_async` never restores the thread-local communication context (interpreter.py:1137-1188) and takes whatever is left as root
  of the next evaluation (:1025); in a loop whose body exchanges a value and then calls a function on one party only, the second exchange happens in
  different scopes on the two parties and never completes (`loop_scopes_violated`; needs an executor, which no shipped cluster sets).
  `_evaluate_graph_sync` has no `finally`: after a failed evaluation `current_comm_ctx()` outside of any evaluation succeeds although it should raise
  (`outside_violated`).
* C110: `concat([x, array])` records `concat([x])`: `Tracer.bind_primitive` keeps only trace objects among the positional arguments (tracer.py:138-139), so
  for rules taking any number of inputs (`tensor.concat`, `simp.converge`, `table.write`, `spu.reconstruct`) other arguments vanish without an error
  (`constants_dropped_violated`, `concat_array_violated`); objects given as keyword arguments become attributes although `bind` promises a TypeError
  (primitive.py:222); operations with instance-level handlers never appear in the profile (`own_handlers_unprofiled_violated`).
* C112: `SecureBoost(max_depth=0)` is accepted, but `fit` with a passive party raises: `owned_party` is made at the active party (sgb.py:1246-1251) and only
  the level loop shares it (:1052-1068), while `predict_tree` uses it at every party (:1490-1497); the comment "owned_party is already converged"
  (:1384) is wrong when there is no level (`fit_depth_zero_violated`).
C114: `wait_pending_sends` drops every exception of a send (http.py:564-568) and nothing else looks at the futures of `send`, so `POST /exec` answers with a result although a message of the request never left (lost_message_reported_ok_violated); the receiver only notices by its receive timeout. The 120 s timeout of the wait is dropped the same way (late_message_violated). Payloads that cannot be serialised raise before the `try` of `_do_send` and appear in neither `messages_sent` nor `send_errors` (unbuilt_send_uncounted_violated).
C115: the docstring of `oblivious_groupby_sum_shuffle` says the helper learns the bin sizes; it is sent the bin of every row (groupby.py:311), so it learns the whole assignment. The proved statement is that it learns nothing more.
* C117 (view of the receiver): the keys moved to the receiver for relinearisation and rotation are the secret context, so at the end of every run the receiver can decrypt the sender's chunks: `groupby_bfv_receiver_view_violated`.
C119: mplang/cli.py. (a) run with -c ignores --endpoints while worker/up/status follow it; (b) a host name beginning with "http" is taken as a URL by normalize_endpoint (cli.py:105) but gets http:// from the driver; (c) objects has no --base-port, so without a config file it asks port 5000 onwards (cli.py:134), not 8100; (d) --spu-endpoints is never read; (e) the SPU address of a node written http://h:p is "http:<port>" (cli.py:129); (f) the port given to config gen --spu-base-port is not written to the file; (g) the default SPU port can be another worker's port; (h) --endpoints replaces the addresses but keeps the SPU addresses of the file's hosts.
C120: mplang/cli.py:263-270 starts a process before appending it to the list that the signal handler reads; a signal in between terminates the others and leaves this one running.
C121: (a) MemCluster gives all workers one tracer (mem.py:78-103), so every rank's file holds all events and the merged trace shows each event once per rank under the wrong ranks; (b) create_worker_app makes WorkerInfra without trace_pid (http.py:923-933), so HTTP workers save files without a rank and the merge (cli.py:408) cannot tell them apart; (c) neither passes an executor, so _evaluate_graph_sync runs and no operation is recorded at all, only the custom events; (d) jobs with fewer than 100 events leave no file (interpreter.py:203) and saving never clears the events; (e) process numbers are taken modulo 10000 (cli.py:425), and an exception inside a file keeps the events before it and drops the rest.
C26: wait_all, test, testall and testany return None for a cancelled request as if it had completed (simp_worker/base.py:300-307, 373-378), while wait raises CancelledError.
C122: (a) ldpc_encode_dense_jax ANDs 64-bit words with 0/1 (ldpc.py:346), so the "reference" keeps only the lowest bit of each word; (b) ldpc_decode_syndrome picks an earlier column that contains the right one, can return an error with another syndrome, and for blocks always returns ones; (c) verify_ldpc_structure rejects every matrix that generate_silver_ldpc makes with fewer than 30 columns.
C123: str(SSType) omits enc_schema (edsl/typing.py:775-776) and TableType prints column names unescaped (:609), so different types print alike; the execution key (interpreter.py:583,589) is computed from these texts.
C15: the execution key contains str(type), which omits the encryption schema of secret-shared types, so graphs that differ only there get one key.
C124: SimpMemDriver.collect shuts the whole mesh down on the first error (simp_driver/mem.py:197-209), so one failing program makes the simulator unusable for every later or concurrent one; SimpHttpDriver.collect waits in rank order (simp_driver/http.py:94-96); Interpreter.shutdown is documented as idempotent but stops (and saves) an owned tracer each time (runtime/interpreter.py:626-629), before the workers are stopped.
C125: spu.exec turns a public input that is no numpy array or number into np.array(value) (spu_impl.py:331-339), which for the TensorValue the interpreter passes is an object array; public tensor arguments, which run_jax accepts (dialects/spu.py:383-385), cannot be executed. _reconstruct_ae (dialects/spu.py:263-274) does not check the shares after the first.
C126: make_simulator, make_driver and make_compile_context never compare world size and cluster (dialects/simp.py:860-992, simp_driver/mem.py:262-295): a device of a missing party is traced, no worker runs it, and its value is None without an error. make_compile_context(world_size=0, cluster_spec=s) silently takes the size of s.
C10 (threads): the context stack is one list of the module (edsl/context.py:184), not one per thread: overlapping `with` blocks of two threads see and pop each other's contexts.
C127: print_leaf_summary (edsl/registry.py:103-117) promises "actual computation time without double counting", but its container list omits func.call (func_impl.py:105) and tensor.elementwise (tensor_impl.py:328,357), which evaluate nested graphs through get_impl; the listed simp.* operations are executed by interpreter handlers and never go through get_impl, so they are never recorded anyway.
C128: table.constant declares types from pandas (dialects/table.py:209-217) but builds values with pyarrow (table_impl.py:787-790): {"a": [1, None]} is declared f64 and is i64, [] is declared string and has the type null. A DataFrame with an index gets an extra column in a simulator (pa.table(df)) and loses it on a cluster (serde.py:218, preserve_index=False). simp.constant (simp.py:823-827) passes the dictionary through jax.tree_util, which sorts the keys, so table2tensor of mp.put(dev, {"b": .., "a": ..}) has its columns swapped; and it refuses pyarrow tables, which table.constant documents.
* C75: fhe_histogram_optimized (sgb.py:632-635) adds up at most twice the average number of samples of a bucket (or 64, rounded up to a power of two); further samples of a crowded bucket are dropped without an error (skewed_bucket_violated).
* C84: the four-parameter compute function casts the indices to int32 (compute.py:169), so that an index one_hot keeps as int64 is refused even if the caller names int64; the functions registered for two and three parameters return the indices and forget the number of classes.
* C97: random_tensor with elt.bool_ views random bytes as booleans (crypto.py:601-604); JAX reads every nonzero byte as true, so an element is false with probability 1/256 (random_bool_violated).
* C75, end to end: with the default 8192 slots and nine buckets, for every data set of at most 910 samples the cumulative histograms of passive parties are the same at every bucket (default_histogram_flat_violated), so no split on their features can be found.
* C123: `str(graph)`, `Graph.to_string` and `compiler_ir` print no regions, verbose or not (edsl/graph.py:329-354): two graphs that run different functions in a pcall, while loop or conditional print alike (to_string_regions_violated).
* C129: `psi_unbalanced` promises communication in the size of the client's set (unbalanced.py:53); it sends the encoded table of
  the server's set: at least 16 bytes per server item and nothing that depends on the client. `estimate_silver_communication`
  (silver.py:308-342) leaves out the correction matrix, whose bits are sent as bytes, and the VOLE's 128 blocks per base
  correlation; it is linear where the real amount is capped. "About 1300 times less" (silver.py:18-19, 82-83) is at most ten times
  up to 20480 correlations.
* C130: `register_class` accepts the kinds the reader reserves (`_list`, `_int`, ...): instances are then read as built-in data. `_serde_kind`
  is inherited: a subclass that does not define its own is written and comes back as the base class. `to_json` never asks the registry: an
  undecorated class is written, and only the reader fails.
* C131: `setup_logging` without `force` adds handlers: calling it twice writes every record twice. `propagate=True` "inherits app config" but the
  level of the root logger plays no role for records of the library. `stream=False` without a file leaves no handler, and Python then writes
  warnings to stderr. With `force` the old handlers are removed before the file is opened; if that fails, they are gone. `get_logger` checks
  the prefix "mplang", not "mplang.": a name such as `mplang_tools` is left outside the library's hierarchy.
* C80: a worker that cannot load the native library expands seeds with NumPy's generator. Parties of the two kinds get different expansions of
  the same seed (OT extension, VOLE and PSI then compute wrong results) and nothing reports it; the generator's upper bound is exclusive, so
  the fallback never draws the word 2^64 - 1.
* C82: the environment is read when a request creates its `SPUState`: one malformed number (say MPLANG_BRPC_CONNECT_RETRY_TIMES) makes every
  request of the worker fail with a ValueError, also those that use no SPU, no brpc link, or name the option in `link_desc`. Without brpc
  endpoints `link_desc` and the environment have no effect at all.
* C106: each worker process has a pool of two threads of its own and runs requests in their order of arrival there (http.py:716-718, 936-938).  Four requests that arrive in different orders at two workers lock each other up until the receives time out: one worker runs the first two, the other the last two, and each waits for the other (`workers_reordered_violated`).  The same order at all workers, or at most two requests at a time, is enough (`workers_in_order_complete`, `workers_few_complete`); arrival is not modelled, the queues hold all requests from the start.
* C132: `cmd_run` pushes the driver (cli.py:365) and only then imports the user's file and looks up the entry function
  (cli.py:368-369), before the `try` whose `finally` pops and shuts down (cli.py:371-379). A missing file, a file that cannot be imported
  or raises, or a misspelt entry leaves the driver as the current context, never shut down (`run_failed_load_violated`).
* C133: the lifespan function of a worker shuts its communicator down before it waits for its thread pool (http.py:940-946). Tasks of
  `/exec/async` that are queued or running then fail at their next send, although they were accepted and the pool waits for them
  (`stop_loses_tasks_violated`, exactly which in `stop_outcome`).
* C59: quotes with keys over 32 bytes are truncated and truncated quotes accepted (outside the proved range, stated as theorems).
* C72: raw bytes bodies carry no length, so truncation is not detected (`truncated_raw_violated`).

Other observations made while reading, not turned into properties: the asynchronous evaluator leaves its thread-local
communicator set; the synchronous one does not restore it on an exception; failed sends are swallowed by `wait_pending_sends`;
the default job id is the constant "anonymous"; the attributes of `func.func` hold jax tree definitions, which serde cannot
serialise; the type rule of `table.write` promises the table but its implementation returns None; a
public tensor given to `spu.exec` reaches libspu as a 0-dimensional object array; the constant cache keeps tracers alive;
README shows `mp.fetch(sim, result)`; the signature is `fetch(result, *, follow_device, context)`, so this call raises TypeError.

## Tests against wrong programs

`seeded/LOG.jsonl` has one line per seeded bug: definition, edit, claim broken, theorems that stopped proving, theorems
tightened because of it.
