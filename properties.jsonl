{"id": "C01", "title": "Type JSON round trip", "statement": "For every type that the type constructors accept (scalars, tensors, vectors, tables with or without row count, custom types, secret-shared and multi-party types, nested arbitrarily), serialising it with to_json and deserialising the result with from_json gives back an equal type.", "quantifier": "all constructible types, any nesting depth", "why_tests_cant": "types nest without bound and each constructor omits some default fields; tests sample a few shapes", "anchors": ["mplang/edsl/serde.py: to_json, from_json", "mplang/edsl/typing.py: *.to_json, *.from_json"]}
{"id": "C02", "title": "Python value JSON round trip", "statement": "For every value built from None, bool, int, float, str, bytes, list, tuple and dict (string or non-string keys, nested arbitrarily), type objects, numpy arrays, pyarrow tables and the runtime values of the backends (tensors, tables, keys, curve points, quotes, secret shares), from_json(to_json(v)) == v with the container kind preserved (list stays list, tuple stays tuple, bool stays bool, bytes stay bytes, dict keeps order and keys).", "quantifier": "all nested plain values", "why_tests_cant": "unbounded nesting; the interesting confusions (bool/int, list/tuple, dict key types, user dict that looks like a tagged object) are combinatorial", "anchors": ["mplang/edsl/serde.py: to_json, from_json"]}
{"id": "C03", "title": "Binary container framing round trip and truncation detection", "statement": "Encoding metadata and any list of byte segments into the binary container and decoding it returns exactly the same metadata bytes and segments in order; and every proper prefix of a container is rejected or decodes to a strictly shorter segment list, never to altered segment contents.", "quantifier": "all metadata strings, all segment lists (lengths below 2^32), all truncation points", "why_tests_cant": "all lengths and all cut points must be covered; length-prefix off-by-ones show at boundaries only", "anchors": ["mplang/edsl/serde.py: dumps_binary, loads_binary, add_segment"]}
{"id": "C04", "title": "Equal types are interchangeable as dictionary keys", "statement": "If two types compare equal then they hash equal, so a type can be used as a dict/set key (for example in caches keyed by signature).", "quantifier": "all pairs of types", "why_tests_cant": "needs all pairs; the failing pairs are those that differ only in column order", "anchors": ["mplang/edsl/typing.py: TableType.__eq__, TableType.__hash__, other __eq__/__hash__"]}
{"id": "C05", "title": "Graph JSON round trip", "statement": "Serialising a graph produced by the graph builder (any number of inputs, ops with regions, outputs) and deserialising it yields a graph with the same structure: same inputs, same ops in order with the same opcodes, attributes, operands and nested regions, and the same outputs, with the same value names and types.", "quantifier": "all graphs the builder can construct, any size and region depth", "why_tests_cant": "graphs are unbounded and the rebuild renames values one at a time, so name collisions depend on the whole history", "anchors": ["mplang/edsl/serde.py: to_json/from_json for Graph", "mplang/edsl/graph.py: Graph.to_json, Graph.from_json"]}
{"id": "C06", "title": "Argument flattening round trip", "statement": "Splitting the arguments of a traced function into variables and immediates and re-assembling them returns the original argument structure; replacing the variables by others changes exactly the variable positions.", "quantifier": "all nested argument trees and all predicates separating variables from constants", "why_tests_cant": "arbitrary nesting and interleavings of variables with constants", "anchors": ["mplang/utils/func_utils.py: list_split, list_reconstruct, var_morph, var_demorph, normalize_fn"]}
{"id": "C07", "title": "Graph builder keeps single assignment form", "statement": "Any sequence of graph-builder calls (add input, add op, add output, with errors reported rather than applied) leaves a graph where value names are unique, every operand of an op is an input or a result of an earlier op, and every output is a defined value, provided the operands and outputs handed in are values the same builder returned (values of other graphs are accepted unchecked).", "quantifier": "all finite sequences of builder calls", "why_tests_cant": "histories are unbounded; violations need name collisions between generated and user names", "anchors": ["mplang/edsl/graph.py: Graph.add_value, add_input, add_op, add_output"]}
{"id": "C08", "title": "Tracing then evaluating equals calling", "statement": "Tracing a function that applies primitives to its arguments, captured values and constants, and evaluating the resulting graph on the same arguments and captured values, gives the same results (including constants returned untouched and the output structure) as applying the primitives directly.", "quantifier": "all straight-line primitive programs, all argument values, any capture pattern including repeated and aliased arguments", "why_tests_cant": "programs are unbounded and capture/parameter aliasing is combinatorial", "anchors": ["mplang/edsl/tracer.py: Tracer.run, lift, _lower; TracedFunction.prepare_inputs, reconstruct_outputs", "mplang/edsl/primitive.py: bind"]}
{"id": "C09", "title": "Region captures are merged without changing meaning", "statement": "When two traced regions (the branches of a conditional, or condition and body of a loop) capture outer values, the shared region argument list contains each captured object exactly once, and after alignment each region computes on that common list the same results as it did on its own captures.", "quantifier": "all capture lists and region bodies", "why_tests_cant": "any overlap pattern of captures must work", "anchors": ["mplang/dialects/simp.py: _merge_captures", "mplang/edsl/tracer.py: TracedFunction.align_region_inputs"]}
{"id": "C10", "title": "Context stack discipline", "statement": "Any well-nested use of contexts restores the enclosing context on exit; popping or peeking follows last-in first-out order; the nearest enclosing context that satisfies a query is the one found; the root context can only be replaced when forced; threads do not disturb each other.", "quantifier": "all sequences of push/pop/set-root operations", "why_tests_cant": "histories are unbounded", "anchors": ["mplang/edsl/context.py: push_context, pop_context, get_current_context, find_context, set_root_context"]}
{"id": "C11", "title": "Synchronous graph evaluation computes the dataflow meaning", "statement": "Evaluating a graph op by op with eager release of dead values returns exactly what evaluation without any release returns: no value is released while an op or an output still needs it, and a well-formed graph never fails for a missing value.", "quantifier": "all well-formed graphs (duplicate operands, unused values, outputs that are inputs), all op handlers, all inputs", "why_tests_cant": "the release counter logic must be right for every use pattern", "anchors": ["mplang/runtime/interpreter.py: Interpreter._evaluate_graph_sync"]}
{"id": "C12", "title": "Asynchronous evaluation is schedule independent", "statement": "Evaluating a graph with any number of worker threads gives, for every order in which ready ops are started and completed, the same outputs as sequential evaluation.", "quantifier": "all well-formed graphs, all completion orders", "why_tests_cant": "the number of interleavings is exponential; tests exercise a handful", "anchors": ["mplang/runtime/interpreter.py: Interpreter._evaluate_graph_async"]}
{"id": "C13", "title": "Asynchronous evaluation terminates and reports errors", "statement": "Asynchronous evaluation never gets stuck: as long as ops remain and no error occurred some op is in flight, every op runs exactly once, and if some handler fails the caller gets an error instead of a result or a hang.", "quantifier": "all well-formed graphs, all schedules, all failing handlers", "why_tests_cant": "deadlocks and double scheduling depend on the schedule", "anchors": ["mplang/runtime/interpreter.py: Interpreter._evaluate_graph_async"]}
{"id": "C14", "title": "Execution cache does not change results", "statement": "Evaluating graph fragments lazily with the interpreter's cache of already executed multi-output ops gives the same values as evaluating without cache, and each op is executed at most once per cache lifetime.", "quantifier": "all request sequences for values of a traced program", "why_tests_cant": "depends on the whole sequence of requests", "anchors": ["mplang/runtime/interpreter.py: Interpreter.lift, bind_primitive"]}
{"id": "C15", "title": "Structural graph fingerprint is sound", "statement": "Two graphs given the same execution fingerprint key are equal up to renaming of values: same ops in order, same operand wiring, same outputs and same types and stable attributes.", "quantifier": "all pairs of well-formed graphs", "why_tests_cant": "pairs of graphs of any size; collisions come from ambiguous encodings", "anchors": ["mplang/runtime/interpreter.py: _graph_exec_key and helpers"]}
{"id": "C16", "title": "Party types are sound at run time", "statement": "In every multi-party program accepted by the type rules, after running it each result with party set S is held by exactly the parties in S: parties in S hold a value and parties outside hold nothing.", "quantifier": "all well-typed programs built from per-party calls, shuffles and converges, all party counts, all inputs consistent with their types", "why_tests_cant": "programs and party sets are unbounded", "anchors": ["mplang/dialects/simp.py: pcall_static, shuffle_static, converge (type rules)", "mplang/backends/simp_worker/ops.py: pcall_static, shuffle_static, converge"]}
{"id": "C17", "title": "Per-party call runs exactly on the requested parties", "statement": "A per-party call on parties P is accepted only if every requested party holds all arguments; at run time each party in P gets the result of the function on its own local arguments, every other party gets nothing, and no party's data influences another's.", "quantifier": "all functions, party sets and arguments", "why_tests_cant": "needs all party sets and local states", "anchors": ["mplang/dialects/simp.py: pcall_static", "mplang/backends/simp_worker/ops.py: pcall_static_impl"]}
{"id": "C18", "title": "Dynamic per-party call skips parties that miss an input", "statement": "A dynamic per-party call runs on exactly those parties that hold all inputs; a party for which any input is absent gets nothing.", "quantifier": "all presence patterns", "why_tests_cant": "depends on run-time presence", "anchors": ["mplang/dialects/simp.py: pcall_dynamic", "mplang/backends/simp_worker/ops.py: pcall_dynamic_impl"]}
{"id": "C19", "title": "Shuffle delivers along the routing table", "statement": "After a shuffle with routing {target: source}, each target holds exactly the value its source held and every other party holds nothing, for every routing table the type rule accepts, in every message schedule, and the operation always terminates.", "quantifier": "all routing tables, all party counts, all schedules", "why_tests_cant": "routing tables and interleavings are unbounded; swaps and cycles are special", "anchors": ["mplang/backends/simp_worker/ops.py: shuffle_static_impl", "mplang/backends/simp_worker/comm_context.py: CommContext", "mplang/backends/simp_worker/mem.py: ThreadCommunicator"]}
{"id": "C20", "title": "Converge merges disjoint party values", "statement": "Converging values whose party sets are pairwise disjoint gives each party the value it held in the unique input it takes part in; overlapping party sets or different value types are rejected when the parties are statically known.", "quantifier": "all lists of values with any disjoint party sets", "why_tests_cant": "any number of inputs and party sets", "anchors": ["mplang/dialects/simp.py: converge", "mplang/backends/simp_worker/ops.py: converge_impl"]}
{"id": "C21", "title": "Uniform conditional keeps parties in agreement", "statement": "With uniformity checking on, all parties take the same branch or all parties raise an error; no party ever runs a branch that another party does not run.", "quantifier": "all predicate vectors, all party counts", "why_tests_cant": "all vectors of per-party predicates", "anchors": ["mplang/backends/simp_worker/ops.py: uniform_cond_impl", "mplang/backends/simp_worker/collectives.py, collective_algorithms.py"]}
{"id": "C22", "title": "While loop iterates the body while the condition holds", "statement": "A loop returns the first state, in the sequence obtained by applying the body repeatedly to the initial state, for which the condition is false; captured values stay constant; if the condition depends only on replicated data, all parties do the same number of iterations.", "quantifier": "all conditions, bodies and states for which the loop ends", "why_tests_cant": "number of iterations is unbounded", "anchors": ["mplang/backends/simp_worker/ops.py: while_loop_impl", "mplang/dialects/simp.py: while_loop"]}
{"id": "C23", "title": "Point to point messages match by program order", "statement": "When two parties run the same communication script, the n-th receive of one party from the other gets exactly the message of the matching send for every schedule, no two in-flight messages share a key, and no mailbox slot is overwritten.", "quantifier": "all scripts of directed transfers, all schedules", "why_tests_cant": "interleavings are unbounded", "anchors": ["mplang/backends/simp_worker/comm_context.py: CommContext.send, recv, _next_key", "mplang/backends/simp_worker/mem.py: ThreadCommunicator"]}
{"id": "C24", "title": "Communication scopes of concurrent ops are independent", "statement": "Two parties evaluating the same graph concurrently, in different completion orders, give each op the same communication scope name, so its messages meet; distinct ops of one scope get distinct names.", "quantifier": "all graphs and all pairs of schedules", "why_tests_cant": "pairs of schedules on different machines", "anchors": ["mplang/backends/simp_worker/comm_context.py: CommContext.spawn", "mplang/runtime/interpreter.py: _evaluate_graph_async"]}
{"id": "C25", "title": "Collectives compute their mathematical result at every participant", "statement": "Broadcast gives every participant the root's value; all-gather gives every participant the list of all values ordered by party number; boolean all-reduce gives every participant the conjunction/disjunction of all values; nobody returns from a barrier before everybody has entered it; all terminate; parties outside the group are rejected.", "quantifier": "all participant sets, inputs and schedules", "why_tests_cant": "any group size and interleaving", "anchors": ["mplang/backends/simp_worker/collective_algorithms.py", "mplang/backends/simp_worker/collectives.py"]}
{"id": "C26", "title": "Request completion is final", "statement": "A communication request moves from pending to exactly one of done, failed or cancelled and a finished status never changes; waiting on a finished request returns its stored outcome; test never blocks and reports done exactly when finished; waiting for all returns outcomes in argument order, waiting for any returns a finished one.", "quantifier": "all histories of request operations", "why_tests_cant": "histories are unbounded", "anchors": ["mplang/backends/simp_worker/base.py: Request, wait_all, wait_any, testall, testany", "mplang/backends/simp_worker/request.py"]}
{"id": "C27", "title": "Mailbox never loses or duplicates a message", "statement": "A message put under (sender, key) is handed to exactly one receive for that sender and key; a second message for an occupied slot is refused with an error; after shutdown every blocked or later receive fails instead of hanging.", "quantifier": "all interleavings of deliveries, receives and shutdown", "why_tests_cant": "interleavings are unbounded", "anchors": ["mplang/backends/simp_worker/mem.py: ThreadCommunicator.onSent, recv, shutdown"]}
{"id": "C28", "title": "Object store returns what was put", "statement": "get(put(v)) returns v for every backend; storing at a URI and reading the same URI returns the latest value stored there; deleting removes exactly that object; objects under other URIs and in other backends are unaffected.", "quantifier": "all histories of put/get/delete/exists", "why_tests_cant": "histories are unbounded", "anchors": ["mplang/runtime/object_store.py: ObjectStore, MemoryBackend, FileSystemBackend"]}
{"id": "C29", "title": "Object store URI routing", "statement": "A URI is split at its first '://' into scheme and key and routed to that backend; a name without scheme goes to the persistent backend; unknown schemes are rejected; put without URI uses the memory backend with a fresh key.", "quantifier": "all URI strings", "why_tests_cant": "all strings, including several '://' and empty parts", "anchors": ["mplang/runtime/object_store.py: ObjectStore._parse_uri, put, get, delete, exists"]}
{"id": "C30", "title": "File store keeps every access inside its root directory", "statement": "Whatever key a caller supplies (with '..', '.', repeated or absolute separators), the file store only touches files inside its own root directory, otherwise it raises.", "quantifier": "all key strings, all root directories", "why_tests_cant": "path traversal strings are unbounded", "anchors": ["mplang/runtime/object_store.py: FileSystemBackend._resolve_key"]}
{"id": "C31", "title": "Worker task states are monotone and results match their task", "statement": "A submitted task goes pending, running, then success or failed, never back; at most one task is active per worker and a second submission is refused; a task reported successful has its result available, and the result returned for a task id belongs to the last submission under that id.", "quantifier": "all histories of submissions, polls and worker progress", "why_tests_cant": "interleavings of HTTP calls and worker thread are unbounded", "anchors": ["mplang/backends/simp_worker/http.py: execute_async, _do_execute_async, get_status, get_result"]}
{"id": "C32", "title": "Driver collects one value per party per output", "statement": "Running a program on all workers and collecting yields, for each program output, the vector whose i-th component is what worker i returned for that output, in output order and rank order.", "quantifier": "all output counts and world sizes", "why_tests_cant": "all matrix shapes, including zero outputs and single outputs", "anchors": ["mplang/backends/simp_driver/ops.py: _collect_to_hostvars", "mplang/backends/simp_driver/values.py"]}
{"id": "C33", "title": "Cluster spec validation", "statement": "A cluster specification is accepted only if node ranks are unique and form 0..n-1, every device member is a known node, device names are consistent and every PPU has exactly one member; accepted specs list endpoints in rank order, one per rank.", "quantifier": "all specs", "why_tests_cant": "all combinations of nodes and devices", "anchors": ["mplang/libs/device/cluster.py: ClusterSpec.__post_init__, Device, endpoints"]}
{"id": "C34", "title": "Cluster spec dictionary round trip", "statement": "Loading a spec from the dictionary it was exported to gives an equal spec.", "quantifier": "all valid specs", "why_tests_cant": "node order and ranks are arbitrary", "anchors": ["mplang/libs/device/cluster.py: ClusterSpec.from_dict, to_dict"]}
{"id": "C35", "title": "Device inference picks the unique legal device", "statement": "For a call without explicit device: with all arguments on one device that device is chosen; with several devices the single secure device among them is chosen if there is exactly one, otherwise the call is rejected; inference does not depend on argument order.", "quantifier": "all argument lists", "why_tests_cant": "all multisets of devices and orders", "anchors": ["mplang/libs/device/api.py: _infer_device_from_args"]}
{"id": "C36", "title": "Device transfers preserve values", "statement": "Moving an object between devices (PPU to PPU, to and from SPU, to and from TEE) yields an object on the target device whose plaintext equals the source plaintext, and moving to the same device is a no-op; unsupported pairs raise.", "quantifier": "all device pairs and values", "why_tests_cant": "all chains of transfers", "anchors": ["mplang/libs/device/api.py: _d2d, put, fetch"]}
{"id": "C37", "title": "Collective library helpers", "statement": "transfer, replicate, distribute, collect, allreplicate and permute built on shuffle and converge put each value at exactly the documented parties.", "quantifier": "all party sets and values", "why_tests_cant": "all party sets and routings", "anchors": ["mplang/libs/collective.py"]}
{"id": "C38", "title": "Program artifact pack/unpack round trip", "statement": "Unpacking a packed compiled program returns the same program, and unpacking validates format name, version, digest and signature so that a corrupted artifact is rejected.", "quantifier": "all compiled programs and all corruptions of the checked fields", "why_tests_cant": "all programs and corruptions", "anchors": ["mplang/tool/program.py: pack, unpack, _validate_*", "mplang/edsl/program.py: CompiledProgram, FlatIOSignature"]}
{"id": "C39", "title": "Required world size covers every party the program uses", "statement": "The required world size recorded for a program is greater than every party rank that occurs in it, so a program that passes the check never addresses a missing party.", "quantifier": "all programs", "why_tests_cant": "all ops and attributes in all nested regions", "anchors": ["mplang/tool/program.py: _collect_parties, required_world_size"]}
{"id": "C40", "title": "GF(2^128) multiplication", "statement": "The field multiplication kernel returns the product of the two polynomials over GF(2) reduced modulo x^128+x^7+x^2+x+1 for all pairs of 128-bit inputs; hence it is commutative, associative and distributes over XOR with unit 1.", "quantifier": "all pairs of 128-bit words", "why_tests_cant": "2^256 input pairs", "anchors": ["mplang/kernels/py_kernels.py: gf128 clmul and reduction", "mplang/kernels/gf128.cpp"]}
{"id": "C41", "title": "OKVS decodes every encoded key", "statement": "If encoding keys and values succeeds, decoding any of the keys from the produced table returns its value; encoding succeeds exactly when the peeling of the key hypergraph reaches every key; decode is linear in the table.", "quantifier": "all key sets, values, table sizes and hash functions", "why_tests_cant": "peeling order and collisions are combinatorial", "anchors": ["mplang/kernels/py_kernels.py: okvs_solve, okvs_decode", "mplang/kernels/okvs.cpp", "mplang/libs/mpc/psi/okvs_gct.py"]}
{"id": "C42", "title": "OKVS hash yields three distinct in-range positions", "statement": "For every 128-bit key, seed and table size of at least three the three positions are pairwise distinct and smaller than the table size.", "quantifier": "all keys, seeds, sizes", "why_tests_cant": "all 64-bit hash outputs and sizes", "anchors": ["mplang/kernels/py_kernels.py: _hash_key_py", "mplang/kernels/okvs.cpp"]}
{"id": "C43", "title": "LDPC encoding is the sparse matrix product over GF(2)", "statement": "Encoding returns for each row the XOR of the message blocks selected by that row, and encode(a xor b) = encode(a) xor encode(b).", "quantifier": "all CSR matrices and messages", "why_tests_cant": "all sparsity patterns", "anchors": ["mplang/kernels/py_kernels.py: ldpc_encode", "mplang/kernels/ldpc.cpp"]}
{"id": "C44", "title": "Base oblivious transfer is correct", "statement": "In the base OT, for each index the receiver obtains exactly the message selected by its choice bit.", "quantifier": "all choice bits, keys, messages, group elements", "why_tests_cant": "all group elements and choices", "anchors": ["mplang/libs/mpc/ot/base.py"]}
{"id": "C45", "title": "OT extension correlation and transfer are correct", "statement": "After the OT extension the receiver's row equals the sender's row xor (choice AND sender secret) at every position, and in extended transfer the receiver obtains the chosen message for every index.", "quantifier": "all sizes, choice matrices, secrets, PRG outputs", "why_tests_cant": "all bit matrices", "anchors": ["mplang/libs/mpc/ot/extension.py"]}
{"id": "C46", "title": "VOLE correlation", "statement": "The VOLE protocols output vectors with w = v xor u*delta over GF(2^128) at every position, where the sender holds u and v and the receiver holds w and delta (Gilboa, silent and Silver variants).", "quantifier": "all lengths, all deltas, all random seeds", "why_tests_cant": "all field elements", "anchors": ["mplang/libs/mpc/vole/gilboa.py", "mplang/libs/mpc/ot/silent.py", "mplang/libs/mpc/vole/silver.py"]}
{"id": "C47", "title": "Expanded randomness does not repeat", "statement": "The expanded random vector of the silent VOLE does not reuse the same pseudo-random block for different positions.", "quantifier": "all lengths", "why_tests_cant": "the repetition appears only beyond the chunk size", "anchors": ["mplang/libs/mpc/ot/silent.py"]}
{"id": "C48", "title": "Sparse noise has exactly the requested weight", "statement": "The noise generator returns exactly the requested number of distinct positions, all inside the vector.", "quantifier": "all entropies, weights and lengths", "why_tests_cant": "collisions occur for rare entropies", "anchors": ["mplang/libs/mpc/vole/ldpc.py: generate_sparse_noise"]}
{"id": "C49", "title": "OPRF sides agree", "statement": "For equal items at the same row the sender's and the receiver's pseudo-random outputs are equal; for different items the pre-hash values are equal only if the codeword difference is masked out by the sender secret.", "quantifier": "all items, secrets and rows", "why_tests_cant": "all bit strings", "anchors": ["mplang/libs/mpc/psi/oprf.py"]}
{"id": "C50", "title": "PSI never misses a common element", "statement": "If the encoding step succeeds, every receiver item that is also a sender item is marked in the intersection result, at its own position; marking a non-common item requires a tag collision.", "quantifier": "all item sets, all random choices", "why_tests_cant": "all sets and orders", "anchors": ["mplang/libs/mpc/psi/rr22.py", "mplang/libs/mpc/psi/unbalanced.py"]}
{"id": "C51", "title": "Cuckoo placement is a valid injection", "statement": "When batch insertion reports success every item sits in one of its own candidate slots, no two items share a slot, slot and position tables agree, and slots already occupied keep their item.", "quantifier": "all hash values, table sizes and item counts", "why_tests_cant": "collision patterns are combinatorial", "anchors": ["mplang/libs/mpc/psi/cuckoo.py: cuckoo_insert_batch"]}
{"id": "C52", "title": "Oblivious permutation applies the permutation", "statement": "The switch controls computed for a permutation make the network output element i equal to the input element perm[i], for every permutation and every length (padding included).", "quantifier": "all lengths and permutations", "why_tests_cant": "n! permutations for every n", "anchors": ["mplang/libs/mpc/analytics/permutation.py"]}
{"id": "C53", "title": "Rotate-and-sum aggregates the intended slots", "statement": "After rotate-and-sum over k slots, slot 0 (and every slot in the replicated variants) holds the sum of the k slots it covers; composed safe rotations equal a single rotation by the requested step.", "quantifier": "all slot counts, k, strides, steps and slot contents", "why_tests_cant": "all k including non powers of two", "anchors": ["mplang/libs/mpc/analytics/aggregation.py"]}
{"id": "C54", "title": "Group-by sum shares reconstruct the group sums", "statement": "The shuffle-based group-by sum returns, for every group, the sum modulo 2^64 of the values assigned to it, whatever masks and permutations are drawn; and the share the receiver sees is perfectly masked.", "quantifier": "all data, group assignments, masks and permutations", "why_tests_cant": "all masks and permutations", "anchors": ["mplang/libs/mpc/analytics/groupby.py"]}
{"id": "C55", "title": "Tensor shape rules predict the run-time shape", "statement": "For transpose, reshape, concat, gather, slice and elementwise ops, whenever the shape rule accepts the arguments, the shape it computes is the shape of the actual result for every run-time shape compatible with the declared one, and the op does not fail for shape reasons.", "quantifier": "all static and dynamic shapes and attributes", "why_tests_cant": "all ranks, dims and attribute values", "anchors": ["mplang/dialects/tensor.py: _transpose_ae, _reshape_ae, _concat_ae, _gather_ae, _slice_ae, elementwise", "mplang/backends/tensor_impl.py"]}
{"id": "C56", "title": "Reshape element count", "statement": "A reshape is accepted only for a target shape describing the same number of elements, with at most one inferred dimension and no other negative dimension.", "quantifier": "all shapes", "why_tests_cant": "all integer vectors", "anchors": ["mplang/dialects/tensor.py: _reshape_ae"]}
{"id": "C57", "title": "Batched table reading returns every row once", "statement": "Concatenating the batches of a table reader, for any batch size and any chunking of the underlying source, gives exactly the rows of the table in order, and every batch but the last has the requested size.", "quantifier": "all chunkings, batch sizes and row counts", "why_tests_cant": "all chunk boundaries vs batch boundaries", "anchors": ["mplang/backends/table_impl.py: TableReader, MultiTableReader"]}
{"id": "C58", "title": "Joined table reading never drops rows silently", "statement": "Reading several tables column-wise in step either yields all rows of all tables or raises because the row counts differ.", "quantifier": "all row counts and batch sizes", "why_tests_cant": "mismatch aligned with batch boundaries", "anchors": ["mplang/backends/table_impl.py: MultiTableReader"]}
{"id": "C59", "title": "Attestation quote round trip", "statement": "Parsing the bytes of a mock quote gives back the platform, suite and public key, and attesting a generated quote returns the public key that was bound into it.", "quantifier": "all platform and suite names up to 255 bytes and all 32-byte keys", "why_tests_cant": "all lengths", "anchors": ["mplang/backends/tee_impl.py: MockQuoteValue.to_bytes, from_bytes, quote_gen, attest"]}
{"id": "C60", "title": "Key agreement gives both sides the same key", "statement": "Deriving a shared key from one's own private key and the peer's public key gives the same key on both sides for every supported suite name.", "quantifier": "all key pairs and suite names", "why_tests_cant": "all keys", "anchors": ["mplang/backends/crypto_impl.py: kem_keygen, kem_derive"]}
{"id": "C61", "title": "Encrypted arithmetic tracks fixed point scale", "statement": "Encoding a number in fixed point, adding ciphertexts or multiplying by plaintext and decoding returns the exact result of the same operations on the encoded integers, and integer-typed values are recovered exactly within the plaintext range.", "quantifier": "all integers in range, all op sequences", "why_tests_cant": "all values", "anchors": ["mplang/backends/phe_impl.py"]}
{"id": "C62", "title": "Data type tables are mutually inverse", "statement": "Converting a scalar type to an array library dtype and back returns the same type for every supported scalar type.", "quantifier": "all supported scalar types", "why_tests_cant": "table completeness", "anchors": ["mplang/dialects/dtypes.py"]}
{"id": "C63", "title": "The OT receiver's choice bit is hidden", "statement": "In base OT the message the receiver sends for choice bit 0 and the message for choice bit 1 are equally distributed over its random scalar: every group element is sent for exactly as many scalars in either case, so the sender learns nothing about the bit from it.", "quantifier": "all curves, sender keys, choice bits and scalars", "why_tests_cant": "statement about all scalars at once (a distribution)", "anchors": ["mplang/libs/mpc/ot/base.py"]}
{"id": "C64", "title": "Generated LDPC matrices are well formed", "statement": "The generated Silver matrix has for every row strictly ascending column indices within range, with the documented weight, and the CSR arrays describe exactly those rows, for every random stream and every size.", "quantifier": "all sizes and random streams", "why_tests_cant": "all random streams", "anchors": ["mplang/libs/mpc/vole/ldpc.py: generate_silver_ldpc"]}
{"id": "C65", "title": "Sparse and masked aggregation compute the listed sums", "statement": "Sparse aggregation returns in every target slot the sum of the slots listed for it and zero in the other slots; masked aggregation returns the slotwise sum of the products and rejects lists of different length.", "quantifier": "all aggregation lists, slot contents and masks", "why_tests_cant": "all families of source lists", "anchors": ["mplang/libs/mpc/analytics/aggregation.py: aggregate_sparse, masked_aggregate"]}
{"id": "C66", "title": "Homomorphic group-by returns the exact group sums", "statement": "The BFV group-by sum returns for every bin the exact sum of the values assigned to it, for any number of values and bins, whether or not the parties share a process.", "quantifier": "all data, bins, polynomial degrees and plain moduli", "why_tests_cant": "all inputs; needs distribution across processes", "anchors": ["mplang/libs/mpc/analytics/groupby.py: oblivious_groupby_sum_bfv", "mplang/backends/bfv_impl.py"]}
{"id": "C67", "title": "Homomorphic group-by keeps the values from the receiver", "statement": "No object sent to the receiver of the BFV group-by lets it decrypt the sender's values.", "quantifier": "all data", "why_tests_cant": "a statement about everything sent", "anchors": ["mplang/libs/mpc/analytics/groupby.py: oblivious_groupby_sum_bfv", "mplang/backends/bfv_impl.py: make_relin_keys_impl, make_galois_keys_impl"]}
{"id": "C68", "title": "A failed table write leaves no partial file", "statement": "When writing a table fails part way, the target path holds no partially written file afterwards, for CSV, Parquet and JSON alike.", "quantifier": "all formats, tables and failure points", "why_tests_cant": "all failure points", "anchors": ["mplang/backends/table_impl.py: TableWriter, write_impl"]}
{"id": "C69", "title": "Decoding a type from untrusted JSON yields only valid types", "statement": "Whatever JSON document from_json is given, it either raises or returns a type in which every component satisfies the documented constructor conditions (power-of-two integer widths, supported float widths, positive or unknown dimensions, scalar vector elements, distinct columns).", "quantifier": "all JSON documents", "why_tests_cant": "documents nest without bound and need not come from to_json", "anchors": ["mplang/edsl/serde.py: from_json", "mplang/edsl/typing.py: *.from_json, constructors"]}
{"id": "C70", "title": "Symmetric encryption round trip and authenticity", "statement": "Whatever sym_encrypt returns for a serialisable value under a 16, 24 or 32 byte key, sym_decrypt with the same key bytes (in any key form) returns that value; sym_decrypt succeeds only on a nonce followed by a ciphertext made with that key and nonce, and both operations reject any algorithm but aes-gcm.", "quantifier": "all values, keys, nonces and ciphertexts", "why_tests_cant": "all values and all byte strings offered for decryption", "anchors": ["mplang/backends/crypto_impl.py: sym_encrypt_impl, sym_decrypt_impl", "mplang/dialects/crypto.py: sym_encrypt, sym_decrypt"]}
{"id": "C71", "title": "A key value belongs to the suite its type names", "statement": "At run time the keys produced by kem_keygen, kem_derive and hkdf carry the suite named in the types announced while tracing.", "quantifier": "all suites, inputs and algorithm names", "why_tests_cant": "all suite names; relates two implementations (tracing and execution)", "anchors": ["mplang/dialects/crypto.py: _kem_keygen_ae, _kem_derive_ae, _hkdf_ae", "mplang/backends/crypto_impl.py: kem_keygen_impl, kem_derive_impl, hkdf_impl"]}
{"id": "C72", "title": "A message arrives as it was sent over every transport", "statement": "A value sent by a worker over HTTP (binary body or JSON envelope) or in memory reaches the mailbox of the receiver as the same value, from the same sender rank and under the same key; values that cannot be serialised fail at the sender; a request with a missing or malformed sender rank, an unknown format or a truncated body is refused.", "quantifier": "all values, ranks, keys, transport settings and truncation points", "why_tests_cant": "all payloads and all malformed requests", "anchors": ["mplang/backends/simp_worker/http.py: HttpCommunicator._do_send, receive_comm, _decode_binary_payload", "mplang/backends/simp_worker/mem.py: ThreadCommunicator.send", "mplang/edsl/serde.py"]}
{"id": "C73", "title": "SecureBoost prediction follows the tree", "statement": "For every well-formed tree and every row split over the parties, the value predict gives for the row is that of the one leaf reached by following, from the root, the owner's comparison at each split, whatever the number of parties and the distribution of features.", "quantifier": "all trees, depths, numbers of parties and rows", "why_tests_cant": "trees and rows range over unbounded sets; a party only sees its own splits", "anchors": ["mplang/libs/ml/sgb.py: predict_tree, predict_tree_single_party"]}
{"id": "C74", "title": "SecureBoost training and prediction put a sample in the same leaf", "statement": "After fit, predict sends every training row to the leaf the row was counted in while the tree was built.", "quantifier": "all data sets, bins, depths, parties and answers of the split search", "why_tests_cant": "two different computations (bin indices while training, thresholds while predicting) must agree for every data set", "anchors": ["mplang/libs/ml/sgb.py: build_tree, _update_tree_state, update_bt, merge_bt_updates, predict_tree"]}
{"id": "C75", "title": "The encrypted histogram holds the bucket sums", "statement": "For each node and each feature of a passive party, the histogram decrypted by the active party holds, per bucket, the sum of the gradients of the node's samples in that bucket.", "quantifier": "all gradients, bucket assignments, node memberships and sample counts", "why_tests_cant": "all data sets; slots, masks and rotations interact", "anchors": ["mplang/libs/ml/sgb.py: _build_packed_mask_jit, _compute_histogram_chunk_batch, fhe_encrypt_gh, fhe_histogram_optimized"]}
{"id": "C76", "title": "The split search finds the best split", "statement": "For each node the search returns a feature and bin in range whose gain, computed from the samples of the node, is the largest among all features and bins respecting min_child_weight, and no split when there is none.", "quantifier": "all data sets, parameters, features and bins, for active and passive parties", "why_tests_cant": "optimality over all data sets", "anchors": ["mplang/libs/ml/sgb.py: local_build_histogram, compute_best_split_from_hist, local_compute_best_splits, _process_decrypted_jit, find_splits"]}
{"id": "C77", "title": "Histogram subtraction", "statement": "At every level the histogram derived for a right child as parent minus left child is the histogram of the samples in that child, for every node a sample can be in.", "quantifier": "all trees, levels and data sets", "why_tests_cant": "induction over levels for all trees", "anchors": ["mplang/libs/ml/sgb.py: _find_splits_pps, derive_right_and_combine, update_bt"]}
{"id": "C78", "title": "Leaf values are optimal for the samples predicted into the leaf", "statement": "The value of a leaf minimises the regularised second-order loss over exactly the training rows that predict sends to that leaf.", "quantifier": "all data sets, trees and positive hessians", "why_tests_cant": "all data sets; relates training sums to prediction routing", "anchors": ["mplang/libs/ml/sgb.py: make_compute_leaf_values, predict_tree, build_tree"]}
{"id": "C79", "title": "Binned OKVS", "statement": "If solve_okvs_opt succeeds, decode_okvs_opt of any of the encoded keys, in any number, returns its value, whatever kernel (Python, naive native, binned native) the back end picks and however the threads take the bins; decode is linear in the table.", "quantifier": "all key sets, values, hash functions, table sizes, thread schedules and query lists", "why_tests_cant": "all hypergraphs and schedules; the failing bins and the kernel switch depend on sizes no unit test reaches", "anchors": ["mplang/kernels/okvs_opt.cpp: solve_bin, solve_okvs_opt, decode_okvs_opt", "mplang/backends/field_impl.py: _okvs_solve_opt_impl, _okvs_decode_opt_impl", "mplang/dialects/field.py: solve_okvs_opt, decode_okvs_opt"]}
{"id": "C80", "title": "Seed expansion", "statement": "aes_expand returns for each seed a block sequence that depends only on the seed (not on the other seeds, the order of threads or the requested length), the blocks of a seed are distinct, and different seeds have unrelated expansions.", "quantifier": "all seed lists, lengths and thread schedules", "why_tests_cant": "quantifies over schedules and all seeds", "anchors": ["mplang/kernels/okvs.cpp: aes_128_expand", "mplang/backends/field_impl.py: _aes_expand_impl_prim"]}
{"id": "C81", "title": "SPU links and runtimes", "statement": "An SPU execution on a worker runs with the settings its configuration names, on a link whose peers are the parties of this SPU in their order, which no other request or configuration shares, and which meets the same request at the other parties; its messages arrive byte for byte, are never mixed with other traffic on the communicator, and the result depends only on this call's arguments.", "quantifier": "all histories of calls by all jobs of a worker, all party lists, endpoint maps, tags, payloads and kernels", "why_tests_cant": "the caches make every result depend on the whole history of the process, and matching of spawned links depends on the order at every party", "anchors": ["mplang/backends/spu_state.py: SPUState.get_or_create, _get_template_link, _create_channels_link, _create_brpc_link", "mplang/backends/simp_worker/infra.py: get_or_create_spu_link", "mplang/backends/channel.py: BaseChannel", "mplang/backends/spu_impl.py: exec_impl"]}
{"id": "C82", "title": "SPU configuration round trip and merge", "statement": "An SPU configuration written to JSON and read back means the same settings and the same link options; settings in runtime_config win over top-level ones and those over the defaults; the link options of an SPU override the process defaults one by one; profiling flags are never taken from truthiness.", "quantifier": "all configurations, dictionaries and defaults", "why_tests_cant": "all combinations of present and absent settings", "anchors": ["mplang/dialects/spu.py: SPUConfig, SPULinkDesc, _parse_bool", "mplang/backends/spu_state.py: _effective_brpc_config"]}
{"id": "C83", "title": "Vector columns expand to the vectors they stand for", "statement": "For a dense, sparse or one-hot vector column, reading one item, converting to a Python list and converting to a numpy matrix describe the same vectors: entry j of row i is the stored value (a sparse position not listed is 0, a one-hot row has a single 1 at its index), a null row is never silently dropped, and row i of the feature matrix of a table belongs to row i of every other column.", "quantifier": "all vector columns with any rows, index lists, values and nulls", "why_tests_cant": "all columns; the disagreements need repeated indices and nulls in particular positions", "anchors": ["mplang/extend/arrow/vector.py: SparseVectorArray, OneHotVectorArray, DenseVectorArray, table_to_numpy"]}
{"id": "C84", "title": "Vector types keep their meaning", "statement": "A vector type can be built exactly for the documented sizes and value types, equal types have equal hashes, its metadata reads back to an equal type, and a column written to Arrow IPC comes back with the same vector type; one_hot only builds arrays whose indices are in range.", "quantifier": "all vector types, sizes, value types, metadata strings and orders of registration and IPC reads", "why_tests_cant": "all types and process histories", "anchors": ["mplang/extend/arrow/vector.py: VectorType, DenseVectorType, SparseVectorType, OneHotVectorType, __arrow_ext_serialize__, __arrow_ext_deserialize__, one_hot"]}
{"id": "C85", "title": "Table and tensor conversion", "statement": "table2tensor is accepted exactly for non-empty tables of one numeric column type, and the tensor it produces at run time has the static type; tensor2table is its inverse: converting there and back restores the rows, the columns in order and the values.", "quantifier": "all schemas, tables, row counts, tensors and column name lists", "why_tests_cant": "all schemas and values", "anchors": ["mplang/dialects/table.py: _table2tensor_ae, _tensor2table_ae", "mplang/backends/table_impl.py: table2tensor_impl, tensor2table_impl"]}
{"id": "C86", "title": "SQL queries see exactly the tables they are given", "statement": "The result of run_sql is the answer of its query to the tables passed in, with the names passed in, no matter which queries ran before, which results were already read, or in which order lazily evaluated results are forced; a table value once obtained never changes.", "quantifier": "all histories of queries, registrations and reads over any tables and any SQL semantics monotone in the visible tables", "why_tests_cant": "the answer depends on the connection state left behind by the whole history", "anchors": ["mplang/backends/table_impl.py: run_sql_impl, DuckDBState, QueryTableSource, TableValue"]}
{"id": "C87", "title": "Files travel through the object store unchanged", "statement": "A table written to a store URI by one party and read back there is the table written; a write refuses to overwrite; parties of one process do not see or overwrite each other's files; download and upload touch only the store and the temporary directory.", "quantifier": "all sequences of downloads, uploads, reads and writes by any number of parties, all URIs and link structures of the file system", "why_tests_cant": "all histories and file systems with links; parties share a working directory only in simulation", "anchors": ["mplang/runtime/object_store.py: ObjectStore.download, ObjectStore.upload", "mplang/backends/table_impl.py: read_impl, write_impl"]}
{"id": "C88", "title": "Calling a defined function equals calling the Python function", "statement": "func.call on a handle made by func.func from a Python function, with arguments of the same structure, yields what the Python function yields on them; a wrong number of arguments is refused, and values the function captures from its surroundings are those present when it was defined.", "quantifier": "all Python functions (as programs), argument structures, captured values and evaluation semantics", "why_tests_cant": "all functions and arguments", "anchors": ["mplang/dialects/func.py: func, call", "mplang/backends/func_impl.py: func_impl, call_impl", "mplang/edsl/tracer.py: trace"]}
{"id": "C89", "title": "Tables kept in files", "statement": "A table written to a path and read back from it with the same format is the table written, other files are untouched, and a table value once read does not change when files are written later; a table name given to SQL names exactly that table, and a column that can be opened can be used in SQL; a Parquet file read with a declared schema delivers exactly the declared columns, in the declared order and types, whatever else the file has.", "quantifier": "all tables, paths, formats, file systems and histories of reads and writes; all table names and column types", "why_tests_cant": "lazily read tables make every value depend on all later writes", "anchors": ["mplang/backends/table_impl.py: read_impl, write_impl, FileTableSource, TableValue", "mplang/runtime/data_io.py", "mplang/dialects/table.py: _read_ae, _write_ae"]}
{"id": "C90", "title": "run_jax computes the function it is given", "statement": "tensor.run_jax(f, *args, **kwargs) evaluated on inputs of the declared types returns what jax returns for f on those inputs, with the declared output types, for any number of earlier compilations and however often the operation is executed; inputs whose shape is not the declared one are refused, and dimensions declared unknown accept every length.", "quantifier": "all functions, argument types (static and with unknown dimensions), inputs and histories of compilations", "why_tests_cant": "depends on the whole compilation cache history and on every shape", "anchors": ["mplang/dialects/tensor.py: run_jax, _run_jax_ae", "mplang/dialects/_jax_utils.py", "mplang/backends/tensor_impl.py: run_jax_impl", "mplang/backends/util.py"]}
{"id": "C91", "title": "Constants embedded in a program", "statement": "A constant put into a traced program evaluates to exactly the array that was given; equal constants of one trace share one value and different ones are never merged; a reused tracer does not answer with values of an earlier graph.", "quantifier": "all arrays (dtype, byte order, shape, contents) and all histories of constants, other operations and resets", "why_tests_cant": "all arrays and all histories of the cache", "anchors": ["mplang/dialects/tensor.py: constant", "mplang/backends/tensor_impl.py: constant_impl", "mplang/edsl/tracer.py: Tracer"]}
{"id": "C92", "title": "Homomorphic integer programs", "statement": "A program of BFV operations (encode, batch_encode, encrypt, add, sub, mul, relinearize, rotate, rotate_columns, decrypt, decode, moves between processes) that the type rules accept runs to the end and decodes to the slot-wise arithmetic modulo the plaintext modulus on the encoded vectors, as centred remainders, with the declared shape and element type.", "quantifier": "all programs, vectors, keys and contents of slots; any library meeting SEAL's contract", "why_tests_cant": "all programs and all vectors, including those that make a zero appear on the way", "anchors": ["mplang/dialects/bfv.py", "mplang/backends/bfv_impl.py"]}
{"id": "C93", "title": "Homomorphic key generation is fresh", "statement": "Every call of bfv.keygen gives its caller a key pair of its own.", "quantifier": "all histories of key generations in all processes", "why_tests_cant": "depends on the whole history of a process", "anchors": ["mplang/backends/bfv_impl.py: keygen_impl, clear_keygen_cache"]}
{"id": "C94", "title": "Typed encrypted programs", "statement": "phe.add and phe.mul_plain accept exactly a ciphertext with a ciphertext of the same scheme (add only) or with an encoded integer, in either order, with compatible shapes, and give a ciphertext; an accepted program runs without type errors to values of the declared types and computes on ciphertexts what the same program computes on integers; without a private key a program reveals nothing about what is encrypted.", "quantifier": "all programs, operand types and shapes, values, keys and randomness; any library meeting the homomorphic contract", "why_tests_cant": "all programs; secrecy compares all pairs of runs", "anchors": ["mplang/dialects/phe.py", "mplang/backends/phe_impl.py"]}
{"id": "C95", "title": "Curve programs compute in the curve group", "statement": "Every program of ec_generator, ec_mul, ec_add, ec_sub, ec_point_to_bytes, ec_bytes_to_point, scalars, select and sending computes, whenever it runs to the end, what the same program computes in the curve group; it runs to the end exactly when no addition has opposite operands and no subtraction equal ones; values have the declared types.", "quantifier": "all programs, all scalars, all curve libraries meeting the group contract", "why_tests_cant": "all programs and group elements, including the identity that few tests reach", "anchors": ["mplang/dialects/crypto.py: ec_*", "mplang/backends/crypto_impl.py: mul_impl, add_impl, sub_impl, point_to_bytes_impl, bytes_to_point_impl, select_impl"]}
{"id": "C96", "title": "Batch hashing", "statement": "hash_batch of a tensor of shape (..., D) with D > 0 has shape (..., 32), and the 32 bytes at each batch index are the digest of that row's bytes alone; vectors and scalars are one row; the declared shape is the actual one.", "quantifier": "all shapes, ranks and contents; any digest function of 32 bytes", "why_tests_cant": "all ranks and shapes", "anchors": ["mplang/dialects/crypto.py: hash_batch, hash_bytes", "mplang/backends/crypto_impl.py: hash_batch_impl, hash_impl"]}
{"id": "C97", "title": "Random bits, tensors and scalars are uniform", "statement": "When os.urandom is uniform: random_bits(n) gives n bits and every bit vector is equally likely; random_tensor gives every tensor of the shape and element size with equal probability; ec_random_scalar gives every scalar below the order with the same probability.", "quantifier": "all lengths, shapes, element sizes; all events on scalars", "why_tests_cant": "a distribution: a statement about all byte strings at once", "anchors": ["mplang/dialects/crypto.py: random_bits, random_tensor, random_bytes", "mplang/backends/crypto_impl.py: random_scalar_impl, random_bytes_impl"]}
{"id": "C98", "title": "Bits and bytes are converted back", "statement": "bytes_to_bits lists the bits of each byte lowest first, and bits_to_bytes(bytes_to_bits(x)) = x.", "quantifier": "all byte strings", "why_tests_cant": "all inputs; the repository's test only compares declared types", "anchors": ["mplang/libs/mpc/_utils.py: bytes_to_bits, bits_to_bytes"]}
{"id": "C99", "title": "The native kernels stay inside their buffers", "statement": "Given buffers as long as announced, the native OKVS solver and decoder, sparse encoder, field multiplication and seed expansion never read or write outside an array and always end; the solver leaves the same table as the reference algorithm, so that with three or more cells decoding gives every key's value or the keys cannot be peeled and the table is zero.", "quantifier": "all keys, values, seeds, table sizes of at least one cell, all hash outputs, all sparse matrices", "why_tests_cant": "an out-of-bounds access is undefined behaviour that a test run need not notice; all inputs and all orders in which columns are peeled", "anchors": ["mplang/kernels/okvs.cpp: solve_okvs, decode_okvs, aes_128_expand", "mplang/kernels/ldpc.cpp: ldpc_encode", "mplang/kernels/gf128.cpp: gf128_mul_batch"]}
{"id": "C100", "title": "Field operations are safe and have the declared type", "statement": "Every field operation the type rules accept runs without faulting in native code and returns a tensor of the declared element type and shape.", "quantifier": "all operand shapes, element types and contents", "why_tests_cant": "all shapes; a read past a buffer often goes unnoticed in a test", "anchors": ["mplang/dialects/field.py", "mplang/backends/field_impl.py"]}
{"id": "C101", "title": "Boosting trains on what prediction gives", "statement": "Fitting a SecureBoost model of n estimators yields n trees; each tree was built from the gradients of the log loss at exactly the scores the preceding trees give the training samples when predicting; the fitted model answers for every sample the sigmoid of base score plus shrunken leaf values; fitting fewer estimators yields a prefix; an unfitted model refuses.", "quantifier": "all tree builders that answer well formed trees, all data, labels, learning rates, depths and numbers of estimators", "why_tests_cant": "all data sets and all numbers of rounds", "anchors": ["mplang/libs/ml/sgb.py: SecureBoost, fit_tree_ensemble, predict_ensemble, predict_tree"]}
{"id": "C102", "title": "Gradients, base score and accuracy mean what they should", "statement": "The gradients and Hessians used in training are the first and second derivative of the log loss by the score; for labels in [0,1] gradients are below 1 in size and Hessians in (0, 1/4]; the base score predicts the share of positives and no other constant has a smaller loss; predictions are probabilities; accuracy is the share of scores of the right sign; quantisation moves a number by at most 2^-16 and a sum of m numbers by at most m 2^-16.", "quantifier": "all labels, scores and data sets", "why_tests_cant": "real-valued inputs; derivatives and minima are not observable on samples", "anchors": ["mplang/libs/ml/sgb.py: compute_gh, compute_init_pred, sigmoid, quantize_gh, dequantize, SecureBoost.evaluate"]}
{"id": "C103", "title": "Equal-width bins", "statement": "A feature is cut into max_bin bins of equal width between its smallest and largest value: boundaries are sorted, bins are below max_bin and monotone in the value, the extremes are in the first and last bin, a constant feature has one bin, and shifting or rescaling the feature does not change any bin.", "quantifier": "all feature vectors, all max_bin of at least two", "why_tests_cant": "all real vectors", "anchors": ["mplang/libs/ml/sgb.py: build_bins_equi_width, compute_bin_indices"]}
{"id": "C104", "title": "Packed histogram pipeline", "statement": "The passive party's pipeline draws for each node, feature and chunk exactly its mask, and what the active party unpacks for a node, feature and bucket is the aggregate of that node's and feature's masked gradients at that bucket.", "quantifier": "all numbers of nodes, features, buckets, chunks, all gradients and masks", "why_tests_cant": "all sizes; an index slip shows only for some combinations of nodes, batches and chunks", "anchors": ["mplang/libs/ml/sgb.py: compute_all_masks, _compute_histogram_chunk_batch, tree_sum, _process_decrypted_jit"]}
{"id": "C105", "title": "A program run through the driver means what it says, end to end", "statement": "Running a traced multi-party program operation by operation through the driver (wrapper graphs, URIs, stores, worker processes and their messages) ends for every operation on every worker, and fetching the driver's variables gives every party exactly the values the program means, None where a party holds nothing.", "quantifier": "all accepted programs (nested conditionals and loops, any number of operations), parties, inputs, and all schedules of workers and messages", "why_tests_cant": "all programs times all interleavings of workers and deliveries", "anchors": ["mplang/backends/simp_driver/ops.py: _wrap_op_as_graph, _generic_simp_dispatch, _collect_to_hostvars", "mplang/backends/simp_driver/mem.py: SimpMemDriver", "mplang/backends/simp_worker/ops.py", "mplang/backends/simp_worker/request.py: create_request_interpreter", "mplang/__init__.py: fetch"]}
{"id": "C106", "title": "Requests running at the same time do not disturb one another", "statement": "Several requests executing on the same workers at the same time each end exactly as they would alone.", "quantifier": "all sets of requests, all programs they run, all schedules of their steps, message deliveries and thread assignment", "why_tests_cant": "all interleavings of several concurrent programs", "anchors": ["mplang/backends/simp_worker/request.py: create_request_interpreter", "mplang/backends/simp_worker/comm_context.py: CommContext", "mplang/backends/simp_worker/mem.py: ThreadCommunicator, LocalMesh", "mplang/backends/simp_driver/mem.py: submit, _run_worker", "mplang/backends/simp_driver/http.py: submit"]}
{"id": "C107", "title": "Evaluating and fetching at the host boundary", "statement": "mp.fetch keeps the structure of its argument and returns, for every object, the data of its device's party, or one entry per party (None where a party holds nothing); it is the identity while tracing and never returns another party's data or a made-up value. mp.evaluate of a compiled program takes exactly its flat inputs and yields objects that fetch like those of the direct call; mp.function runs on all parties of the innermost context with parties.", "quantifier": "all nested results, worker stores, clusters, context stacks, compiled functions and arguments", "why_tests_cant": "all result structures and store contents", "anchors": ["mplang/__init__.py: _get_context, evaluate, fetch, function", "mplang/libs/device/api.py: fetch, _resolve_cluster", "mplang/runtime/value.py: WrapValue", "mplang/backends/simp_driver/mem.py: fetch"]}
{"id": "C108", "title": "Programs over devices compute the plain result", "statement": "A program of put (host values and device objects) and device(dev)(f)(x, ...) calls, with the device given or inferred and arguments moved automatically, computes for every variable what evaluating f on plain values computes, whatever the kinds of the devices, the randomness and the schedule: every variable ends up on the device the placement rules name, with the plain value, and fetching it returns that value. Programs whose placement is not defined (no or several candidate devices, unsupported transfer, unknown device) raise.", "quantifier": "all programs (any length, any functions), clusters, host values, random seeds, schedules of parties and messages, cached sessions", "why_tests_cant": "programs, transfer paths and schedules are unbounded; tests run a handful of two-step programs in one schedule", "anchors": ["mplang/libs/device/api.py: put, fetch, device, DeviceContext, _device_run, _device_run_spu, _device_run_ppu, _device_run_tee, _infer_device_from_args, _d2d", "mplang/backends/spu_impl.py: exec_impl", "mplang/dialects/simp.py: _pcall_static_trace"]}
{"id": "C109", "title": "Nested evaluations talk in the scope of their request", "statement": "All messages an evaluation sends, at any nesting of calls, conditionals and loops and after any history of successful and failed evaluations on the thread, are in the scope of the request, so the matching operations of all parties meet; with an executor every operation has a scope of its own whose name depends only on where the operation is.", "quantifier": "all nestings of evaluations, all histories of evaluations on a thread, all job ids and graph keys", "why_tests_cant": "nesting depth and histories are unbounded; no shipped test runs a loop with an executor on several parties", "anchors": ["mplang/runtime/interpreter.py: current_comm_ctx, _evaluate_graph_sync, _evaluate_graph_async", "mplang/backends/simp_worker/comm_context.py: CommContext.spawn", "mplang/backends/simp_worker/ops.py"]}
{"id": "C110", "title": "A primitive call records what was called, and its implementation is the one in force", "statement": "Calling a primitive with objects records exactly one operation with these objects as inputs, in order, and the keyword arguments as attributes, and returns its new outputs (one object or a list); a custom trace function takes precedence; a primitive with neither is refused. An operation is run by the interpreter's own handler, else by the implementation registered last, else refused; profiling never changes a result and holds one sample per completed operation.", "quantifier": "all primitives, type rules, arguments, graphs, and all histories of registrations, executions and profiling switches", "why_tests_cant": "argument lists and histories are unbounded", "anchors": ["mplang/edsl/primitive.py: Primitive", "mplang/edsl/tracer.py: Tracer.bind_primitive", "mplang/edsl/registry.py", "mplang/runtime/interpreter.py: _evaluate_graph_sync"]}
{"id": "C111", "title": "A protocol written as one program computes its plain reading", "statement": "A library protocol that only computes at named parties (pcall_static), moves values (shuffle_static) and joins equal copies (converge) can be read as an ordinary program without parties. If this reading succeeds (every argument is where it is used, every transfer starts where the value is), tracing succeeds, the distributed evaluation ends under every schedule, and each party holds exactly the objects, with the values, the reading gives it; the messages are the transfers written in the program and no others. What a party learns depends on nothing but its own inputs and the values sent to it.", "quantifier": "all programs of calls, shuffles and converges with arbitrary control flow between them, all party counts, local functions, inputs, schedules of parties and deliveries", "why_tests_cant": "programs, inputs and schedules are unbounded", "anchors": ["mplang/dialects/simp.py: pcall_static, shuffle_static, converge", "mplang/backends/simp_worker/ops.py", "mplang/libs/ml/sgb.py", "mplang/libs/mpc"]}
{"id": "C112", "title": "SecureBoost among parties is SecureBoost in one place, and sends only what it may", "statement": "SecureBoost.fit, predict and evaluate run by an active party and any number of passive parties end under every schedule with exactly the model, probabilities and accuracy of the same algorithm run in one place on all the data; split features and thresholds are held by the party whose columns they concern, leaf flags and owners by everyone, leaf values, predictions and scores by the active party only. Messages to a passive party are ciphertexts, public and evaluation keys' parts, the samples' nodes, leaf flags, owners, node numbers and the best splits of its own columns; messages to the active party are encrypted histograms, the samples' nodes and prediction masks. Labels, gradients, predictions, the secret key, columns and bins are never sent.", "quantifier": "all party counts, ranks, data, depths, numbers of trees, behaviours of the local kernels (including randomised encryption), schedules", "why_tests_cant": "depth, trees, parties and schedules are unbounded and tests cannot show that something is never sent", "anchors": ["mplang/libs/ml/sgb.py: SecureBoost, fit_tree_ensemble, build_tree, predict_tree, predict_ensemble, _find_splits_ap, _find_splits_pps, _update_tree_state, fhe_encrypt_gh, fhe_histogram_optimized, decrypt_histogram_results"]}
{"id": "C113", "title": "Two-party protocols between parties compute what they compute in one place, and send only what they may", "statement": "The OT extension, the VOLE and silent VOLE, the RR22 and the unbalanced set intersection and the OPRF, run by two of any number of parties, end under every schedule: the OT receiver has exactly the messages its bits choose, VOLE shares satisfy w = v + u*delta at the right parties, the PSI receiver (client) has a mask with every common item marked (and for RR22 an item the sender does not have is marked only by a hash or tag coincidence), the OPRF outputs agree for equal items of a row; no third party gets anything. The only messages are, per protocol, the listed ones: common point, public keys, encrypted seeds, correction matrix, ciphertexts, VOLE corrections, expansion seed, hash seed, masked table, truncated tag hashes; no secret choice vector, private key, PRG seed, share, delta, item list, unmasked table or full tag is ever sent. In the unbalanced protocol nothing the server holds depends on the client's items.", "quantifier": "all party counts and ranks, item lists, messages, choice bits, draws, hash and AES functions, vector lengths, schedules", "why_tests_cant": "inputs, lengths, ranks and schedules are unbounded and tests cannot show that something is never sent", "anchors": ["mplang/libs/mpc/ot/extension.py: iknp_core, transfer_extension", "mplang/libs/mpc/vole/gilboa.py: vole", "mplang/libs/mpc/ot/silent.py: silent_vole_random_u", "mplang/libs/mpc/psi/rr22.py: psi_intersect", "mplang/libs/mpc/psi/unbalanced.py: psi_unbalanced", "mplang/libs/mpc/psi/oprf.py: eval_oprf, sender_eval_prf_batch"]}
{"id": "C114", "title": "The sends of a reported request are over, and the statistics count them", "statement": "When a worker reports a request as executed, every send the request made has been delivered or has failed, the messages of those that succeeded are stored at their receivers, exactly once; a failed send is reported as a failure of the request. The set of outstanding sends never leaks: in rest it holds exactly the unfinished ones. No more transfers run at a time than there are parties, every transfer eventually runs and ends, and waiting for them ends. The counters of the statistics are, at every moment, the number and total bytes of the successful sends and the number of failed ones.", "quantifier": "all interleavings of request threads, pool threads, callbacks and peers; any number of requests and sends; every outcome of every transfer", "why_tests_cant": "the property is about all interleavings of submission, completion, callback and waiting threads; tests see one schedule", "anchors": ["mplang/backends/simp_worker/http.py: HttpCommunicator.send, _do_send, _remove_pending_send, wait_pending_sends, CommStats, register_routes._do_execute"]}
{"id": "C115", "title": "Base transfer, permutation and shuffle group-by between the parties: result and what each party learns", "statement": "Run by parties that exchange messages: the base oblivious transfer delivers exactly the chosen messages to the receiver, the oblivious permutation delivers the permuted list, and the shuffle-based group-by delivers the sum of each bin modulo 2^64, whatever the ranks, the number of parties and the schedule, and only the documented messages are sent. In the group-by the receiver learns nothing about the data beyond the sums: for data with the same sums it sees the same for matching masks. The sender learns nothing about the bins: for any other bins it sees the same after reflecting the receiver's scalars at fixed positions. The helper learns nothing about the data at all.", "quantifier": "all group orders, curves, ciphers, data, bins, masks, permutations, ordinary draws, party numbers, ranks and schedules", "why_tests_cant": "the claims are about every schedule and about pairs of runs with different secrets and draws", "anchors": ["mplang/libs/mpc/ot/base.py: transfer", "mplang/libs/mpc/analytics/permutation.py: secure_switch, apply_permutation", "mplang/libs/mpc/analytics/groupby.py: oblivious_groupby_sum_shuffle"]}
{"id": "C116", "title": "SecureBoost by the parties computes the boosted model", "statement": "When the parties run SecureBoost fit, predict and evaluate over the network, the run ends without an error under every schedule, the number of trees is n_estimators, each tree is built level by level from what the split search answers (winner of a node: the first party no later party beats; a node becomes a leaf exactly if the winning gain says so), its leaf values are those of the gradients at the scores of the earlier trees, and the active party alone gets for every new row the sigmoid of the base score plus learning rate times the values of the leaves the row is led to, and their accuracy. If the search keeps to its boundaries, every leaf value minimises the regularised second order loss over the training samples the finished tree leads to that leaf.", "quantifier": "all numbers of parties and ranks, samples, labels, depths, learning rates, numbers of trees, split searches (gains, features, bins, histograms, ciphertexts: arbitrary functions), new rows, schedules and delivery orders", "why_tests_cant": "Tests run a few rows with two or three parties in one process; the statement is about every schedule of the parties, every data set and every outcome of the search.", "anchors": ["mplang/libs/ml/sgb.py: SecureBoost, fit_tree_ensemble, build_tree, predict_ensemble, predict_tree, update_bt, merge_bt_updates, compute_leaf_values"]}
{"id": "C117", "title": "Homomorphic group-by over the network: result, messages, views", "statement": "When the parties run the BFV group-by over the network, under every schedule the receiver ends with the sum of the data in every bin, the only messages are the encrypted chunks, keys, encoder and result to the receiver and the encrypted sums to the sender; the sender learns about the bins only the sums it decrypts, the receiver about the data only the sums, other parties nothing.", "quantifier": "all numbers of parties and ranks, data, bins, numbers of bins, polynomial degrees and plain moduli, schedules and delivery orders", "why_tests_cant": "Tests look at the result of one run in one process; views compare pairs of runs, and the schedules are unbounded.", "anchors": ["mplang/libs/mpc/analytics/groupby.py: oblivious_groupby_sum_bfv", "mplang/libs/mpc/analytics/aggregation.py: rotate_and_sum", "mplang/backends/bfv_impl.py: make_relin_keys_impl, make_galois_keys_impl, BFVSecretContextValue.to_json"]}
{"id": "C118", "title": "Protocols called from the driver", "statement": "A multi-party protocol called directly from the driver, so that every local computation, transfer and merge is a request of its own, leaves with the parties exactly what it leaves when it is part of one traced graph: fetching any of its results gives the value for the parties that hold it and None for the others, whatever else is in the workers' stores and under every schedule.", "quantifier": "all protocols made of local calls, shuffles and merges (values may decide nothing while tracing), inputs, prior store contents, numbers of parties, schedules and delivery orders", "why_tests_cant": "Two modes of execution, each with unboundedly many schedules, are compared for every program.", "anchors": ["mplang/backends/simp_driver/ops.py: _wrap_op_as_graph, _generic_simp_dispatch", "mplang/backends/simp_worker/ops.py", "mplang/edsl/tracer.py", "mplang/__init__.py: fetch", "mplang/libs/mpc/psi/rr22.py", "mplang/libs/mpc/analytics/groupby.py"]}
{"id": "C119", "title": "Clusters started from the command line", "statement": "Workers started with the same flags or config file agree on all addresses, and the address each has for rank s names the port on which worker s listens; up starts exactly the workers that worker --rank would; the driver started by run, and the status and objects commands, look for the workers where they are; a config file written by config gen gives the cluster that the same flags give; and the SPU addresses are those asked for, different for different ranks.", "quantifier": "all flags, config files, ranks and numbers of workers", "why_tests_cant": "A test starts one or two fixed clusters; the agreement must hold for every file and combination of flags.", "anchors": ["mplang/cli.py: build_endpoints, cmd_worker, cmd_up, cmd_status, cmd_objects, cmd_run, cmd_config_gen", "mplang/backends/simp_driver/http.py: SimpHttpDriver.__init__", "mplang/libs/device/cluster.py: ClusterSpec.from_dict, ClusterSpec.simple"]}
{"id": "C120", "title": "Stopping a local cluster", "statement": "When a local cluster started with up receives an interrupt or termination signal, at whatever moment while it is starting or running, every worker process it started is terminated.", "quantifier": "all numbers of workers and all moments of the signal", "why_tests_cant": "The signal can arrive between any two steps.", "anchors": ["mplang/cli.py: cmd_up"]}
{"id": "C121", "title": "Execution traces", "statement": "With tracing on, every run of an operation leaves exactly one event for its time in the queue and one for its time running, with its opcode, times and process, however threads interleave; a disabled tracer records nothing; a saved file holds the events of the job; merging the files of the workers of a job keeps every event, tags it with the rank that recorded it, keeps events of one process together and never mixes events of different ranks or processes.", "quantifier": "all interleavings of tracer calls, job ids, ranks, trace files and events", "why_tests_cant": "The interleavings and file contents are unbounded; the collisions need particular process numbers.", "anchors": ["mplang/runtime/interpreter.py: ExecutionTracer, Interpreter._evaluate_graph_async", "mplang/cli.py: cmd_trace_merge", "mplang/backends/simp_driver/mem.py: MemCluster.__init__", "mplang/backends/simp_worker/http.py: create_worker_app"]}
{"id": "C122", "title": "LDPC reference encoder, decoder and structure check", "statement": "The dense reference encoder agrees with the sparse encoder on every matrix and message; decoding the syndrome of an error of the stated weight returns that error; and every generated matrix passes the structure check.", "quantifier": "all matrices, messages, errors, sizes and random draws", "why_tests_cant": "These helpers are themselves what tests use to check the encoder; their agreement is for all matrices and messages.", "anchors": ["mplang/libs/mpc/vole/ldpc.py: ldpc_encode_dense_jax, ldpc_decode_syndrome, verify_ldpc_structure", "mplang/kernels/py_kernels.py: ldpc_encode"]}
{"id": "C123", "title": "What is printed is what will run", "statement": "The text of a type (str(type)) determines the type, and the text of a graph (format_graph; str(graph), to_string and compiler_ir) determines the graph: two graphs that print alike have the same inputs, operations in the same order, opcodes, operands, nesting of regions and outputs, and the same types and attributes as far as the options show them.", "quantifier": "all types, all graphs with any nesting of regions, all options and indentations", "why_tests_cant": "That no two different programs print alike is a statement about all pairs of programs.", "anchors": ["mplang/edsl/printer.py: GraphPrinter, format_graph; mplang/edsl/graph.py: Graph.to_string", "mplang/edsl/typing.py: __str__ of every type", "mplang/dialects/{crypto,phe,bfv,tee}.py: __str__"]}
{"id": "C124", "title": "Failing programs and shutdown", "statement": "A program whose parties all end well returns their results in the order of the parties; a program in which a party fails raises that party's error, of this very program, and does not affect other programs or later ones. After a shutdown nobody waits for ever. Shutting an interpreter down again changes nothing, and the interpreter of a request never stops what it shares with others.", "quantifier": "all histories of submissions, thread starts, blocked and woken receives, results, errors, collects and shutdowns of any number of programs on any number of threads", "why_tests_cant": "Which failure the caller sees, and what becomes of the other programs, depends on the schedule of the threads.", "anchors": ["mplang/backends/simp_driver/mem.py: SimpMemDriver.submit/collect/shutdown", "mplang/backends/simp_worker/mem.py: ThreadCommunicator.recv/shutdown, LocalMesh", "mplang/backends/simp_driver/http.py: SimpHttpDriver.collect", "mplang/runtime/interpreter.py: Interpreter.shutdown", "mplang/backends/simp_worker/request.py: create_request_interpreter"]}
{"id": "C125", "title": "A function run on the SPU", "statement": "spu.run_jax(f, ...) inside a static call of the SPU's members: every member gets shares in the structure of f's result, and the shares of an output, opened together in member order, are the output of f (in SPU arithmetic) on the values behind the arguments, with every plain argument where the user put it, and whatever earlier runs left in the members' runtimes. Arguments that are neither shares of tensors nor tensors are refused; shares are secret and tensors public. Shares made of a tensor and opened again give its value; what is opened together must be shares of one tensor.", "quantifier": "all functions and nestings of arguments, numbers of members, seeds, histories of the runtimes; libspu and jax by contract", "why_tests_cant": "Tests run a few functions on small inputs with two or three members; they do not range over structures of arguments, members or earlier runs.", "anchors": ["mplang/dialects/spu.py: run_jax, _makeshares_ae, _reconstruct_ae", "mplang/backends/spu_impl.py: exec_impl, makeshares_impl, reconstruct_impl"]}
{"id": "C126", "title": "The environment a program is compiled and run in", "statement": "A simulator, a driver or a compile context made for n parties has a cluster of n nodes, so devices and mp.function stand for parties that exist; a compile context sees what the simulator or driver of the same cluster sees; nested contexts: devices and mp.function follow the same, innermost environment. A cluster and a number of parties that do not fit are refused. A program that uses only the first parties gives them the same values in a smaller or larger world.", "quantifier": "all clusters, numbers of parties, nestings of contexts, programs and schedules", "why_tests_cant": "Tests use matching sizes; a mismatch shows only in values that are missing, and programs are not run in worlds of other sizes.", "anchors": ["mplang/dialects/simp.py: make_simulator, make_driver, make_compile_context", "mplang/backends/simp_driver/mem.py: make_simulator", "mplang/backends/simp_driver/http.py: make_driver", "mplang/libs/device/api.py: _resolve_cluster", "mplang/__init__.py: function"]}
{"id": "C127", "title": "The operation profiler", "statement": "Enabling profiling changes neither values nor errors nor the course of a program. From enabling on, every operation that returns is recorded once with its duration, one that raises is not; switched off, nothing is recorded. The summary has one row per recorded operation, in order of names, with the number, sum, smallest and largest of its times; the table shows the rows with the largest totals in falling order and says how many are left out. The total of the leaf summary counts no time twice: it is at most the time that passed.", "quantifier": "all executions (trees of nested operation calls, raising or not, switching the profiler anywhere), recorded times and table lengths", "why_tests_cant": "Tests do not nest operations under a profiler and check no totals.", "anchors": ["mplang/edsl/registry.py: OpProfiler, get_impl, enable_profiling, disable_profiling, get_profiler", "mplang/backends/func_impl.py: func_call_impl", "mplang/backends/tensor_impl.py: elementwise_impl"]}
{"id": "C128", "title": "Tables given as constants", "statement": "A table given as a constant (a dictionary of columns, a DataFrame or an Arrow table) evaluates to a table with exactly the given columns in the given order, whose types are the declared ones, whether it is built in place, in the process of a worker that received the program, or put on a party with simp.constant or mp.put.", "quantifier": "all dictionaries of lists (None, booleans, integers, floats, strings, bytes) and arrays, all DataFrames and Arrow tables", "why_tests_cant": "Tests use a few complete columns; a wrong declared type or column order shows only in later steps that rely on it.", "anchors": ["mplang/dialects/table.py: constant, _constant_ae", "mplang/backends/table_impl.py: constant_impl", "mplang/dialects/simp.py: constant", "mplang/edsl/serde.py: to_json", "mplang/utils/func_utils.py: var_morph", "mplang/dialects/dtypes.py: from_pandas, from_arrow"]}
{"id": "C129", "title": "How much the protocols send", "statement": "For every run of oblivious transfer, VOLE (Gilboa, silent, Silver), OPRF, private set intersection and unbalanced intersection, the number, direction and size in bytes of the messages are fixed by public numbers (item counts, table and base sizes) as documented: linear in the receiver's or sender's items, below the library's own estimates, in the client's size for the unbalanced protocol, and about 1300 times less for Silver. The same holds, in numbers of elements, for the base transfer, the oblivious permutation and both group-bys (whatever the data, the permutation and the bins), and, in number and order of messages, for training and evaluating SecureBoost (whatever the labels, the columns and the shape of the trees).", "quantifier": "all inputs, draws, keys, kernels and runs; all sizes", "why_tests_cant": "a run measures one size with one input", "anchors": ["mplang/libs/mpc/ot/extension.py", "mplang/libs/mpc/vole/gilboa.py", "mplang/libs/mpc/vole/silver.py: silver_vole, estimate_silver_communication", "mplang/libs/mpc/psi/rr22.py", "mplang/libs/mpc/psi/unbalanced.py", "mplang/libs/mpc/psi/oprf.py"]}
{"id": "C130", "title": "Serialised objects come back as their own class", "statement": "A kind belongs to the first class decorated with it, later decorations never take it away and a second class with the same kind is refused; so every accepted object of a class is read back, in the JSON and the binary format, as an instance of exactly that class, whatever the order in which the processes imported the modules.", "quantifier": "all classes with inheritance, all sequences of decorations, all import orders, both formats", "why_tests_cant": "a test registers a few classes in one order in one process", "anchors": ["mplang/edsl/serde.py: register_class, to_json, from_json, _to_binary_json, _from_binary_json"]}
{"id": "C131", "title": "Logging reaches the chosen outputs once", "statement": "The library writes nothing unless logging is configured, and nothing after disable_logging, whatever happened before and for every logger get_logger gives; setup_logging sends each record from the level on exactly once to the stream and file asked for, lower ones nowhere; logging of the rest of the application is never affected.", "quantifier": "all states of Python's logger tree, all histories of library and application calls, all logger names, all record levels, all arguments", "why_tests_cant": "tests call setup_logging with force=True on one stream and look at one record", "anchors": ["mplang/utils/logging.py: setup_logging, disable_logging, get_logger"]}
{"id": "C132", "title": "Running a job from the command line", "statement": "When mplang run or mplang sim has reached the entry function of the user's file, then however that function ends, the user's code has run with the driver as its context, the context stack afterwards is the one from before, exactly this driver is shut down, the result is printed if it is not None, and the command fails iff the entry function failed. A command that fails earlier leaves nothing behind.", "quantifier": "all user files and entry functions (nested with-blocks, exceptions, root changes), context stacks and results", "why_tests_cant": "a test runs one script; cleaning up after every way of failing is a statement about all scripts", "anchors": ["mplang/cli.py: cmd_run, load_user_module, resolve_entry", "mplang/edsl/context.py: push_context, pop_context"]}
{"id": "C133", "title": "Stopping a worker", "statement": "When a worker process is asked to stop, its stop comes to an end, every task it accepted has ended by then, and tasks that were accepted succeed as they would without the stop.", "quantifier": "all tasks (queued or running, with any sequence of local steps, sends and receives), arrival orders and interleavings with the stages of the stop", "why_tests_cant": "a test stops one worker at one moment; the outcome depends on what every task still has to do at that moment", "anchors": ["mplang/backends/simp_worker/http.py: create_worker_app (lifespan), register_routes (_do_execute_async), HttpCommunicator.shutdown"]}
