{"id": "C01", "title": "Validated IR circuits always evaluate", "statement": "If RootCircuit::validate() accepts an IR circuit, evaluating it on an input vector of the declared size (and any public inputs) terminates, never reads an undefined variable and never calls a missing sub-circuit; it returns exactly the declared number of outputs.", "quantifier": "all circuits (any number of instructions, sub-circuits and nesting depth), all input vectors", "why_tests_cant": "Tests evaluate a finite set of random circuits; a missed range check would only show on a circuit that is not generated.", "anchors": ["expander_compiler/src/circuit/ir/common/mod.rs: RootCircuitRelaxed::validate, eval_unsafe, eval_unsafe_sub, topo_order_and_is_dag"]}
{"id": "C02", "title": "Dead code removal preserves meaning", "statement": "remove_unreachable() returns a circuit and an input mapping such that evaluating the new circuit on the mapped inputs yields the same outputs and the same constraint verdict as the old circuit on the original inputs.", "quantifier": "all valid circuits of every IR, all inputs, all sub-circuit call graphs", "why_tests_cant": "It is a whole-program liveness analysis over a DAG of sub-circuits; a random test misses rare sharing patterns.", "anchors": ["expander_compiler/src/circuit/ir/common/opt.rs: remove_unreachable"]}
{"id": "C03", "title": "Deduplication of sub-circuit outputs preserves meaning", "statement": "reassign_duplicate_sub_circuit_outputs(force) returns a circuit with the same outputs and constraint verdict on every input.", "quantifier": "all valid circuits, both values of the flag, all inputs", "why_tests_cant": "Depends on interaction between duplicated/pass-through outputs of sub-circuits and all their call sites.", "anchors": ["expander_compiler/src/circuit/ir/common/opt.rs: reassign_duplicate_sub_circuit_outputs"]}
{"id": "C04", "title": "Chain detection preserves meaning", "statement": "detect_chains() (merging of linear-combination chains and multiplication chains) does not change any output or constraint verdict.", "quantifier": "all source circuits, all inputs", "why_tests_cant": "Chains may be arbitrarily long and share prefixes.", "anchors": ["expander_compiler/src/circuit/ir/source/chains.rs: detect_chains"]}
{"id": "C05", "title": "Linear combinations and expressions: normalisation preserves value", "statement": "Building an Expression from an arbitrary list of terms (normalise, sort, merge equal monomials, drop zero coefficients) yields a strictly sorted expression with no zero coefficient (or the single constant 0) whose value equals the sum of the terms under every assignment.", "quantifier": "all term lists of any length with constants, linear, quadratic and custom terms, all assignments", "why_tests_cant": "Cancellations and collisions of monomials form an unbounded space.", "anchors": ["expander_compiler/src/circuit/ir/expr.rs: Expression::from_terms, from_terms_sorted, compress_identical_terms, LinComb::from_terms", "expander_compiler/src/builder/basic.rs"]}
{"id": "C06", "title": "Hint normalisation is complete", "statement": "For every gadget of the source language (division, boolean operations, is-zero, bit decomposition, non-zero and boolean assertions) the circuit produced by hint normalisation, run with the built-in hint implementations, satisfies all its constraints and computes the same outputs whenever the source circuit's constraints hold.", "quantifier": "all operand values over any field, all numbers of bits", "why_tests_cant": "Field sizes are ~2^31 and ~2^254; tests sample a few values.", "anchors": ["expander_compiler/src/builder/hint_normalize.rs: process", "expander_compiler/src/circuit/ir/source/mod.rs: eval_unsafe", "expander_compiler/src/hints/builtin.rs"]}
{"id": "C07", "title": "Hint normalisation is sound", "statement": "Whatever values a malicious prover supplies for the hints, if all constraints of the normalised circuit hold then the source circuit's constraints hold and every constrained gadget output equals the value the source semantics assigns to it.", "quantifier": "all operand values and all (adversarial) hint values over any field", "why_tests_cant": "Tests run honest hints only; adversarial hint vectors are never enumerated.", "anchors": ["expander_compiler/src/builder/hint_normalize.rs: process_circuit, assert_bool, is_zero, to_binary", "expander_compiler/src/builder/basic.rs: mark, assert"]}
{"id": "C08", "title": "Assertions are never lost by the builder", "statement": "Every assertion that is made while lowering a circuit (explicit ones and those implied by gadgets) is enforced by the emitted circuit: an assignment that violates it violates an emitted constraint.", "quantifier": "all sequences of assert/mark operations on arbitrary expressions", "why_tests_cant": "The loss needs a particular order of two operations on one canonical expression.", "anchors": ["expander_compiler/src/builder/basic.rs: InsnTransformAndExecute, assert, mark, get_constraints"]}
{"id": "C09", "title": "Hint removal and hint export agree", "statement": "remove_and_export_hints(): evaluating the hint-exporting circuit gives an input vector on which the hint-less circuit computes the same outputs and constraint verdict as the original circuit with its hints.", "quantifier": "all circuits with arbitrarily nested sub-circuits containing hints, all inputs, all hint functions", "why_tests_cant": "Hint order must agree between two independent traversals for every nesting structure.", "anchors": ["expander_compiler/src/circuit/ir/hint_normalized/mod.rs: remove_hints_sub, export_hints, remove_and_export_hints"]}
{"id": "C10", "title": "Expression-level lowering preserves meaning", "statement": "final_build_opt (hint-less IR to expression IR) preserves outputs and constraint verdicts, whichever expressions it chooses to materialise.", "quantifier": "all hint-less circuits, all inputs, all materialisation decisions", "why_tests_cant": "The cost-driven decisions depend on the whole circuit; every combination of inlining/materialising must be right.", "anchors": ["expander_compiler/src/builder/final_build_opt.rs: process", "expander_compiler/src/builder/basic.rs: to_expr, to_single, mul_vec"]}
{"id": "C11", "title": "Multiplication fan-out limiting preserves meaning and respects the limit", "statement": "solve_mul_fanout_limit(limit) preserves outputs and verdicts, and in the produced circuit no variable occurs in more multiplication terms than the limit allows.", "quantifier": "all circuits, all limits > 1, all inputs", "why_tests_cant": "The copy-tree arithmetic has off-by-one boundaries for every (count, limit) pair.", "anchors": ["expander_compiler/src/circuit/ir/dest/mul_fanout_limit.rs"]}
{"id": "C12", "title": "Constraints exported as outputs are faithful", "statement": "export_constraints() (used when random linear combination of constraints is disabled) yields a circuit whose leading expected-zero outputs are all zero exactly when the original constraints hold, with the original outputs following unchanged.", "quantifier": "all circuits and nesting structures, all inputs", "why_tests_cant": "Ordering across nested sub-circuits is unbounded.", "anchors": ["expander_compiler/src/circuit/ir/dest/mod.rs: export_constraints"]}
{"id": "C13", "title": "Duplicate-variable resolution preserves meaning", "statement": "solve_duplicates() (no variable used twice as output/constraint/call argument) preserves outputs and verdicts, including for circuits that use random values.", "quantifier": "all circuits, all inputs, all outcomes of the random challenges", "why_tests_cant": "Randomised instructions behave differently on each evaluation; a deterministic test cannot observe splitting one challenge into two.", "anchors": ["expander_compiler/src/circuit/ir/dest/mod.rs: solve_duplicates"]}
{"id": "C14", "title": "Splitting circuits at layers preserves meaning", "statement": "split_to_single_layer() returns on every valid circuit with a constraint; the result validates, has no constraints left (their random combination becomes one root output that must be zero), has the same outputs on every input, accepts whenever the original accepts, and can produce every outcome of the original for some choice of the random coefficients.", "quantifier": "all valid expression circuits with nested calls, all inputs, all random coefficients", "why_tests_cant": "Layer assignment depends on the longest paths through nested sub-circuits.", "anchors": ["expander_compiler/src/layering/ir_split.rs"]}
{"id": "C15", "title": "Layered lowering preserves meaning", "statement": "layering::compile returns a layered circuit and an input mapping for every valid expression circuit whose called circuits have inputs, and running the circuit on the mapped inputs gives the expression circuit's outputs, with the combined constraint output zero whenever the constraints hold.", "quantifier": "all valid expression circuits, all inputs, all layouts", "why_tests_cant": "Layout and wiring are global decisions.", "anchors": ["expander_compiler/src/layering/compile.rs", "expander_compiler/src/layering/wire.rs", "expander_compiler/src/layering/layer_layout.rs"]}
{"id": "C16", "title": "Combining constraints with random coefficients is sound and complete", "statement": "If all constraints evaluate to zero the random linear combination is zero for every choice of coefficients; if some constraint is non-zero then over a field with N elements at most a 1/N fraction of coefficient choices makes the combination zero.", "quantifier": "all constraint vectors of any length, all coefficient vectors", "why_tests_cant": "Needs a counting argument over all coefficient vectors.", "anchors": ["expander_compiler/src/layering/wire.rs: combined constraints", "expander_compiler/src/circuit/ir/expr.rs: Term::new_random_linear"]}
{"id": "C17", "title": "Gate deduplication preserves meaning", "statement": "dedup_gates() on a layered circuit preserves the value of every wire for every input.", "quantifier": "all layered circuits, all inputs", "why_tests_cant": "The repository's own randomised test compares the circuit with itself; duplicates with cancelling coefficients are rare.", "anchors": ["expander_compiler/src/circuit/layered/opt.rs: dedup_gates"]}
{"id": "C18", "title": "Common-subsegment extraction and inlining preserve meaning", "statement": "find_common_parts() and expand_small_segments() preserve the value of every output wire for every input.", "quantifier": "all layered circuits, all inputs", "why_tests_cant": "Which segments share gates and how allocations nest is unbounded.", "anchors": ["expander_compiler/src/circuit/layered/opt.rs: find_common_parts, expand_small_segments, expand_gates"]}
{"id": "C19", "title": "Canonical sorting preserves meaning", "statement": "sort_everything() permutes gates and child segments without changing the circuit's outputs.", "quantifier": "all layered circuits, all inputs", "why_tests_cant": "Universally quantified over gate orderings.", "anchors": ["expander_compiler/src/circuit/layered/opt.rs: sort_everything"]}
{"id": "C20", "title": "Validated layered circuits evaluate without out-of-bounds access", "statement": "If layered Circuit::validate() returns Ok, eval on an input of input_size() elements performs no out-of-range access; and validate itself returns Ok or Err, never panics.", "quantifier": "all layered circuits accepted by validate, all inputs", "why_tests_cant": "A missing check only shows on a circuit no test builds.", "anchors": ["expander_compiler/src/circuit/layered/mod.rs: validate, eval_unsafe, apply_segment_unsafe"]}
{"id": "C21", "title": "Input mappings compose", "statement": "InputMapping::compose/map_inputs: mapping inputs through a composed mapping equals mapping them through both in turn, the identity is neutral, composition is associative, and EMPTY (dropped) inputs stay dropped.", "quantifier": "all mappings of all sizes, all input vectors", "why_tests_cant": "Algebraic law over unbounded vectors.", "anchors": ["expander_compiler/src/circuit/input_mapping.rs"]}
{"id": "C22", "title": "Optimising until a fixed point composes all mappings", "statement": "optimize_until_fixed_point returns a circuit equivalent to its input under the returned mapping, for any number of iterations of any meaning-preserving pass; with the passes the compiler uses it stops on every valid circuit.", "quantifier": "all passes satisfying the pass contract, all iteration counts, all circuits", "why_tests_cant": "The number of rounds is unbounded.", "anchors": ["expander_compiler/src/compile/mod.rs: optimize_until_fixed_point"]}
{"id": "C23", "title": "Re-adding removed inputs restores the public interface", "statement": "add_back_removed_inputs(mapping) gives a circuit over the original inputs whose outputs equal those of the optimised circuit on the mapped inputs.", "quantifier": "all mappings, all circuits, all inputs", "why_tests_cant": "Unbounded numbers/positions of dropped inputs.", "anchors": ["expander_compiler/src/circuit/ir/hint_normalized/mod.rs: add_back_removed_inputs"]}
{"id": "C24", "title": "End-to-end compilation correctness", "statement": "For a circuit accepted by compile_with_options, solving the witness for an assignment and running the layered circuit on it accepts exactly when the source circuit's constraints hold on that assignment.", "quantifier": "all source circuits, options, assignments", "why_tests_cant": "Composition of all passes.", "anchors": ["expander_compiler/src/compile/mod.rs: compile_with_options"]}
{"id": "C25", "title": "Serialisation round trips", "statement": "Deserialising what was serialised returns the same value and consumes exactly the written bytes, for source and hint-normalised circuits, layered circuits (both input kinds) and witnesses.", "quantifier": "all values of all sizes with 64-bit counts", "why_tests_cant": "Nested variable-length encodings.", "anchors": ["expander_compiler/src/circuit/ir/source/serde.rs", "expander_compiler/src/circuit/ir/hint_normalized/serde.rs", "expander_compiler/src/circuit/layered/serde.rs", "expander_compiler/src/circuit/layered/witness.rs", "expander_compiler/src/circuit/ir/common/serde.rs"]}
{"id": "C26", "title": "Witness packing is lossless and SIMD evaluation is lane-wise", "statement": "Packing n witnesses into SIMD lanes and iterating gives back the n witnesses in order (padding aside), and running the packed layered circuit gives each witness the verdict of running it alone.", "quantifier": "all witness counts including non-multiples of the pack size, all circuits", "why_tests_cant": "Boundary behaviour for every n and pack size.", "anchors": ["expander_compiler/src/circuit/layered/witness.rs: Witness, convert_to_simd, iter_simd, run"]}
{"id": "C27", "title": "Witness solving is functional correctness of the hint-exporting circuit", "statement": "solve_witness returns the input vector that extends the user's assignment with the hint values in the order the layered circuit expects, and fails when a wrong number of inputs is supplied.", "quantifier": "all assignments and hint callers", "why_tests_cant": "Hint callers are arbitrary functions.", "anchors": ["expander_compiler/src/circuit/ir/hint_normalized/witness_solver.rs"]}
{"id": "C28", "title": "Built-in hint functions meet their specification", "statement": "to_binary returns the unique little-endian bits or an error when the value does not fit; pow is exponentiation; int_div/mod are Euclidean (0 when the divisor is 0); shifts follow the circom convention; comparisons compare canonical representatives.", "quantifier": "all 256-bit canonical representatives and all bit counts", "why_tests_cant": "2^254 operands.", "anchors": ["expander_compiler/src/hints/builtin.rs"]}
{"id": "C29", "title": "Frontend builder emits well-formed circuits with the documented values", "statement": "Any sequence of API calls using variables returned earlier produces a circuit in which every reference is defined and each returned variable has the value documented for the call; constants folded by constant_value agree with evaluation.", "quantifier": "all call sequences and all inputs", "why_tests_cant": "Unbounded programs.", "anchors": ["expander_compiler/src/frontend/builder.rs: Builder, RootBuilder"]}
{"id": "C30", "title": "Comparison API is correct", "statement": "gt(x,y)/geq(x,y) return 1 exactly when x>y / x>=y as canonical integers, for every witness accepted by the constraints.", "quantifier": "all x, y in the field and all adversarial hint values", "why_tests_cant": "Only adversarial bit decompositions expose aliasing modulo the field order.", "anchors": ["expander_compiler/src/frontend/builder.rs: gt, geq", "expander_compiler/src/builder/hint_normalize.rs: to_binary"]}
{"id": "C31", "title": "Memoised sub-circuit calls run the function that was called", "statement": "Calling a #[memorized] function yields the outputs of that function's body on the given arguments, whatever memoised functions were called before.", "quantifier": "all histories of memoised calls", "why_tests_cant": "Needs two different functions with the same argument shape in one program.", "anchors": ["expander_compiler/macros/src/lib.rs: memorized", "expander_compiler/src/frontend/builder.rs: call_sub_circuit, hash_to_sub_circuit_id, memorized_simple_call"]}
{"id": "C32", "title": "Argument flattening for memoised calls is lossless", "statement": "rebuild_vec_variables(join_vec_variables(x)) = x for nested vectors, and arguments with different structure or primitive values feed different byte strings to the hash.", "quantifier": "all nestings and lengths", "why_tests_cant": "Prefix-ambiguity shows only for particular length combinations.", "anchors": ["expander_compiler/src/frontend/sub_circuit.rs"]}
{"id": "C33", "title": "Circuit struct declaration: counts match dumps", "statement": "For a struct made with declare_circuit!, num_vars() equals the number of values dump_into() writes, and load_from reads back what dump_into wrote.", "quantifier": "all field types built from Variable, PublicVariable, fixed arrays and vectors, all lengths", "why_tests_cant": "Ragged nested vectors are not tested.", "anchors": ["expander_compiler/src/frontend/circuit.rs: declare_circuit_num_vars, declare_circuit_dump_into, declare_circuit_load_from"]}
{"id": "C34", "title": "Device memory flatten/unflatten round trips", "statement": "unflatten_shaped(flatten_shaped(v)) = v for rectangular nested vectors, also for the SIMD-packed variants.", "quantifier": "all shapes and contents", "why_tests_cant": "Unbounded dimensions.", "anchors": ["expander_compiler/src/zkcuda/vec_shaped.rs"]}
{"id": "C35", "title": "Transpose/reshape histories denote index permutations", "statement": "After any sequence of transposes and reshapes, reading a handle back gives the row-major array obtained by applying each operation mathematically (numpy semantics).", "quantifier": "all shapes, all permutations, all sequences", "why_tests_cant": "Histories are unbounded.", "anchors": ["expander_compiler/src/zkcuda/shape.rs: ShapeHistory, permute_vec"]}
{"id": "C36", "title": "Padded layouts agree", "statement": "shape_padded_mapping sends each element to the position where multi_dimension_data_padding puts it; padded lengths are the products of next powers of two; padding repeats existing data.", "quantifier": "all shapes and data", "why_tests_cant": "Unbounded dimensions.", "anchors": ["expander_compiler/src/zkcuda/shape.rs: shape_padded_mapping, multi_dimension_data_padding, shape_vec_padded_len"]}
{"id": "C37", "title": "Kernel registration uses the kernel that was called", "statement": "In a proof template the kernel recorded for a call is the kernel passed to that call.", "quantifier": "all histories of kernel calls and all memory addresses of kernels", "why_tests_cant": "Address reuse depends on allocation history.", "anchors": ["expander_compiler/src/zkcuda/context.rs: call_kernel kernel_ptr_cache"]}
{"id": "C38", "title": "Loading a compiled computation graph succeeds for the program that compiled it", "statement": "load_computation_graph(compile_computation_graph()) succeeds for the same sequence of calls and yields the same templates.", "quantifier": "all call histories", "why_tests_cant": "Needs one kernel compiled for two layouts.", "anchors": ["expander_compiler/src/zkcuda/context.rs: compile_or_load_computation_graph"]}
{"id": "C39", "title": "Utility data structures meet their contracts", "statement": "Union-find represents the equivalence closure of the unions; heap pop returns a minimum and preserves contents; bucket sort is a stable sort; pool ids are stable and injective; topological order lists callers before callees exactly for DAGs; power-of-two helpers return the tight bounds; the static hash map returns the index of each key.", "quantifier": "all operation sequences and sizes", "why_tests_cant": "Unbounded histories.", "anchors": ["expander_compiler/src/utils/union_find.rs", "expander_compiler/src/utils/heap.rs", "expander_compiler/src/utils/bucket_sort.rs", "expander_compiler/src/utils/pool.rs", "expander_compiler/src/utils/misc.rs", "expander_compiler/src/utils/static_hash_map.rs"]}
{"id": "C40", "title": "LogUp lookup is complete and sound", "statement": "If every query row occurs in the table and counts are right the LogUp check passes for every challenge; if some query is not in the table then at most (rows+queries) challenges pass, in fields whose characteristic exceeds the number of queries.", "quantifier": "all tables, queries, counts and challenges", "why_tests_cant": "Soundness is a counting statement over all challenges.", "anchors": ["circuit-std-rs/src/logup.rs: logup_poly_val, sum_rational_vec, final_check"]}
{"id": "C41", "title": "Range proof accepts exactly the range", "statement": "rangeproof(a, n) is accepted only if a, as a canonical integer, is below 2^n (and is accepted for all such a).", "quantifier": "all a in the field, all n, all chunk sizes, all adversarial hints", "why_tests_cant": "Adversarial values outside the range are not tested.", "anchors": ["circuit-std-rs/src/logup.rs: LogUpRangeProofTable::rangeproof, rangeproof_onechunk"]}
{"id": "C42", "title": "Matrix multiplication check is sound", "statement": "MatMulCircuit accepts (A,B,C) for more than a negligible fraction of challenges only if C = A*B.", "quantifier": "all matrices and challenges", "why_tests_cant": "Needs adversarial C and structured A.", "anchors": ["circuit-std-rs/src/matmul.rs: MatMulCircuit::define"]}
{"id": "C43", "title": "SHA-256 over GF(2) computes SHA-256", "statement": "The 32-bit adders, constant adders, rotations and boolean functions of the GF(2) SHA-256 gadget compute the integer/bit operations of FIPS 180-4 on every input, and finalize pads every message length to a multiple of 512 bits as the standard says.", "quantifier": "all words and all message lengths", "why_tests_cant": "2^64 operand pairs; all lengths modulo 512.", "anchors": ["circuit-std-rs/src/sha256/gf2_utils.rs", "circuit-std-rs/src/sha256/gf2.rs"]}
{"id": "C44", "title": "Big-integer (u120/u2048) gadgets are sound", "statement": "assert_mul/assert_add/assert_is_less_than accept only when the integer relation holds modulo the modulus.", "quantifier": "all limb vectors and all adversarial hints", "why_tests_cant": "Adversarial hints.", "anchors": ["circuit-std-rs/src/non_native/u120.rs", "circuit-std-rs/src/non_native/u2048.rs"]}
{"id": "C45", "title": "The Poseidon gadget computes Poseidon", "statement": "hash_to_state in a circuit returns, for every message, rate, width, constants and numbers of rounds, the Poseidon sponge state; the u32 reference implementation returns the same state for every message of reduced numbers; hash_to_state_flatten accepts no other state whatever values the prover chooses for the copies.", "quantifier": "all messages of all lengths, all rates, widths, round numbers, constants, adversarial hints", "why_tests_cant": "Messages of unbounded length; adversarial hint values.", "anchors": ["circuit-std-rs/src/poseidon/poseidon_m31.rs", "circuit-std-rs/src/poseidon/poseidon_u32.rs"]}
{"id": "C46", "title": "A valid circuit is compiled", "statement": "compile() of a valid circuit in which every circuit has inputs, which uses no constraint that can never hold and no division by a constant zero, returns circuits: none of the stages panics or reports an error.", "quantifier": "all valid circuits, all compile options, all input types", "why_tests_cant": "A test exercises finitely many circuits; a panic may be hidden in any shape of layers and calls.", "anchors": ["expander_compiler/src/compile/mod.rs", "expander_compiler/src/layering/ir_split.rs", "expander_compiler/src/layering/compile.rs", "expander_compiler/src/circuit/ir/dest/mod.rs: validate_circuit_has_inputs"]}
{"id": "C47", "title": "Random coefficients hide a violated constraint only rarely", "statement": "For a witness fixed before the random coefficients are drawn, a compiled circuit whose source constraints are violated accepts on at most a fraction D/|F| of the coefficients, where D is the degree of the circuit in the coefficients; if the constraints hold it accepts on all of them.", "quantifier": "all layered circuits, all witnesses, all coefficient vectors of all lengths", "why_tests_cant": "A probability over a field with more than 2^31 elements and over adversarial witnesses cannot be sampled.", "anchors": ["expander_compiler/src/circuit/layered/mod.rs: eval_with_public_inputs", "expander_compiler/src/layering/wire.rs", "expander_compiler/src/layering/ir_split.rs"]}
{"id": "C48", "title": "Padding and reordering kernel inputs keeps the meaning of a kernel", "statement": "When a kernel is compiled for given input, output and hint vectors of given shapes, each vector is assigned a block of power-of-two length (product of the next powers of two of its sides), aligned to its length, inside the input of the layered circuit; blocks do not overlap; and on every buffer that holds each vector at its padded positions (whatever the padding holds) the reordered circuit validates and has exactly the results of the original circuit on the concatenated vectors.", "quantifier": "all valid kernel circuits, all lists of shapes with non-zero sides, all vectors, all contents of the padding", "why_tests_cant": "Alignment and disjointness depend on all shapes together, and every variable of the circuit is renumbered; tests try a few shapes.", "anchors": ["expander_compiler/src/zkcuda/kernel.rs: reorder_ir_inputs, compile_primitive", "expander_compiler/src/zkcuda/shape.rs: shape_padded_mapping"]}
{"id": "C49", "title": "A compiled kernel accepts exactly the data its circuit accepts", "statement": "Compiling a kernel from a circuit and the shapes of its arguments gives a layered circuit with a layout and a solver for the hint values: each argument has an aligned block of its own; for every data the solver computes the hint values; a buffer holding the padded data and these hints is accepted exactly when the circuit's assertions hold on the data; and a buffer with arbitrary hint values is accepted only if they hold.  The circuit used to call the kernel computes the same outputs from the inputs alone.", "quantifier": "all valid circuits, all shapes, all data, all buffers agreeing on the data cells, all witnesses for the hints", "why_tests_cant": "The kernel is the result of a dozen passes plus a relocation of every input; tests compile a few kernels.", "anchors": ["expander_compiler/src/zkcuda/kernel.rs: compile_with_spec_and_shapes, compile_primitive"]}
{"id": "C50", "title": "The large-field SHA-256 gadgets admit the SHA-256 digest and nothing else", "statement": "For an odd prime field above 2^30 (M31 in particular): the byte gadgets are satisfiable on a list of field elements exactly if all of them are bytes, and then the only admitted output is the FIPS 180-4 digest of these bytes, whatever the prover's hints; the bit variant on a 37-byte message given as bits admits exactly the digest; the batch variant on any number of 37-byte messages whose first 32 bytes are equal admits exactly the list of their digests.", "quantifier": "all field elements as input, all message lengths, all hint values, all batches with equal first 32 bytes, all fields with more than 2^30 elements", "why_tests_cant": "Soundness is about all prover-chosen hints (bit decompositions), and the carries of the 26+6 bit additions depend on all message bits; tests run a few messages with honest hints.", "anchors": ["circuit-std-rs/src/sha256/m31.rs: sha256_var_bytes, sha256_37bytes, sha256_37bytes_compress, sha256_37bytes_256batch_compress", "circuit-std-rs/src/sha256/m31_utils.rs: sha_m31_26_add, idiv_mod_bit"]}
{"id": "C51", "title": "The limb helpers compute on limb numbers what their names say, for every prover", "statement": "On numbers given as limbs of n bits over a field with at least 2^(n+1) elements (n < 32): adding with reduction admits exactly the limbs of the sum modulo 2^(nk), adding without a final reduction exactly the whole sum, the comparison of limbs and of limb numbers (two limbs or more) exactly the truth value of <, the zero test exactly whether all limbs are zero; division by a power of two, the conversions to bytes (big-endian 32 and 64 bits) and to bits are satisfiable exactly on elements below 2^30 and admit exactly the quotient and remainder, bytes or bits; the conversion from bits, of integers to limbs, and the selection by one or two boolean selectors are exact.", "quantifier": "all limb values in range, all numbers of limbs, all limb widths below 32 with 2^(n+1) at most the modulus, all hint values", "why_tests_cant": "Soundness is about every bit decomposition a prover may choose; at 30 bits over M31 the helpers are unsound on two values only.", "anchors": ["circuit-std-rs/src/sha256/m31_utils.rs: big_array_add_reduce, big_array_add, big_array_add_no_reduce, my_is_less, big_less_than, big_is_zero, idiv_mod_bit, big_endian_m31_array_put_uint32, m31_26_array_put_uint32, big_endian_put_uint64, m31_to_bit_array, bit_array_to_m31, bigint_to_m31_array, string_to_m31_array", "circuit-std-rs/src/utils.rs: simple_select, simple_lookup2"]}
{"id": "C52", "title": "Emulated field arithmetic computes modulo the emulated modulus, for every prover", "statement": "The operations of the emulated field (add, sub, neg, mul, div, inverse, mul_const, reduce, copy, select, is_zero, assert_is_equal) on elements given by limbs: whenever the circuit accepts (the registered checks hold at the random challenge), the number of the result is the operation on the numbers of the operands modulo the emulated modulus, for every value a prover returns from a hint; equal is accepted only of congruent elements, is_zero is 1 exactly on multiples of the modulus; and the honest prover is accepted. (The code fails this: a check is an equation modulo the native modulus only.)", "quantifier": "all emulated moduli that fit their limbs, all native fields with at least 2^28 elements, all operands within their stated overflow, all hint values, all challenges", "why_tests_cant": "Soundness is about every quotient, remainder and carry a prover may choose; tests run honest hints on a few operands.", "anchors": ["circuit-std-rs/src/gnark/field.rs: GField", "circuit-std-rs/src/gnark/element.rs", "circuit-std-rs/src/gnark/limbs.rs", "circuit-std-rs/src/gnark/utils.rs: sub_padding, nb_multiplication_res_limbs", "circuit-std-rs/src/gnark/emparam.rs"]}
{"id": "C53", "title": "The extension tower of BLS12-381 computes in the field with p^12 elements, for every prover", "statement": "The operations of Ext2, Ext6 and Ext12 (add, sub, neg, double, mul, square, the sparse products, products by non-residues, conjugate, div, inverse, copy, assert_isequal, frobenius, frobenius_square, cyclotomic_square, expt) on elements given by emulated coordinates: whenever the circuit accepts, the result is the operation of the extension (u^2 = -1, v^3 = 1 + u, w^2 = v) on the operands, for every value a prover returns from a hint; cyclotomic_square and expt are the square and the power by the seed of elements of the cyclotomic subgroup; the honest prover is accepted; assert_final_exponentiation_is_one accepts only elements whose final exponentiation is one. (The code fails the last, and the first for the reason of C52.)", "quantifier": "all elements of the extensions, all limbs in range that represent them, all hint values, all challenges", "why_tests_cant": "a test multiplies a few elements with the honest hints; a wrong coefficient shows up only where it does not vanish, and a test never plays the dishonest prover", "anchors": ["circuit-std-rs/src/gnark/emulated/field_bls12381/e2.rs: Ext2", "circuit-std-rs/src/gnark/emulated/field_bls12381/e6.rs: Ext6", "circuit-std-rs/src/gnark/emulated/field_bls12381/e12.rs: Ext12"]}
