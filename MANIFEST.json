{
 "claims": [
  {
   "property": "C01",
   "status": "proved",
   "theorems": [
    "Verif.Props.C01_source",
    "Verif.Props.C01_hintNormalized",
    "Verif.Props.C01_hintLess",
    "Verif.Props.C01_dest",
    "Verif.Props.C01_validate_iff"
   ],
   "note": "All four IR languages. The source `commit` instruction (unimplemented in the evaluator) counts as an Err result."
  },
  {
   "property": "C02",
   "status": "partial",
   "theorems": [
    "Verif.Props.C02_hintNormalized",
    "Verif.Props.C02_hintLess",
    "Verif.Props.C02_dest",
    "Verif.Props.C02_source_partial",
    "Verif.Props.C02_source_violated"
   ],
   "note": "Equivalence proved for the three later IRs; for source circuits only results are preserved (old result => new result): the converse is false of the code and disproved by C02_source_violated (a dead instruction that would return Err is removed)."
  },
  {
   "property": "C03",
   "status": "proved",
   "theorems": [
    "Verif.Props.C03_source",
    "Verif.Props.C03_hintNormalized",
    "Verif.Props.C03_hintLess",
    "Verif.Props.C03_dest"
   ],
   "note": "Both values of the flag."
  },
  {
   "property": "C04",
   "status": "proved",
   "theorems": [
    "Verif.Props.C04_detectChains",
    "Verif.Props.C04_iterate"
   ],
   "note": ""
  },
  {
   "property": "C05",
   "status": "proved",
   "theorems": [
    "Verif.Props.C05_value",
    "Verif.Props.C05_eval",
    "Verif.Props.C05_shape",
    "Verif.Props.C05_vars",
    "Verif.Props.C05_random_violated"
   ],
   "note": "Random terms are excluded by the property; C05_random_violated shows that they must be."
  },
  {
   "property": "C06",
   "status": "proved",
   "theorems": [
    "Verif.Props.C06_complete",
    "Verif.Props.C06_satisfiable"
   ],
   "note": "Whole of builder/basic.rs and builder/hint_normalize.rs modelled; no panic on validated circuits; every outcome of the source circuit (outputs and verdict) is an outcome of the normalised one with the built-in hints. User errors characterised (only divisions / unconstrained operations)."
  },
  {
   "property": "C07",
   "status": "partial",
   "theorems": [
    "Verif.Props.C07_partial",
    "Verif.Props.C07_gf2",
    "Verif.Props.C07_exact",
    "Verif.Props.C07_constrained",
    "Verif.Props.C07_bits",
    "Verif.Props.C07_violated"
   ],
   "note": "Soundness against arbitrary hint values, for circuits in which no recorded assertion is replaced by a mark, and for every circuit over GF(2). In general the property is false: C07_violated (Or(x, 0) loses the bit assertion on x)."
  },
  {
   "property": "C08",
   "status": "partial",
   "theorems": [
    "Verif.Props.C08_total",
    "Verif.Props.C08_up_to_marks",
    "Verif.Props.C08_no_marks",
    "Verif.Props.C08_partial",
    "Verif.Props.C08_violated"
   ],
   "note": "All request sequences. mark on an already asserted expression replaces the assertion: false in general (C08_violated); proved when no mark hits an asserted expression, and unconditionally up to the marks."
  },
  {
   "property": "C09",
   "status": "proved",
   "theorems": [
    "Verif.Props.C09_removeAndExport",
    "Verif.Props.C09_adversarial"
   ],
   "note": "Roots without any variable are excluded: the exported root always carries the constraint [1], which such a root does not have (validate then rejects it)."
  },
  {
   "property": "C10",
   "status": "partial",
   "theorems": [
    "Verif.Props.C10_finalBuild_partial",
    "Verif.Props.C10_empty_violated"
   ],
   "note": "final_build_opt::process: total (no panic, termination of the product loop), exactly the same outcomes in both directions for every input and every random draw, well-formed result, whatever the cost-driven decisions and tie-breaking order; user error only if unsatisfiable. Missing: validity of the result when the root has no output, which is false (C10_empty_violated)."
  },
  {
   "property": "C11",
   "status": "partial",
   "theorems": [
    "Verif.Props.C11_mulFanout_partial",
    "Verif.Props.C11_limit_panic",
    "Verif.Props.C11_random_violated"
   ],
   "note": "Fan-out bound, validity, totality and forward preservation for all circuits; exact equivalence without random constants. With random constants the full equivalence is false (C11_random_violated: a copied random constant is drawn twice)."
  },
  {
   "property": "C12",
   "status": "proved",
   "theorems": [
    "Verif.Props.C12_exportConstraints",
    "Verif.Props.C12_verdict"
   ],
   "note": ""
  },
  {
   "property": "C13",
   "status": "partial",
   "theorems": [
    "Verif.Props.C13_solveDuplicates_partial",
    "Verif.Props.C13_panic",
    "Verif.Props.C13_random_violated"
   ],
   "note": "The full claim is false: a random constant passed twice to one call is drawn twice afterwards (C13_random_violated). Proved: result valid, no outcome lost, and exactly the same outcomes for circuits without random values."
  },
  {
   "property": "C14",
   "status": "partial",
   "theorems": [
    "Verif.Props.C14_split_partial",
    "Verif.Props.C14_split_noRandom",
    "Verif.Props.C14_total",
    "Verif.Props.C14_noConstraints_violated"
   ],
   "note": "Proved for every validated circuit with at least one reachable constraint (random combination; number of constraints of one circuit non-zero in the field) and, for GF2, for circuits whose constraints were exported. C14_noConstraints_violated: without constraints the number of expected zeroes still grows and the first output is lost. C14_total: the pass returns on every validated circuit (none of its panics is reached)."
  },
  {
   "property": "C15",
   "status": "proved",
   "theorems": [
    "Verif.Props.C15_placed",
    "Verif.Props.C15_layering",
    "Verif.Props.C15_deterministic",
    "Verif.Props.C15_total",
    "Verif.Props.C15_valid"
   ],
   "note": "Full model of layering/{compile,layer_layout,wire,input,mod}.rs: layer scheduling, layouts, wiring, combined constraints, input order. C15_placed/_layering/_deterministic are about every returned result; C15_total: on every validated circuit whose called circuits have inputs the pass returns (no panic is reached). C15_valid: what it returns is accepted by Circuit::validate."
  },
  {
   "property": "C16",
   "status": "proved",
   "theorems": [
    "Verif.Props.C16_gates",
    "Verif.Props.C16_value",
    "Verif.Props.C16_complete",
    "Verif.Props.C16_sound"
   ],
   "note": "Gates emitted for a combined-constraint wire run by the layered evaluator; counting over all coefficient vectors of a finite field."
  },
  {
   "property": "C17",
   "status": "proved",
   "theorems": [
    "Verif.Props.C17",
    "Verif.Props.C17_eval",
    "Verif.Props.C17_wellformed",
    "Verif.Props.C17_valid"
   ],
   "note": "Layered dedup_gates: for every circuit, environment and random tape the set of traces (every wire of every layer) is unchanged."
  },
  {
   "property": "C18",
   "status": "partial",
   "theorems": [
    "Verif.Props.C18_expand_partial",
    "Verif.Props.C18_expand_wellformed",
    "Verif.Props.C18_common_partial",
    "Verif.Props.C18_layered",
    "Verif.Props.C18_loop",
    "Verif.Props.C18_common_violated",
    "Verif.Props.C18_expand_violated"
   ],
   "note": "Every wire is preserved by both passes for all circuits without empty allocation lists (expand) / without repeated identical gates inside a segment, random ones apart (find_common_parts); both restrictions are proved necessary by concrete accepted circuits on which the code changes the result. Every circuit layering::compile returns meets the restrictions and the whole loop of compile_step_3 keeps them (C18_layered, C18_loop): in the compiler the passes never change an outcome. They also keep the circuits valid (used in C46)."
  },
  {
   "property": "C19",
   "status": "proved",
   "theorems": [
    "Verif.Props.C19_perm",
    "Verif.Props.C19",
    "Verif.Props.C19_valid"
   ],
   "note": "sort_everything only permutes, and leaves every trace unchanged."
  },
  {
   "property": "C20",
   "status": "partial",
   "theorems": [
    "Verif.Props.C20_wires",
    "Verif.Props.C20_partial",
    "Verif.Props.C20_validate_total",
    "Verif.Props.C20_validate_total_normal",
    "Verif.Props.C20_initialised",
    "Verif.Props.C20_validate_panics_violated",
    "Verif.Props.C20_output_range_violated",
    "Verif.Props.C20_public_violated"
   ],
   "note": "A validated layered circuit is evaluated without any out-of-range access to wires. As stated the claim is false of the code in three ways (validate can panic; public-input ids and the output range are not checked): proved as _violated theorems."
  },
  {
   "property": "C21",
   "status": "proved",
   "theorems": [
    "Verif.Props.C21_mapInputs",
    "Verif.Props.C21_wrong_length",
    "Verif.Props.C21_compose",
    "Verif.Props.C21_identity",
    "Verif.Props.C21_compose_identity",
    "Verif.Props.C21_compose_assoc",
    "Verif.Props.C21_empty_stays",
    "Verif.Props.C21_sentinel",
    "Verif.Props.C21_validate"
   ],
   "note": ""
  },
  {
   "property": "C22",
   "status": "proved",
   "theorems": [
    "Verif.Props.C22_fixed_point",
    "Verif.Props.C22_cleanup",
    "Verif.Props.C22_hintNormalized",
    "Verif.Props.C22_hintLess",
    "Verif.Props.C22_dest",
    "Verif.Props.C22_source",
    "Verif.Props.C22_hintNormalized_terminates",
    "Verif.Props.C22_hintLess_terminates",
    "Verif.Props.C22_dest_terminates",
    "Verif.Props.C22_prune_terminates",
    "Verif.Props.C22_source_terminates"
   ],
   "note": "Generic over all passes that meet the contract; all closures of the compiler are instances. Every loop the compiler runs stops on every valid circuit."
  },
  {
   "property": "C23",
   "status": "proved",
   "theorems": [
    "Verif.Props.C23_addBack",
    "Verif.Props.C23_valid"
   ],
   "note": ""
  },
  {
   "property": "C24",
   "status": "partial",
   "theorems": [
    "Verif.Props.C24_valid",
    "Verif.Props.C24_complete_partial",
    "Verif.Props.C24_exact_partial",
    "Verif.Props.C24_sound_partial",
    "Verif.Props.C24_solved_partial",
    "Verif.Props.C24_arith_partial",
    "Verif.Props.C24_arith_sound_partial",
    "Verif.Props.C24_run_partial",
    "Verif.Props.C24_solver_partial",
    "Verif.Props.C24_plain"
   ],
   "note": "compile_with_options composed from the models of all its passes (every optimisation level, both relay modes, fan-out limit, random combination or GF2). Completeness for all circuits; exactness (solve, run, accept iff constraints hold) for circuits without random values; soundness against arbitrary witnesses. Partial because acceptance means for all random numbers (the random combination is only probabilistically sound), the constraints are fewer than the characteristic (C14), soundness needs that no assertion was overwritten by a mark (false in general: C07_violated; proved to hold for circuits without boolean operations, and in GF2), and source instructions without influence may fail (C02_source_violated)."
  },
  {
   "property": "C25",
   "status": "proved",
   "theorems": [
    "Verif.Props.C25_source",
    "Verif.Props.C25_hintNormalized",
    "Verif.Props.C25_source_wrong_config",
    "Verif.Props.C25_hintNormalized_wrong_config",
    "Verif.Props.C25_layered",
    "Verif.Props.C25_layered_wrong_field",
    "Verif.Props.C25_layered_injective",
    "Verif.Props.C25_witness"
   ],
   "note": "Byte-exact round trips followed by arbitrary further bytes. The field codec is external (crate arith): parameter assumed to round-trip. Values must fit in 64 bits (hypothesis RootFits/LayeredFits). InputMapping's derived codec is not included."
  },
  {
   "property": "C26",
   "status": "proved",
   "theorems": [
    "Verif.Props.C26_lossless",
    "Verif.Props.C26_lane",
    "Verif.Props.C26_run",
    "Verif.Props.C26_run_total"
   ],
   "note": "Witness packing is lossless and the SIMD run is the lane-wise run."
  },
  {
   "property": "C27",
   "status": "proved",
   "theorems": [
    "Verif.Props.C27_solve",
    "Verif.Props.C27_complete",
    "Verif.Props.C27_lengths",
    "Verif.Props.C27_many"
   ],
   "note": "The model's evaluator carries a recursion bound (fuel); results do not depend on it (runSafe_mono)."
  },
  {
   "property": "C28",
   "status": "proved",
   "theorems": [
    "Verif.Props.C28_toBinary",
    "Verif.Props.C28_toBinary_error",
    "Verif.Props.C28_bits_unique",
    "Verif.Props.C28_pow",
    "Verif.Props.C28_div",
    "Verif.Props.C28_intDiv_mod",
    "Verif.Props.C28_compare",
    "Verif.Props.C28_logic",
    "Verif.Props.C28_bitwise",
    "Verif.Props.C28_select",
    "Verif.Props.C28_shift",
    "Verif.Props.C28_ids",
    "Verif.Props.C28_total"
   ],
   "note": "Shifts are proved for moduli below 2^255 (all supported fields). The order on field elements (external crate) is taken to be that of canonical representatives."
  },
  {
   "property": "C29",
   "status": "proved",
   "theorems": [
    "Verif.Props.C29_validate",
    "Verif.Props.C29_values",
    "Verif.Props.C29_doc",
    "Verif.Props.C29_constant_value",
    "Verif.Props.C29_panics",
    "Verif.Props.C29_adversarial_partial"
   ],
   "note": "For every sequence of frontend API calls, including nested sub-circuit calls: the built circuit validates, and its outputs are exactly those of the calls' documented meaning. C29_adversarial_partial carries the result through hint normalisation for arbitrary hint values (under KeepsAsserts)."
  },
  {
   "property": "C30",
   "status": "partial",
   "theorems": [
    "Verif.Props.C30_gt",
    "Verif.Props.C30_geq",
    "Verif.Props.C30_gt_adversarial_partial",
    "Verif.Props.C30_geq_adversarial_partial",
    "Verif.Props.C30_violated"
   ],
   "note": "With the honest hints gt/geq compare the canonical representatives. Against an arbitrary prover this holds only when the bit decomposition is unique; over M31 it is false: C30_violated exhibits an accepted execution with gt(0,5)=1."
  },
  {
   "property": "C31",
   "status": "partial",
   "theorems": [
    "Verif.Props.C31_partial",
    "Verif.Props.C31_same_function",
    "Verif.Props.C31_simple",
    "Verif.Props.C31_second_ignored",
    "Verif.Props.C31_violated",
    "Verif.Props.C31_simple_violated"
   ],
   "note": "Holds for all histories in which equal keys mean equal functions (proved to follow for one #[memorized] function, and for memorized_simple_call of functions without captures). In general false: C31_violated (two #[memorized] functions with the same parameter types share the key, for every hash function), C31_simple_violated (closures with captures)."
  },
  {
   "property": "C32",
   "status": "proved",
   "theorems": [
    "Verif.Props.C32_roundtrip",
    "Verif.Props.C32_join_total",
    "Verif.Props.C32_arguments",
    "Verif.Props.C32_fresh",
    "Verif.Props.C32_result",
    "Verif.Props.C32_hash_injective"
   ],
   "note": "All nesting depths and lengths; the hash input is injective on structure and primitives for given parameter types."
  },
  {
   "property": "C33",
   "status": "partial",
   "theorems": [
    "Verif.Props.C33_load_dump",
    "Verif.Props.C33_num_vars",
    "Verif.Props.C33_num_vars_partial",
    "Verif.Props.C33_trait_num_vars",
    "Verif.Props.C33_violated",
    "Verif.Props.C33_empty_violated"
   ],
   "note": "load_from reads back dump_into for every struct; num_vars is exact for rectangular fixed arrays (unconditionally when no vector is inside a fixed array). False in general: C33_violated (ragged vectors inside a fixed array), C33_empty_violated (panic)."
  },
  {
   "property": "C34",
   "status": "proved",
   "theorems": [
    "Verif.Props.C34_roundtrip",
    "Verif.Props.C34_flatten_panics",
    "Verif.Props.C34_unflatten",
    "Verif.Props.C34_simd"
   ],
   "note": "All depths, shapes and contents; SIMD pack/unpack of the external crate enters only through its round-trip law."
  },
  {
   "property": "C35",
   "status": "proved",
   "theorems": [
    "Verif.Props.C35_permute",
    "Verif.Props.C35_spec_total",
    "Verif.Props.C35_illegal"
   ],
   "note": "For arrays with at least one element and permutations as axes (an empty array panics when transposed and read; axes are not checked to be a permutation by the code)."
  },
  {
   "property": "C36",
   "status": "proved",
   "theorems": [
    "Verif.Props.C36_padding",
    "Verif.Props.C36_mapping",
    "Verif.Props.C36_repeats"
   ],
   "note": "All shapes with non-zero dimensions (a zero dimension panics in the code)."
  },
  {
   "property": "C37",
   "status": "partial",
   "theorems": [
    "Verif.Props.C37_partial",
    "Verif.Props.C37_violated"
   ],
   "note": "Holds for all histories in which an address always holds the same kernel; false when an address is reused (C37_violated: the cache is keyed by address)."
  },
  {
   "property": "C38",
   "status": "partial",
   "theorems": [
    "Verif.Props.C38_exact",
    "Verif.Props.C38_partial",
    "Verif.Props.C38_violated",
    "Verif.Props.C38_hints",
    "Verif.Props.C38_load_sound"
   ],
   "note": "C38_exact characterises when loading succeeds; it does whenever each primitive is compiled for one layout and different primitives give different kernels; false for one primitive with two layouts (C38_violated)."
  },
  {
   "property": "C39",
   "status": "partial",
   "theorems": [
    "Verif.Props.C39_unionFind",
    "Verif.Props.C39_heap",
    "Verif.Props.C39_bucketSort",
    "Verif.Props.C39_pool",
    "Verif.Props.C39_topo",
    "Verif.Props.C39_pow2",
    "Verif.Props.C39_staticHash_partial",
    "Verif.Props.C39_staticHash_violated"
   ],
   "note": "All structures proved for every history/input; the static hash map is proved correct whenever its construction returns, and proved never to return for two distinct keys congruent modulo 1 000 000 007."
  },
  {
   "property": "C40",
   "status": "proved",
   "theorems": [
    "Verif.Props.C40_circuit_complete",
    "Verif.Props.C40_circuit_sound",
    "Verif.Props.C40_range_sound",
    "Verif.Props.C40_range_complete",
    "Verif.Props.C40_table_complete",
    "Verif.Props.C40_table_sound",
    "Verif.Props.C40_smallChar_violated"
   ],
   "note": "Soundness is stated as a bound on the number of bad draws, under the hypothesis that the number of queries is below the field characteristic; C40_smallChar_violated shows the hypothesis is needed."
  },
  {
   "property": "C41",
   "status": "partial",
   "theorems": [
    "Verif.Props.C41_exact_partial",
    "Verif.Props.C41_general_partial",
    "Verif.Props.C41_complete",
    "Verif.Props.C41_honest",
    "Verif.Props.C41_final_sound",
    "Verif.Props.C41_negative_violated",
    "Verif.Props.C41_zero_violated"
   ],
   "note": "Exact when the chunk size divides the number of bits and 2^n fits in the field; the unrestricted property is false (C41_negative_violated, C41_zero_violated)."
  },
  {
   "property": "C42",
   "status": "partial",
   "theorems": [
    "Verif.Props.C42_complete",
    "Verif.Props.C42_sound_partial",
    "Verif.Props.C42_violated",
    "Verif.Props.C42_wrong_accepted",
    "Verif.Props.C42_dims_violated"
   ],
   "note": "Completeness is proved; soundness only holds when the first input is nonzero and for the dimensions the variable ids happen to denote; the unrestricted property is false (C42_violated, C42_dims_violated)."
  },
  {
   "property": "C43",
   "status": "partial",
   "theorems": [
    "Verif.Props.C43_inputs",
    "Verif.Props.C43_adders",
    "Verif.Props.C43_sumAll",
    "Verif.Props.C43_rotations",
    "Verif.Props.C43_functions",
    "Verif.Props.C43_compress",
    "Verif.Props.C43_hash_partial",
    "Verif.Props.C43_digest_unique",
    "Verif.Props.C43_padding_violated"
   ],
   "note": "All word operations and the compression function are proved equal to FIPS 180-4 for all inputs. The whole hash is proved for message lengths l with (l+1) mod 512 <= 448; for the other lengths finalize panics (C43_padding_violated), so the full property is false."
  },
  {
   "property": "C44",
   "status": "partial",
   "theorems": [
    "Verif.Props.C44_limbs_iff",
    "Verif.Props.C44_accumulate_iff",
    "Verif.Props.C44_add_partial",
    "Verif.Props.C44_add_reduced_violated",
    "Verif.Props.C44_less_violated",
    "Verif.Props.C44_greaterEq_violated",
    "Verif.Props.C44_equal",
    "Verif.Props.C44_mul_violated",
    "Verif.Props.C44_less_complete",
    "Verif.Props.C44_add_complete",
    "Verif.Props.C44_mulNoMod_complete",
    "Verif.Props.C44_mul_complete",
    "Verif.Props.C44_mul_fourLimbs_violated"
   ],
   "note": "Soundness is false for multiplication and comparison (range checks are no-ops, four limbs compared); addition of in-range limbs is sound as an integer congruence; completeness with the built-in hints is proved for all gadgets."
  },
  {
   "property": "C45",
   "status": "proved",
   "theorems": [
    "Verif.Props.C45_circuit",
    "Verif.Props.C45_reference",
    "Verif.Props.C45_flatten",
    "Verif.Props.C45_unreduced_violated"
   ],
   "note": "Circuit over every commutative ring against a matrix specification; the u32 reference against the circuit over Z/(2^31-1) for messages of reduced numbers (the reference overflows on others: C45_unreduced_violated); hash_to_state_flatten against arbitrary hints. Round constants and matrix rows are parameters (they come from other crates)."
  },
  {
   "property": "C46",
   "status": "partial",
   "theorems": [
    "Verif.Props.C46_compiles",
    "Verif.Props.C46_loop_ends",
    "Verif.Props.C46_compiles_low",
    "Verif.Props.C46_noInputs_violated"
   ],
   "note": "C46_compiles: at every optimisation level and with every valid choice of options every valid circuit is compiled to a valid layered circuit (the same for all large bounds on loops and recursion: no stage panics, every loop ends, every later validation succeeds), or the compiler stops for one of seven listed reasons (Compile.Refused). C46_loop_ends: the loop of compile_step_3 ends whatever is sampled in each round. C46_compiles_low: levels 1 and 2 without the assumption that the gate sort leaves sorted lists alone. The full property is false of the code: a valid circuit is rejected because splitting at layers creates a circuit without inputs (C46_noInputs_violated)."
  },
  {
   "property": "C47",
   "status": "partial",
   "theorems": [
    "Verif.Props.C47_depends",
    "Verif.Props.C47_bound",
    "Verif.Props.C47_deterministic",
    "Verif.Props.C47_exact_partial",
    "Verif.Props.C47_sound_partial",
    "Verif.Props.C47_arith_sound_partial"
   ],
   "note": "For every layered circuit: verdict depends on finitely many coefficients; accepted on all tapes or on at most a fraction D/|F| (Schwartz-Zippel; D computed by evaluating the circuit over degrees). For compiled circuits with the assumptions of C24. Missing: D = 1 for every compiled circuit is checked by computing it, not proved in general."
  },
  {
   "property": "C48",
   "status": "proved",
   "theorems": [
    "Verif.Props.C48_reorder",
    "Verif.Props.C48_valid",
    "Verif.Props.C48_padData"
   ],
   "note": "reorder_ir_inputs on every validated hint-less circuit; validity of the result needs that no circuit calls the root (true after unreachable circuits are removed)"
  },
  {
   "property": "C49",
   "status": "partial",
   "theorems": [
    "Verif.Props.C49_exact_partial",
    "Verif.Props.C49_sound_partial",
    "Verif.Props.C49_layout",
    "Verif.Props.C49_calling"
   ],
   "note": "compile_with_spec_and_shapes and compile_primitive composed from the models of their passes. Exactness for circuits without random values; soundness against arbitrary hint values. Same conditions as C24 (fewer constraints than the characteristic, no assertion overwritten by a mark for soundness); the shapes have non-zero sides and cover the inputs, as the code builds them."
  },
  {
   "property": "C50",
   "status": "proved",
   "theorems": [
    "Verif.Props.C50_sha_unique",
    "Verif.Props.C50_hash",
    "Verif.Props.C50_37bytes",
    "Verif.Props.C50_compress",
    "Verif.Props.C50_batch",
    "Verif.Props.C50_batch_violated",
    "Verif.Props.C50_bits_violated"
   ],
   "note": "Gadgets as relations (the set of outputs some prover can reach), against FIPS 180-4. The preconditions in the statement are needed: C50_batch_violated gives the wrong digest of the batch variant when the first 32 bytes differ, C50_bits_violated a non-boolean input admitted by the bit variants"
  },
  {
   "property": "C51",
   "status": "proved",
   "theorems": [
    "Verif.Props.C51_add_reduce",
    "Verif.Props.C51_add",
    "Verif.Props.C51_add_no_reduce",
    "Verif.Props.C51_less",
    "Verif.Props.C51_big_less",
    "Verif.Props.C51_is_zero",
    "Verif.Props.C51_div",
    "Verif.Props.C51_put32",
    "Verif.Props.C51_put32_26",
    "Verif.Props.C51_put64",
    "Verif.Props.C51_to_bits",
    "Verif.Props.C51_from_bits",
    "Verif.Props.C51_bigint",
    "Verif.Props.C51_select",
    "Verif.Props.C51_lookup",
    "Verif.Props.C51_thirty_violated",
    "Verif.Props.C51_one_limb_violated"
   ],
   "note": "The range of the limbs is needed: C51_thirty_violated (limbs of 30 bits over M31: 0 + 0 = 2^30 - 1 is admitted); big_less_than of one limb panics (C51_one_limb_violated)"
  },
  {
   "property": "C52",
   "status": "partial",
   "theorems": [
    "Verif.Props.C52_check",
    "Verif.Props.C52_add_partial",
    "Verif.Props.C52_sub_partial",
    "Verif.Props.C52_neg_partial",
    "Verif.Props.C52_mul_partial",
    "Verif.Props.C52_div_partial",
    "Verif.Props.C52_inverse_partial",
    "Verif.Props.C52_mulConst_partial",
    "Verif.Props.C52_reduce_partial",
    "Verif.Props.C52_copy_partial",
    "Verif.Props.C52_equal_partial",
    "Verif.Props.C52_select",
    "Verif.Props.C52_isZero_partial",
    "Verif.Props.C52_add_complete",
    "Verif.Props.C52_sub_complete",
    "Verif.Props.C52_neg_complete",
    "Verif.Props.C52_mul_complete",
    "Verif.Props.C52_div_complete",
    "Verif.Props.C52_inverse_complete",
    "Verif.Props.C52_mulConst_complete",
    "Verif.Props.C52_copy_complete",
    "Verif.Props.C52_equal_complete",
    "Verif.Props.C52_mul_any",
    "Verif.Props.C52_mul_violated",
    "Verif.Props.C52_equal_any",
    "Verif.Props.C52_equal_violated",
    "Verif.Props.C52_isZero_violated"
   ],
   "note": "The full statement is false of the code: the carries of a multiplication check are not range checked, so that a check that holds at every challenge says exactly that the equation holds in the native field (C52_check, both directions); over M31 with BLS12-381 any limbs in range are accepted as the product of any two elements (C52_mul_any, C52_mul_violated), elements equal modulo 2^31-1 are accepted as equal (C52_equal_any, C52_equal_violated), and is_zero is 0 on the limbs of the modulus (C52_isZero_violated). Proved: if the registered checks hold over the integers, every operation is right modulo the modulus, for all parameters, operands and hint values; select without condition; and the honest prover is accepted by every operation, with the right result, for all operands in range (C52_*_complete; the quotient and remainder fit the limbs allotted)."
  },
  {
   "property": "C53",
   "status": "partial",
   "theorems": [
    "Verif.Props.C53_e2_add_partial",
    "Verif.Props.C53_e2_isZero_partial",
    "Verif.Props.C53_e6_isZero_partial",
    "Verif.Props.C53_e12_isZero_partial",
    "Verif.Props.C53_isZero_violated",
    "Verif.Props.C53_e2_select_partial",
    "Verif.Props.C53_e2_select_complete",
    "Verif.Props.C53_e6_select_partial",
    "Verif.Props.C53_e6_select_complete",
    "Verif.Props.C53_e12_select_partial",
    "Verif.Props.C53_e12_select_complete",
    "Verif.Props.C53_e6_divBy6_partial",
    "Verif.Props.C53_e6_divBy6_complete",
    "Verif.Props.C53_e2_add_complete",
    "Verif.Props.C53_e2_sub_partial",
    "Verif.Props.C53_e2_sub_complete",
    "Verif.Props.C53_e2_neg_partial",
    "Verif.Props.C53_e2_neg_complete",
    "Verif.Props.C53_e2_double_partial",
    "Verif.Props.C53_e2_double_complete",
    "Verif.Props.C53_e2_mul_partial",
    "Verif.Props.C53_e2_mul_complete",
    "Verif.Props.C53_e2_mulElement_partial",
    "Verif.Props.C53_e2_mulElement_complete",
    "Verif.Props.C53_e2_mulConst_partial",
    "Verif.Props.C53_e2_mulConst_complete",
    "Verif.Props.C53_e2_mulNonResidue_partial",
    "Verif.Props.C53_e2_mulNonResidue_complete",
    "Verif.Props.C53_e2_square_partial",
    "Verif.Props.C53_e2_square_complete",
    "Verif.Props.C53_e2_conj_partial",
    "Verif.Props.C53_e2_conj_complete",
    "Verif.Props.C53_e2_copy_partial",
    "Verif.Props.C53_e2_copy_complete",
    "Verif.Props.C53_e2_div_partial",
    "Verif.Props.C53_e2_div_complete",
    "Verif.Props.C53_e2_inverse_partial",
    "Verif.Props.C53_e2_inverse_complete",
    "Verif.Props.C53_e2_equal_partial",
    "Verif.Props.C53_e2_equal_complete",
    "Verif.Props.C53_e6_add_partial",
    "Verif.Props.C53_e6_add_complete",
    "Verif.Props.C53_e6_sub_partial",
    "Verif.Props.C53_e6_sub_complete",
    "Verif.Props.C53_e6_neg_partial",
    "Verif.Props.C53_e6_neg_complete",
    "Verif.Props.C53_e6_double_partial",
    "Verif.Props.C53_e6_double_complete",
    "Verif.Props.C53_e6_mul_partial",
    "Verif.Props.C53_e6_mul_complete",
    "Verif.Props.C53_e6_square_partial",
    "Verif.Props.C53_e6_square_complete",
    "Verif.Props.C53_e6_mulE2_partial",
    "Verif.Props.C53_e6_mulE2_complete",
    "Verif.Props.C53_e6_mulBy12_partial",
    "Verif.Props.C53_e6_mulBy12_complete",
    "Verif.Props.C53_e6_mulBy0_partial",
    "Verif.Props.C53_e6_mulBy0_complete",
    "Verif.Props.C53_e6_mulBy01_partial",
    "Verif.Props.C53_e6_mulBy01_complete",
    "Verif.Props.C53_e6_mulNonResidue_partial",
    "Verif.Props.C53_e6_mulNonResidue_complete",
    "Verif.Props.C53_e6_div_partial",
    "Verif.Props.C53_e6_div_complete",
    "Verif.Props.C53_e6_inverse_partial",
    "Verif.Props.C53_e6_inverse_complete",
    "Verif.Props.C53_e6_equal_partial",
    "Verif.Props.C53_e6_equal_complete",
    "Verif.Props.C53_e12_add_partial",
    "Verif.Props.C53_e12_add_complete",
    "Verif.Props.C53_e12_sub_partial",
    "Verif.Props.C53_e12_sub_complete",
    "Verif.Props.C53_e12_conj_partial",
    "Verif.Props.C53_e12_conj_complete",
    "Verif.Props.C53_e12_mul_partial",
    "Verif.Props.C53_e12_mul_complete",
    "Verif.Props.C53_e12_square_partial",
    "Verif.Props.C53_e12_square_complete",
    "Verif.Props.C53_e12_mulBy014_partial",
    "Verif.Props.C53_e12_mulBy014_complete",
    "Verif.Props.C53_e12_mul014_partial",
    "Verif.Props.C53_e12_mul014_complete",
    "Verif.Props.C53_e12_copy_partial",
    "Verif.Props.C53_e12_copy_complete",
    "Verif.Props.C53_e12_div_partial",
    "Verif.Props.C53_e12_div_complete",
    "Verif.Props.C53_e12_inverse_partial",
    "Verif.Props.C53_e12_inverse_complete",
    "Verif.Props.C53_e12_equal_partial",
    "Verif.Props.C53_e12_equal_complete",
    "Verif.Props.C53_e12_frob_partial",
    "Verif.Props.C53_e12_frob_complete",
    "Verif.Props.C53_e12_frob2_partial",
    "Verif.Props.C53_e12_frob2_complete",
    "Verif.Props.C53_frobenius",
    "Verif.Props.C53_cyclotomicSquare_partial",
    "Verif.Props.C53_cyclotomicSquare_complete",
    "Verif.Props.C53_expt_partial",
    "Verif.Props.C53_expt_complete",
    "Verif.Props.C53_finalExp_any",
    "Verif.Props.C53_finalExp_violated",
    "Verif.Props.C53_easyPart_partial",
    "Verif.Props.C53_easyPart_complete",
    "Verif.Props.C53_pairingTail_any"
   ],
   "note": "The full property is false of the code: a check is an equation in the native field only (C52), and even for checks over the integers assert_final_exponentiation_is_one accepts every element, since the residue witness and the scaling factor may both be zero (C53_finalExp_any, C53_finalExp_violated), hence pairing_check every unit its Miller loop may give (C53_pairingTail_any). Proved, for all operands, hint values and (tower operations) all moduli: every operation of the three extensions gives the right element if the registered checks hold over the integers (_partial), and the honest prover is accepted with the right result (_complete); the Frobenius constants of BLS12-381 are consistent, the Frobenius maps multiplicative (C53_frobenius); cyclotomic_square is the square and expt the power by 0xd201000000010000 of cyclotomic elements, which the easy part of the final exponentiation makes (C53_easyPart_*). is_zero of the extensions says 1 only of zero (the converse is violated, C53_isZero_violated). Missing: that frobenius is the p-th power (primality of p)."
  }
 ]
}