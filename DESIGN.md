# Formal model of ExpanderCompilerCollection — design

## Approach
The core of the repository is a compiler: source IR → hint-normalised IR → hint-less IR → expression ("dest") IR →
layered circuit, plus the frontend that builds source circuits, the witness machinery, the `zkcuda` layout code and the
gadget library `circuit-std-rs`.  All of these are pure functions over finite data, so the model is a set of total,
computable Lean functions (one per Rust function), written in `lean/Verif/…`, and each property is a theorem about them.

* Field elements: an arbitrary Mathlib `Field F` with `DecidableEq F` (theorems hold for GF2, M31, BN254 …).  Where the
  canonical integer representative matters (`to_binary`, comparisons, shifts) the field is `ZMod p`.
* Variables are `Nat`, variable 0 is the dummy, as in the code; `values[0]=0`.
* A circuit map (`HashMap<usize, Circuit>`) is a list of pairs / a lookup function; nothing may depend on iteration order,
  so passes that iterate a HashMap are modelled with the order as an explicit argument and theorems quantify over it.
* Recursion through sub-circuits uses a fuel argument; theorems are stated for every fuel, and a separate theorem shows
  that a validated (acyclic) circuit has enough fuel.
* Rust panics / `Result::Err` are `none` or an explicit error constructor.
* Machine integers are unbounded `Nat` except where wrap-around is the property (serde uses 64-bit little endian words).

## Where the code violates a property
Such a property is stated in full, its negation is proved with a concrete witness (theorem name ends in `_violated`), and the
strongest true restriction is proved with suffix `_partial`.

## Plan per property
| id | model | proof |
|---|---|---|
| C01–C03 | generic IR (`Verif/IR`): instructions, eval, validate, liveness, dedup | simulation between old and new value vectors, induction on instructions and fuel |
| C04 | source IR chains | invariant: recorded linear form evaluates to the variable |
| C05 | `Expr` | induction over sorted insertion / merging |
| C06–C08 | builder + gadgets | algebra over fields; log-replay invariant of assert/mark |
| C09, C23, C27 | hint removal/export | simultaneous induction over instructions, fuel |
| C10–C15 | dest IR passes | simulation |
| C16 | linear forms | counting via injection/finite fields |
| C17–C20 | layered circuits | gate lists as sums: permutation/merging invariance of `apply_segment` |
| C21, C22, C24 | input mappings, pass contract | algebra; induction over rounds |
| C25, C26 | byte encodings, lanes | decoder/encoder induction |
| C28 | builtin hints | bit arithmetic over `Nat` |
| C29–C33 | frontend | induction over call lists |
| C34–C38 | zkcuda | induction over shapes |
| C39 | utils | refinement to abstract specs |
| C40–C45 | circuit-std-rs | polynomial identities, adversarial witnesses |
| C46 | `compile_with_options` as a whole | `C46_compiles`: totality of every stage, or a reason from `Compile.Refused`; the loop of `compile_step_3` ends because a lexicographic measure decreases (`Layered.Smaller`: segments not made by `find_common_parts`, weighted gates, …), `C46_loop_ends`; concrete counterexample `C46_noInputs_violated` for the full statement |
| C47 | layered evaluation over the semiring of degrees | logical relation between functions of the tape and degrees, Schwartz–Zippel |
| C48 | `reorder_ir_inputs` on hint-less circuits, blocks as (length, offset) | loop invariant (blocks aligned and disjoint), renaming simulation |
| C49 | `compile_with_spec_and_shapes`, `compile_primitive` (kernel.rs 88–270) composed from the pass models | the passes' theorems (C02–C23), the relocation of C48 and clearing of outputs, composed on the data |
| C50 | SHA-256 over large fields (sha256/m31.rs, m31_utils.rs) as relations: `Std/ShaM31` is the set of outputs the constraints admit | words are 32 field elements that are bits; every gadget on encoded words has exactly one result, the encoding of the word operation of FIPS 180-4; additions via the 26 + 6 bit split, with the carry bounded by the field size |
| C51 | the remaining functions of m31_utils.rs, `simple_select`, `simple_lookup2`: `Std/LimbsM31` | each gadget on encoded limbs has exactly one result; induction over the limbs with the carry |
| C52 | gnark/{field,element,limbs,utils,emparam}.rs as gadgets that return a result and a list of checks: `Std/Emulated`, `Std/EmulatedProof`, `Std/EmulatedOps`, `Std/EmulatedCheck`, `Std/EmulatedAny`, `Std/EmulatedHonest` | congruences of limb values with the overflow as invariant; what a check means by dividing the polynomial by (2^bits - X); dishonest provers by choosing the quotient in the native field; completeness by bounding the quotient against the limbs allotted |
| C53 | gnark/emulated/field_bls12381/{e2,e6,e12}.rs (without `get_e2_sign`) on top of C52: `Std/Tower`, `Std/TowerSel` (`select`, `div_e6_by_6`), `Props/C53C` (`is_zero`), `Std/TowerProof`, `Std/TowerProof2`, `Std/TowerAlg`, `Std/TowerEasy` (with the part of `pairing_check` after the Miller loop, sw_bls12381/pairing.rs:57-63) | each formula proved once for an abstract reading of gadgets (`Logic`), with two instances: every result is right if the checks hold over the integers; some prover is accepted with the right result.  The polynomial identities by `ring`, Granger-Scott squaring by linear combinations of the equations of the cyclotomic condition, the constants by kernel computation |

## Trusted base
* **Lean 4.33.0's kernel.**  No `native_decide`, `bv_decide`, no axioms of our own, no unfinished proofs.  Concrete computations use `decide`,
  `decide +kernel` or `rfl`, which the kernel checks.
* **Axioms**: every theorem listed in `MANIFEST.json` depends on a subset of `propext`, `Classical.choice`, `Quot.sound` (checked with
  `#print axioms`; see `tools/axioms.sh`, whose output is kept in `axioms.txt`).
* **Mathlib** for algebra (`Field`, `ZMod`, `Polynomial`, `Finset` …); its theorems are kernel-checked too.
* **Faithfulness of the model** to the cited Rust lines.  Every definition that models code names file and lines; simplifications are stated in
  the comment.  The general ones are:
  - a Rust panic, an out-of-range access and an `Err` value are `none` (or an explicit constructor where a property distinguishes them);
  - `usize` is `Nat` (overflow is modelled only in serde, SHA-256 words and the static hash map);
  - loops with data-dependent length take a recursion bound (`fuel`); theorems hold for every bound at which the model returns, and where
    termination is part of the claim it is proved (the fixed-point loops of the compiler, the loop of `compile_step_3`, topological order, product loop of final_build_opt, liveness propagation, …);
  - iteration order of `HashMap`/`HashSet` and comparison functions of external crates are parameters; theorems quantify over all of them (of the
    sort of gates they ask that its results are ordered by `gateKey`, `Layered.Sorts`, and for C46 that it sorts by one order refining `gateKey` and leaves sorted lists
    alone, `Layered.Stays`; `Layered.gateLe_sorts` proves both of the order that `Ord`, opt.rs:18-97, defines);
  - random values: IR evaluation is a relation (a random instruction may give any value), layered evaluation takes a tape of random numbers;
  - hints: a relation (`Env.hint`), instantiated with "the built-in functions" for completeness and with "any values of the right number"
    (`Env.anyHint`) for soundness.

## What is modelled
| code (expander_compiler/src unless noted) | model | properties |
|---|---|---|
| circuit/ir/common, source, hint_normalized, hint_less, dest (instructions, validate, eval, remove_unreachable, reassign_duplicate_sub_circuit_outputs, detect_chains, solve_duplicates, export_constraints, remove_and_export, add_back_removed_inputs) | `Verif/IR` | C01–C05, C09, C11–C13, C23 |
| circuit/ir/expr.rs | `IR/Expr`, `Builder/ExprOps` | C05 |
| circuit/input_mapping.rs | `InputMapping`, `InputPlaced` | C21 |
| builder/basic.rs, builder/hint_normalize.rs | `Verif/Builder` | C06–C08 |
| builder/final_build_opt.rs | `Verif/FinalBuild` | C10 |
| compile/mod.rs | `Verif/Compile` | C22, C24 |
| layering/* (compile, layer_layout, wire, input, ir_split, mod) | `Verif/Layering` | C14–C16 |
| circuit/layered/{mod,opt,serde}.rs | `Verif/Layered`, `Serde/Layered` | C17–C20, C25, C26 |
| circuit/ir/*/serde.rs, circuit/ir/expr.rs serde, utils/serde.rs | `Verif/Serde` | C25 |
| circuit/ir/hint_normalized/witness_solver.rs, circuit/layered/witness.rs | `Verif/Witness` | C26, C27 |
| hints/{builtin,registry}.rs | `Verif/Hints` | C28 |
| frontend/{api,builder,circuit,variables}.rs, frontend macros (memorized, declare_circuit) | `Verif/Frontend` | C29–C33 |
| zkcuda/{vec_shaped,shape,context,kernel}.rs | `Verif/Zkcuda` | C34–C38 |
| utils/{union_find,heap,bucket_sort,pool,static_hash_map,misc,…}.rs | `Verif/Utils` | C39 |
| circuit-std-rs/src/{logup,matmul,sha256/{gf2*,m31*},big_int/*,poseidon/*,gnark/{field,element,limbs,utils,emparam}, gnark/emulated/field_bls12381/{e2,e6,e12}}, utils.rs | `Verif/Std` | C40–C45, C50–C53 |

## What is not modelled
* The external crates (field arithmetic, the GKR prover/verifier, `ethnum`, `tiny-keccak`): fields are abstract, hash functions and field codecs are
  parameters with the laws that are used stated as hypotheses.
* The MPI, RPC and shared-memory code (`zkcuda/proving_system`, `mpi_mem_share`), file input/output, timing and printing; the curves and
  the pairing (`gnark/emulated/sw_bls12381`) and the hint functions (`gnark/hints`): C52 and C53 let a hint return anything.
* Rust ownership, memory layout and concurrency (the code modelled here is sequential).
* The debug evaluator (`DebugBuilder`) except where a finding mentions it; RSA/EC gadgets.

## Findings
Behaviour of the code that contradicts the property as a user would state it.  Each is proved in Lean about the model (`_violated` theorems)
unless marked (observed).
1. `mark` overwrites `Asserted`: `Or(x,0)`, `Xor(x,0)`, `And(x,1)` lose the boolean assertion on `x` (`C07_violated`, `C08_violated`).
2. A random constant passed twice is drawn twice after `solve_duplicates` / fan-out limiting (`C13_random_violated`, `C11_random_violated`).
3. `find_common_parts` drops repeated identical gates (`C18_common_violated`); no circuit the compiler gives it has any (`C18_layered`, `C18_loop`).
4. Layered `validate` may panic, and does not check public-input ids or the output range (`C20_*_violated`).
5. `compress_identical_terms` merges two independent random terms (`C05_random_violated`).
6. (observed) the test `dedup_gates_random` compares a circuit with itself.
7. `StaticHashMap` construction does not terminate for keys congruent modulo 1 000 000 007 (`C39_staticHash_violated`).
8. `remove_unreachable` on source circuits removes instructions whose implied assertion fails (`C02_source_violated`).
9. `gt`/`geq` accept a non-canonical bit decomposition (`C30_violated`).
10. `#[memorized]` keys ignore the function; closures with captures share a key (`C31_violated`, `C31_simple_violated`).
11. `declare_circuit`'s `num_vars` is wrong for ragged vectors in arrays and panics for empty ones (`C33_violated`, `C33_empty_violated`).
12. The kernel cache is keyed by address (`C37_violated`).
13. Loading a stored computation graph uses the primitive index for the kernel list (`C38_violated`).
14. MatMul: dimensions and the constant 1 are used as variable ids (`C42_dims_violated`, `C42_violated`).
15. Range proof: −1 accepted when the chunk size does not divide the length; `n = 0` accepts chunk-sized values (`C41_negative_violated`, `C41_zero_violated`).
16. `SHA256GF2.finalize` panics for message lengths with (l+1) mod 512 > 448 (`C43_padding_violated`).
17. u2048: multiplication accepts everything with arbitrary hints, compares 4 of 36 limbs; comparisons are prover-chosen (`C44_*_violated`).
18. LogUp is unsound when the number of queries reaches the characteristic (`C40_smallChar_violated`).
19. `expand_small_segments` assigns the id `!0` to a segment allocated with an empty list (`C18_expand_violated`); `layering::compile` makes no empty list (`C18_layered`).
20. `final_build_opt` can produce a root without outputs, which `validate` rejects (`C10_empty_violated`).
21. `split_to_single_layer` adds one expected zero output even without constraints (`C14_noConstraints_violated`).
22. (observed) the exporting circuit of a root without variables has the constraint `[1]` and is rejected; `pack_block` divides by zero for empty
    witnesses; hint normalisation reports an error for an unchecked 0/0 with constant divisor; `ShapeHistory.permute_vec` panics on transposed empty
    arrays; `to_binary(x, 0)` and hints without inputs build circuits that fail `validate`; the `conncected_wires` cache is never filled.
23. The u32 reference implementation of Poseidon overflows on unreduced numbers in the second block (`C45_unreduced_violated`).
24. A valid, satisfiable circuit all of whose circuits have inputs is rejected with "circuit has no inputs" at every optimisation level: splitting at
    layers makes a circuit of constants only (`C46_noInputs_violated`).
25. `sha256_37bytes_256batch_compress` reuses the first eight rounds of the first message for all messages: a message that differs from the first one in
    its eighth word only gets a wrong digest, and no other is admitted (`C50_batch_violated`).
26. The bit variants of the M31 SHA-256 never constrain the bits of the first message word to be boolean (`C50_bits_violated`).
27. The limb helpers of m31_utils.rs accept limbs of 30 bits, for which they are unsound over M31 (31 bits determine no element): 0 + 0 = 2^30 - 1 and
    2^30 - 1 < 0 are provable (`C51_thirty_violated`).  `big_less_than` panics on numbers of one limb (`C51_one_limb_violated`), `bit_array_to_m31` on the
    60 bits of two full limbs (`C51_from_bits`).

28. The carries of an emulated multiplication (field.rs:350-353) are not range checked, so that a multiplication check, even if it holds at every challenge,
    is an equation modulo the native modulus only (`C52_check`).  Over M31 with the BLS12-381 base field the prover may claim any product of any two
    elements (`C52_mul_any`: 1 · 1 = 2 in `C52_mul_violated`) and that numbers equal modulo 2^31 - 1 are equal (`C52_equal_violated`): the pairing and
    signature gadgets built on it are unsound.
29. `GField::is_zero` does not reduce an element without overflow below the modulus: it says "not zero" of the limbs of the modulus (`C52_isZero_violated`).
30. `Ext12::assert_final_exponentiation_is_one` (e12.rs:470-546) does not assert that the residue witness and the scaling factor are not zero: with both zero
    it accepts every element (`C53_finalExp_any`), hence `pairing_check` every unit that its Miller loop gives (`C53_pairingTail_any`), even if the checks of C52 were made sound.  It also uses
    `cyclotomic_square` (in `expt`) on the residue witness, which is not known to be cyclotomic.

## Seeded bugs
`tools/mutate.py seeded/batchN.json` edits the model in a scratch copy, rebuilds and records which theorems fail in `seeded/LOG.jsonl`.
