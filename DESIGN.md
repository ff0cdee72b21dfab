# Formal model of Panacea (FHE toolbox: LWE/RLWE/RGSW, private decision trees, homomorphic ORAM)

Everything is Lean 4 under `lean/Verif/`:

* `Verif/Model/*`  - the model: one Lean function per Rust function, with `file:lines` citations and simplifications.
* `Verif/Spec/*`   - small specifications, written without the model's helpers.
* `Verif/Lemmas/*` - supporting mathematics (negacyclic ring, noise calculus, lists).
* `Verif/Props/*`  - the property theorems (names start with the property id, e.g. `C01_decode_iff`) with a
  concrete `example` of the hypotheses beside each.

## 1. Trusted base

1. **Lean's kernel** and Mathlib's definitions used in statements (`BitVec`, `Fin`, `List`, `Finset.sum`, `Nat.log2`).
2. **Axioms**: at most `propext`, `Classical.choice`, `Quot.sound`. No own axioms, no compiled-code decision procedures.
3. **My reading of the Rust.** Nothing is executed here; each model definition cites the lines it transcribes.
4. **concrete-core / concrete-commons contracts** (source not in the sandbox), written as executable Lean definitions
   and therefore visible:
   * torus scalar = `u64` with wrapping arithmetic = `BitVec 64`;
   * polynomials modulo X^n+1, negacyclic product (`Poly.mul`);
   * GLWE of dimension 1: encryption `b = a*s + m + e`, decryption `b - a*s`; LWE the same with an inner product;
   * GGSW (constant): for level l=1..L two rows of GLWE encryptions of zero with `mu*g_l` added to the mask of the first
     and to the body of the second, `g_l = 2^(64 - base_log*l)`;
   * `SignedDecomposer`: closest representable (round half up, wrapping), and the carry-propagating signed digits;
   * external product: *adds* sum over levels of digit times row to the output;
   * sample extraction.
5. **Randomness** is universally quantified: masks are arbitrary streams, noise is any stream obeying an explicit bound,
   keys are any binary polynomial, the hash shuffle is any permutation. Statistical quality of the generators and security
   (LWE hardness) are *not* modelled; C78 bounds the probability that a run fails from a tail bound per noise coefficient.
6. **FFT / floating point**: in most models a Fourier-domain object is the formal sum of products it stands for, and every
   inverse FFT adds an arbitrary (deterministic, unknown) error polynomial of at most `phi` times the size of that sum
   (`Fft.Bounded`: relative error, sums of at most 128 products). C65 derives this bound from a model with the actual data
   (`Model/Fourier`: vectors of n/2 complex numbers, the loops over them, the conversions between torus words and reals):
   the exact negacyclic transform computes negacyclic products, and if each library operation (forward, backward
   transform, complex multiplication, addition) has relative accuracy `u`, then `phi` is about 133*u*n^2*2^63.
   Trusted: that f64 operations have some such `u` (no overflow, NaN or subnormals), and that equal formal sums are
   transformed back to equal words. f64-computed constants of the ternary codec are taken as
   the literal values (`u64::MAX as f64 / 3.0` etc.), `f64` logs used only for reports are not modelled. The logarithm that
   sizes the result of encrypted evaluation is modelled: integer to f64 conversion rounds to nearest, `log2` is faithfully
   rounded (`Spec/Float: F64Ops.Ok`).
7. **Panics**: `none` = panic, checked-arithmetic (debug) semantics, wherever a panic is reachable; release wrap is noted.
8. **Rayon**: a parallel reduce is any bracketing of the operation with identities inserted; parallel loops are any
   interleaving of tasks at lock granularity. Memory model: locks give sequential consistency.

9. **serde / serde_json** (C69): the documented behaviour of derived (de)serialisers and the recursion limit, on JSON syntax trees
   (`Model/Json`), and the RFC 8259 text syntax without extensions on characters (`Model/JsonText`, C87); the value of a float literal is a parameter.
10. **csv** (C74): the documented behaviour of the `csv` crate's reader with default settings, and of `usize::from_str` (`Model/Csv`).
11. **clap** (C88): the documented behaviour of clap 4.4's derived parser for long options (`Model/CliArgs`); the value of a float argument and
   the test for a negative number are parameters, arguments are Unicode.
12. **rand** (C89): `SliceRandom::shuffle` of rand 0.8.5 swaps index `i` with a draw among `0..=i` for `i` from the last index down to 1; the draws are
   uniform and independent.

Not modelled at all: the clock (durations are parameters of the printed report, C72), text of floating-point numbers,
memory safety, security reductions, performance.

## 2. How objects are modelled

* `Scalar = BitVec 64`; `Poly n = Fin n -> BitVec 64` with negacyclic product; commutative ring proved.
* `Small p B`: every coefficient, as centred integer, has absolute value <= B.  Ring lemmas give worst-case noise growth.
* RLWE = (mask, body); RGSW = base_log plus one pair of RLWE rows per level; `phase s c = body - mask*s`.
* `Enc s c m e`: `phase s c - m` is `Small e`;  `EncG s C mu E`: each gadget row phase is within E of its target.
* A function taking `&mut` returns the new value; the encryption generator is explicit state.
* Noise theorems are worst case for an arbitrary FFT error of bounded relative size (C65 gives it). The repository's default parameters rely on *average case*
  noise and do not meet the worst-case budget; examples beside the theorems use parameters that do. C70 covers the default parameters: its
  hypotheses bound the errors of the external products performed in the run at hand (that these bounds hold with high probability is not proved);
  for sparse keys (at most 16 ones) they hold in the worst case, also at the default parameters.

## 3. Per-property plan

| id | model | proof |
|----|-------|-------|
| C01 | codec `new/encode/decode/largest_error` on BitVec 64 | bit-vector to Nat arithmetic, both directions of the window |
| C02 | same, panics as `none` | case analysis |
| C03 | ternary codec with literal constants | interval arithmetic (omega) for all 2^64 errors |
| C04 | codec | corollary of the window lemma with wrap |
| C05 | `log2` = 63 - leading_zeros with checked subtraction | Nat.log2 characterisation |
| C06 | `transpose` on lists | list extensionality |
| C07 | `eval_x_k` loop writing into an old buffer | odd k is a bijection mod 2n; automorphism by monomials |
| C08 | `pt_to_lossy_u64` | induction |
| C09, C10 | hash tables from any permutation of `range(h*n)` | permutation => injective; div/mod |
| C11, C12 | greedy `hash_to_mapping` as fold | fold invariant; counterexample; counting argument |
| C13, C14 | params expansion, `main` selection | list lemmas, case analysis |
| C15 | digit loop of SignedDecomposer | induction over levels, integer arithmetic, rounding lemma |
| C16, C17, C18 | encryption equations | ring identities + codec window |
| C19, C20 | external product, cmux | decomposition identity + noise calculus |
| C21 | GGSW encryption constant/polynomial/neg_gsw | ring identities; witness for the base_log bug |
| C22 | NOT on bodies | BitVec arithmetic, 2^63 is its own negation |
| C23, C24 | mask polynomials of less_eq_than/eq_to | negacyclic product with monomial, sums |
| C25, C26 | keyswitch (plain, Fourier pair loop, via RGSW) | decomposition identity; pair loop = sum over all |
| C27, C28, C29 | subs, trace1, expand | automorphism, telescoping of averaging over the Galois group |
| C30, C31 | sample extract, conv_lwe_to_rlwe, expand_slow | coefficient formula of product |
| C32 | compute_noise functions | max over coefficients; witness for ternary bug |
| C33 | update_*_with_mul | ring identity; universal bug theorem |
| C34-C37 | Node functions | structural induction against a path semantics |
| C38, C39 | EncNode construction and evaluation; `f64` label width (`Model/Float`) | structural induction; cmux/demux noise over depth; real bounds on log2 near powers of two |
| C40 | demux | induction on depth |
| C41, C42 | process_one | one-hot selection sum; cmux update |
| C43 | history | refinement: abstract array, induction with linear noise |
| C44, C45 | process_multi | sum over queries; disjoint one-hot; witness for duplicates |
| C46, C47 | process_batch + correct_consistency | hash bijection, one-hot per row, refinement |
| C48 | gen_dummy_database | loop invariant on the grid |
| C49 | `ParReduce` = any function with the reduction contract; interleavings of column/item tasks on a grid of row locks (`Model/Sched`) | commutative monoid; disjoint-footprint commutation of steps |
| C50 | lock transition system: threads holding row RwLocks and buffer Mutexes, a multiset of tasks (`Model/Sched`) | lock-order invariant, enabledness of a step in every reachable unfinished state |
| C51 | query generation; the server as a circuit (`Spec/Circuit`) built from sizes and the hash table only, evaluated on ciphertexts | the server equals the evaluation of a ciphertext-independent circuit; shapes by list lemmas |
| C52 | panic conditions of process_one/batch | lists |
| C53 | process_batch with a repeated index in a write batch | noise calculus along the two corrections; concrete reachable witness |
| C54 | sessions mixing process_one and process_multi | induction on the session with the C43 invariant and linear noise |
| C55-C57 | `single_query`, `multi_query`, `batch_query` of main.rs (`Model/Main`), panics as `none` | loop invariant = C43/C47 invariants; panic analysis by cases |
| C58 | the loop of `main`, `Context::new` | induction on the parameter list; C55-C57 |
| C59 | `Server::decrypt_db` | C47 invariant + codec correctness + C08 |
| C60 | `simulate` without any noise assumption; `decrypt_and_recompose` | case analysis of the assertions; induction on the ciphertext list |
| C61 | `gen_*_query_one` + `process_one` on several rows | exact mapping of a singleton, C41/C42 on row 0 |
| C62 | generators of `Context` over arbitrary random streams | bounds of the generators + C16/C18 |
| C63 | step-by-step execution of the server calls on the memory (`Model/Crash`), every index/assert a possible panic | induction on the loops: all panics precede the first write; equality with the functional model |
| C64 | client functions over arbitrary random streams (`Spec/Fresh`: `Hid`) | compositional: encrypt = sample + message; induction on the lists of levels, bits, rows, commands; bijection by subtraction |
| C65 | Fourier data as n/2 complex numbers, the loops over them, library operations with relative accuracy u (`Model/Fourier`) | evaluation at the odd powers of exp(i pi/n), orthogonality; forward error analysis by induction on how a vector is computed |
| C66 | circuits over client ciphertexts and evaluation keys (`Spec/PdteCircuit`) | symbolic execution commutes with evaluation, by induction on the tree, the levels and the trace rounds |
| C67 | `Model/Poison`: schedule semantics of `Model/Sched` extended with panics before/during any statement, unwinding, poisoning of write guards and buffer mutexes, `unwrap` on poisoned locks; `ServerPhase`, `PHistory` | invariant (row lengths kept, every cell stored was read by the same task) by induction over the run; progress by the lock order rd < mx; weight decreases; runs without panic refine `Model/Sched` |
| C68 | `Model/Machine`: the `usize`/`u64` functions on 64-bit words, parametrised by the build profile (checked or wrapping) | no-overflow invariants (at most one leaf counts; partial sums; powers of two divide 2^64), refinement of the unbounded model |
| C69 | `Model/Json`: JSON documents as syntax trees, derived (de)serialisers of the parameter and tree types, nesting limit 127 | induction over trees with the nesting budget; member lookup lemmas; exact characterisation of accepted objects |
| C70 | `Spec/Measured`: bounds on the errors of the external products of a run; same model | the worst-case proofs of C41/C46/C47 are refactored to take the error of each product as hypothesis; worst case and sparse keys are instances; default parameters instantiated |
| C71 | `Spec/MeasuredTree`: bounds on the errors of the comparisons, key switches and products of one evaluation; same model | the proofs of C29/C39 are refactored to take the error of each step as hypothesis; worst case and sparse keys are instances; default parameters and a concrete run instantiated |
| C72 | `Model/Report`: the printed text as characters, with panics keeping what was printed; `f64` texts are parameters | list lemmas on `intercalate`/`splitOn`; completion is tied to the model of C55-C58; induction over parameter sets |
| C73 | `Spec/MeasuredMulti`: the errors of the external products of each call of a session are bounded (as C70), for any reduction | the single-row theorem of C70 for every query, sums of selectors encrypt 0 or 1 for distinct columns, `cmux` with measured error; induction over the session; instance for the default parameters and sparse keys |
| C74 | `Model/Csv`: the state machine of the `csv` crate's reader with its default settings, `usize::from_str`; `Spec/Csv`: what text writes what records (RFC 4180), numerals | induction over fields, records and lines; `mapOption` as a relation |
| C75 | `Spec/View`: `Hidden` (as C64 but evaluation keys may encrypt functions of the key), the layout of the database, the client's side of a whole session | the generators of C64, `neg_gsw` and every substitution key composed along the positions of the random streams; the dummy database as a public layout of at most 128 ciphertexts, by induction over its three loops |
| C76 | `Model/ParMap`: `par_iter().map().collect()` as a small-step relation over slots (pending, running on a worker, finished or panicked) with any pool size; `simulate` with its flag as a relation; `SimulationResult` and both `Display` texts | invariant: finished slots hold the value of their item; progress and a decreasing measure; the flag's two branches both equal the sequential map; text split at commas gives back the numbers |
| C77 | `Model/Noise`: the reports as `f64` values (finite, minus infinity, NaN) over arbitrary `f64` operations; the release-build loop; `Spec/Noise`: order, rounding assumptions | faithful rounding is monotone at representable numbers, so comparisons with integers survive conversion, `log2`, the sum and the division; C01/C32 for the guarantee; induction over the levels |
| C78 | `Lemmas/Draws`: which positions of the noise stream a randomised function depends on; `Spec/Chance`: tail assumption, numbers of encryptions, correctness of runs | locality calculus (`Draws`: sequencing, lists, post-processing) for every generator, query, setup, session, batch history, benchmark loop and `simulate`; zero the noise at unused positions, apply C54/C47/C55/C56/C39, union bound over the rest; Chernoff bound of Mathlib for (sub-)Gaussian noise |
| C79 | `Model/Flat`: the wrappers and row loops on word vectors with the code's slice arithmetic; `Model/FlatFourier`: `izip!` and the loops over Fourier vectors; `Spec/Flat`: where every coefficient sits | data refinement: each operation commutes with the layout relation; row loops `enumerate()` with `i/2`, `i%2` and carried buffers by induction over level pairs |
| C80 | `Model/Cost`: the server's loops as programs that count external products, substitutions and polynomial products; `Spec/Cost`: the closed formulas | every counting program is shown to compute the value (and the panics) of the other models and to execute the stated numbers, by induction over the loops |
| C81 | `Model/Bench`: the eleven benchmarks as functions of context, generators, FFT rounding and iteration count; `Spec/Bench`: parameter conditions, noise sums, representative mod 3 | invariants of the iterated closure (constant, additive or multiplicative in the buffer) on top of C16, C19-C21, C23, C25, C26, C28, C29; numeric bounds for the default parameters |
| C82 | Model/Prog: an instruction set with one instruction per public ciphertext call, two banks of variables; Spec/Prog: relational plaintext semantics and static noise analysis | soundness of one call by cases from the C18-C30 lemmas, induction on the program; end to end from key generation and encryption of the inputs; a concrete comparison-select-product program meets the hypotheses |
| C83 | The crate's tests (all of rlwe.rs, rgsw.rs except test_rgsw_shape, lwe.rs, codec.rs, naive_hash.rs, decision_tree.rs except test_json and test_bitvec) as functions of context, secret generator, generator and Fourier rounding with result pass/panic, including the noise computations they print (`Model/Tests`). | `Props/Tests`, `Props/TestsMore`: one theorem per test with its explicit noise budget, `C83_binary_enc` as an iff, `C83_fourier_mul(_fails)` and `C83_compute_noise(_fails)` for the two tests that are flaky by design; `Props/TestsDefault`: `C83_default`, `C83_default_small` instantiate 23 tests at the default parameters. test_expand and test_traversal_* are proved under a budget which the worst case at the default parameters exceeds (they pass there on average only). |
| C84 | The five tests of oram.rs as functions of context, Fourier rounding, secret generator, generator, shuffle, behaviours of the reductions and iteration order of hash maps (`Model/TestsOram`). | `Props/TestsOram`: `C84_oram`, `C84_oram_multi`, `C84_oram_more` from the session theorem C54; `Props/TestsOramBatch`: `C84_oram_batch_iff` (exact), `C84_oram_batch`, `C84_oram_batch_fails`, `C84_oram_batch_more` from C46 and C12. The budget is the worst case; at the default parameters it is exceeded (there the tests pass on average only, see C70 - C73 for the statement in terms of measured noise). |
| C85 | `Model/FlatTree`: the second half of decision_tree.rs on the word vectors of `Model/Flat`, with loops and buffers as in the code. | `Props/FlatTree`: `C85_demux`, `C85_server`, `C85_client`, `C85_simulate` (equality with `Model/EncEval` through the memory image), `C85_lazy`, `C85_missing`. |
| C86 | `Model/FlatOram`: oram.rs on the word vectors of `Model/Flat`, with index loops, in-place cells and reductions that may panic (`ParReduceM`); `Spec/FlatOram`: images of queries and servers, sessions in memory. | `Props/FlatOram`: `C86_process_one/multi/batch`, `C86_decrypt_db`, `C86_queries`, `C86_setup` (equality with `Model/Oram` through the memory image, for every splitting); `C86_session`, `C86_batches` (array semantics end to end, from C54 and C47); `Props/FlatMixed`: `C86_mixed` (any mixture of calls, from C98). |
| C87 | `Model/JsonText`: reader (`from_reader`) and compact writer (`to_string`) of JSON on character lists; `Spec/JsonText`: the RFC 8259 grammar as predicates on texts. | `Props/JsonText`: `C87_grammar` (soundness and completeness of the reader by induction on fuel and on the value), `C87_print`, `C87_params_text`, `C87_not_json`, `C87_cut`/`C87_truncated`, `C87_tree_text`, `C87_test_json`, `C87_repo_params`. |
| C88 | `Model/CliArgs`: clap's parser for the derived command, the fields with their defaults, and `main` from the arguments to the printed text; `Spec/CliArgs`: what settings are, how they are spelt and what they say. | `Props/CliArgs`: `C88_parse_iff` (soundness and completeness of the parser by induction on the arguments), `C88_unambiguous`, `C88_order`, `C88_secure_seed`, `C88_twice`, `C88_unknown`, `C88_help`, `C88_cli_runs`, `C88_file_runs`, `C88_verbose`, `C88_completes` (uses C58, C72), `C88_defaults`, `C88_witness`. |
| C89 | `Model/Shuffle`: `SliceRandom::shuffle` of rand 0.8.5 (Fisher-Yates) with its draws; `Spec/Shuffle`: chance = favourable draws / all draws, complete service, plain-array answers. | `Lemmas/Shuffle`: Fisher-Yates is a bijection (induction on the positions); `Lemmas/PermCount`: permutations hitting a set that depends on other points, counted by swaps and double counting; `Props/Shuffle`: `C89_uniform`, `C89_batch`, `C89_batch_pow`, `C89_two`; `Props/ShuffleRun`: `C89_history`, `C89_overload`, `C89_test_oram_batch`, `C89_run`. |
| C90 | `Spec/Secure`: the decisional RLWE assumption with key-dependent messages as a hypothesis (`Hard`: any probability space, class of tests, advantage), the uniform world by counting, the server's view of a session. No new model code. | `Props/Secure`: from the layout of samples and messages (C64, C75, extended to single operations), subtracting known messages is a bijection of the uniform world; triangle inequality: `C90_oram_simulated`, `C90_oram`, `C90_tree_simulated`, `C90_tree`; the assumption is satisfiable: `C90_uniform_noise` (advantage 0 for uniform noise, by counting fibres of a surjective homomorphism), `C90_ideal`, witnesses. |
| C91 | `Spec/Adaptive`: strategies, the game round by round on the modelled client, the reduction's replay of the game with given pairs. | `Props/Adaptive`: every operation has a public plan (positions and messages, C64/C90); induction over the rounds: with uniform pairs the replayed game is the ideal game, which depends only on the sizes (`replay_ideal`: reading fresh positions is a surjective homomorphism, averages over blocks); `C91_adaptive`, `C91_accepted` (which operations are accepted and how many positions they use), `C91_private`, `C91_witness` (advantage 0 for an adaptive and a constant strategy). |
| C92 | `Spec/NoiseNeeded`: the search over all keys as a test against `Spec.Hard`. | `Props/NoiseNeeded`: count the pairs that some binary key opens to small noise (`card_exhaustive`), uniform marginals (`card_preimage`); `C92_unbounded`, `C92_not_all_tests`, `C92_default`, `C92_witness`. |
| C93 | `Spec/MeasuredMain`: the three modes as sessions/batches of C70 and C73, the errors a run may accumulate. | `Props/MeasuredMain`: each mode equals its session (`single_of_session`, `multi_of_session`, `batch_of_batches`), then C70/C73; `C93_single`, `C93_multi`, `C93_batch`, `C93_run`, `C93_main`, `C93_params_json`, `C93_params_json_sparse` (the repository's params.json without assumption on the run, light keys), `C93_params_json_witness`, `C93_default_sparse`, `C93_witness`. |
| C94 | `Spec/MeasuredTests`: the server calls of each test as a script, the errors a script may accumulate. | `Props/MeasuredTests`: one step of a script from C73/C70 (`one_step_of`, `multi_step_of`, `batch_step_of`), then as C84; `C94_oram`, `C94_oram_multi`, `C94_oram_more`, `C94_oram_batch_iff`, `C94_oram_batch`, `C94_oram_batch_fails`, `C94_oram_batch_more`, `C94_default`, `C94_default_sparse`, `C94_ignored_sparse`, `C94_witness`. |
| C95 | `Spec/Leak`: labels a tree can return, constant bits, the tree reduced for one label bit. | `Props/Leak`: the evaluation split by bits (`evalEncNode_bit`, `server_bits`), induction over the tree; `C95_constant_bit`, `C95_answers`, `C95_collapse`, `C95_collapse_sound`, `C95_model_shows` (kernel-evaluated honest run in ring size 2). |
| C96 | `Spec/Deliver`: messages, clients preparing them, a server handling arrivals. | `Props/Deliver`: induction over the arrivals with the one-call case of C54/C46; `C96_delivery`, `C96_clients`, `C96_duplicate`, `C96_replay`, `C96_batches`, `C96_witness`. |
| C97 | `Spec/Tamper`: adding public plaintexts, replacing a cell. | `Props/Tamper`: encoding is a homomorphism modulo t; the invariant of C43 holds for the changed array; `C97_answer`, `C97_item`, `C97_exchange`, `C97_witness`. |
| C98 | `Spec/Mixed`: the grid of plain contents, its answers and its change under each kind of call; `runMixed`. | `Props/Mixed`: `process_batch` analysed for cells that may differ between copies; invariant: every cell encrypts the grid's content; induction over the calls; `C98_call`, `C98_sessions`, `C98_from_setup`. |
| C99 | `Spec/MixedArray`: the array the user has in mind, items written singly since the last batch. | `Props/MixedArray`: invariant: copies of the other items agree; `C99_grid`, `C99_from_setup`, `C99_stale`, `C99_witness`. |
| C100 | `Spec/MeasuredMixed`: the errors of the external products of a mixed session stay within `m`, `V`. | `Props/MeasuredMixed`: the proof of C98 with the gates' measured errors; `C100_call`, `C100_sessions`, `C100_from_setup`, `C100_sparse`, `C100_default_params`, `C100_default_sparse`, `C100_witness` (stale READ at the default parameters). |
| C101 | `Model/FlatMain`: `src/main.rs` on the word vectors of `Model/FlatOram`, with the reused buffer, indexed look-ups and the visiting order of the hash map as a parameter; `Spec/FlatMain`: same random choices, possible schedules. | `Props/FlatMain`: call by call with C86 and C74 (`setup`, `processOne/Multi/Batch` keep `out`), decryption overwrites the buffer, the batch check does not depend on the visiting order; `C101_run`, `C101_main`, `C101_params_json`, `C101_params_json_witness`. |

## 4. Findings (code disagrees with the intended property)

Each is proved in the model as a witness theorem.

1. `NaiveHash::hash_to_mapping`: the "all slots are taken" panic is unreachable; an index whose candidate rows are all
   occupied is silently dropped (a batched write is lost) (C12).
2. `encrypt_rgsw` uses the context's `base_log` for the gadget shift even when the target ciphertext has another one, so
   `neg_gsw` is malformed when `negs_base_log != base_log` (C21).
3. `compute_noise_ternary` decodes the reference plaintext instead of encoding it (C32).
4. `compute_noise` overflows on a difference of exactly -2^63 (C32).
5. `update_body_with_mul` clears the body first and so always yields zero (C33).
6. `process_multi`: two reads of one column in a call turn its content v into 3v (C45).
7. `process_one` panics for a single column; an index >= cols is silently truncated to its low bits (C40, C52).
8. `Node::eval` evaluates both branches, so a GT node or out-of-range feature off the path still panics (C34).
9. `Codec::new(1)` overflows the shift (C02).
10. `NaiveHash::hash` does not check its index: an out-of-range index of one table aliases another table's slot (C09).
11. `max_leaf_bits` goes through `(x as f64).log2().ceil()`; modelled over the reals with rounding (`Model/Float`), see finding 20.
12. `batch_query` (and a test) compare with `pts[indices[i]]` although the mapping already stores the item `i`; harmless only because
    `indices = [0, 1]`. The number of cells must be divisible by `h_count` (C57).
13. `decrypt_and_recompose` of a tree whose labels are all zero panics (C39).
14. A repeated index in a batch *write* served by two non-first copies leaves `2*alpha - v` in every copy (C53).
15. `multi_query` asks for the items `1..=query_count`, so `query_count = item_count` panics (C56).
16. `decrypt_db` panics unless the first 64 coefficients of every item are bits, e.g. right after `setup_random_oram` (C59).
17. `gen_read_query_one`/`gen_write_query_one` return the query for row 0 even if the first copy of the item lies in another row: the read answers
    with the item of cell (0,0) and the write is lost (C61).
18. `process_batch` with a hash function not covering the database panics after the rows have been written; the database then contains the
    effects of a call that never returned (C63).
19. (C67) Since no lock is poisoned, the half-written database of finding 18 is used silently by later calls: copies of an item may disagree (`C67_half_written`).
20. (C39) `log2(2^49 + 1)` rounds to 49, so a tree with the label 2^49 gets 49 result bits and the encrypted evaluation returns 0 instead of 2^49 (`C39_wide_label_wrong`); labels below 2^48 are safe for every faithful `log2` (`C39_label_bits`).
21. (C68) Release builds only: `Codec::new(1)` and parameters with `base_log*level + log n > 64` are not refused (only the overflow check refuses them); `encrypt_feature_vector` then encrypts a wrong factor (`C68_codec_one`, `C68_feature_factor_overflow`).
22. (C69) A parameter file with one malformed entry is silently replaced by the default run (`C69_missing_member`); trees deeper than 63 serialise but cannot be deserialised (`C69_tree_roundtrip`).
23. (C72) In batch mode the `n` column is only a lower bound of the number of items (12 items are printed as `2^3`, `C72_items_inexact`); in dry runs the same holds for any modulus that is not a power of two.
24. (C74) `parse_csv` builds a reader with headers: a CSV file without a header line silently loses its first row (`C74_headerless`). The function is public but marked unused.
25. (C75, note) the dummy database stores the same ciphertext in all copies of an item and repeats 128 items: equality of cells is visible to the server (by design, for benchmarks; the real upload path does not exist in the code).
26. (C77) `compute_noise_rgsw1` averages the logarithms of the body rows only, measured against an encryption of 1 with the *context's* decomposition: it cannot see errors in the mask rows (`C77_rgsw1_ignores_mask_rows`), reports minus infinity as soon as one row is exact (`C77_rgsw1_exact_row`), and on an encryption of 0 reports the size of the gadget (`C77_rgsw1_zero`).
27. (C77, release builds) `compute_noise` ignores coefficients that are wrong by exactly 2^63 (`abs` wraps to a negative number); checked builds panic (`C77_release`).
28. `encrypt_rgsw` (and so `neg_gsw`) shifts by `64 - ctx.base_log * level` for the levels of the *output* ciphertext: it panics whenever `base_log * negs_level_count > 64` even if `negs_base_log * negs_level_count` fits (`C79_encrypt_rgsw_overflow`); a Fourier output buffer of the wrong size is only noticed in debug builds (`C79_wrong_size`).
29. (C81) `external_product_benchmark` and `keyswitch_gsw_benchmark` never clear `rlwe_ct_out`/`ct_after` although the operation adds to it: the k-th iteration holds k times the result, e.g. the ternary message vanishes after three iterations of `keyswitch gsw`. `less_eq_benchmark` compares its own previous result again. Timings are unaffected; results read from these buffers would be wrong.
30. test_fourier_mul compares coefficients as unsigned doubles, so a correct product whose rounding error crosses 0 modulo 2^64 fails the test (`C83_fourier_mul_fails`: whenever a coefficient of the first product is below the permitted rounding error).
31. test_compute_noise asserts that adding an encryption of zero strictly increases the reported noise; it fails whenever the second noise is zero, cancels the first one, or stays below a power of two the first one reaches (`C83_compute_noise_fails`).
32. test_demux_long prints a noise that compares the first output with one and the last with zero, so with plaintext modulus 2 it would panic on the absolute value of -2^63; hypothesis `4 ≤ t` of `C83_demux_long`.
33. test_oram_batch is flaky: if the shuffle puts all four copies of item 2 into the row of item 1's first copy, hash_to_mapping drops item 2 without an error, the write does not happen and the test panics (`C84_oram_batch_fails`, with a concrete shuffle in the example). The root cause is finding 1 (C12).
34. Every call of process_one, process_multi and process_batch allocates FFT buffers for `rayon::max_num_threads()` threads (the library's upper limit, not the size of the pool, which is `rayon::current_num_threads()`), /repo/src/oram.rs:450,460,548. Not a semantic error (and it makes the index `pool[tid]` always valid), but a large allocation per query; outside the timed region.
35. `C88_secure_seed`: `--secure-seed` is a flag whose default is `true`, so no command line can turn the secure seed off (only a parameter file can).
36. `C88_verbose`: `--verbose` ("print more information") is never read. `C88_defaults`: without arguments the program runs 96 x 64 cells, while an unreadable parameter file makes it run 384 x 16; the comment in main.rs that a wrong path yields the default parameters is inaccurate, the command line's parameters are run (`C88_cli_runs`).
37. `C89_two`, `C89_batch`: finding 1 in numbers: with the default geometry (96 x 64, 3 hash functions) one in 972,450 hash functions drops the second of two items, and the bound for batches grows with the fourth power of their size (27% for 32 items); a batch with more items than rows is always served incompletely (`C89_overload`). Finding 33 in numbers: `test_oram_batch` fails once in 17,019 runs (`C89_test_oram_batch`).
38. The reduction of C90 needs circular security: the RGSW encryption of the negated key and all substitution keys encrypt functions of the very key they are encrypted under, so plain RLWE (without key-dependent messages) does not imply the privacy of a session; `Hard` states the assumption with these messages (`negShift`, `kskShift`).
39. `C95_constant_bit`, `C95_model_shows`: the tree server adds no randomness to its answers. Label bits on which all leaves agree go back unencrypted, and models with equal predictions give different answers: there is no model privacy (circuit privacy) beyond what the reduced trees share.
40. `C96_replay`, `C97_item`: queries carry no counter and ciphertexts no authentication: a server can undo a WRITE by handling an old query again, and change or exchange items, unnoticed. (The threat model of the paper is a passive server; the crate does not say so.)
41. `C99_stale`, `C99_witness`: `process_one`/`process_multi` update only the first copy of an item (and only in row 0). A batch READ that serves the item from another copy returns the old content; only after that batch do all copies hold the new one. `Server` offers both kinds of call on the same database without saying so.
