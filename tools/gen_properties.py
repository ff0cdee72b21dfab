#!/usr/bin/env python3
"""Regenerates /verif/properties.jsonl (one JSON object per line)."""
import json, os
P = []
def p(title, statement, quantifier, why, anchors):
    P.append(dict(id="C%02d" % (len(P)+1), title=title, statement=statement,
                  quantifier=quantifier, why_tests_cant=why, anchors=anchors))

# ---------------------------------------------------------------- codec
p("Noisy decode recovers the plaintext exactly inside the half-delta window",
  "For a codec of plaintext modulus t (a power of two, 2 <= t <= 2^63), any plaintext m < t and any error e added modulo 2^64 to encode(m): decode returns m when -delta/2 <= e < delta/2 (delta = 2^64/t), including when the addition wraps around 2^64; and for every other e in the centred range [-2^63, 2^63) it returns a value different from m. largest_error() is delta/2.",
  "all moduli t=2^k with 1<=k<=63, all m<t, all 64-bit errors e",
  "2^64 errors times 63 moduli times all plaintexts; the boundary values and the wrap-around of m=0 with a negative error are single points a sampled test misses",
  ["src/codec.rs: Codec::new, Codec::encode, Codec::decode, Codec::largest_error"])
p("Codec rejects exactly the invalid inputs and never produces an out-of-range plaintext",
  "Codec::new panics iff t is not a power of two (or the shift 64-log2 t overflows, i.e. t=1); encode panics iff its input is >= t, and otherwise performs no 64-bit overflow; decode never panics and always returns a value < t, so every decoded value can be encoded again.",
  "all 64-bit t, all 64-bit inputs",
  "quantifies over all 64-bit words",
  ["src/codec.rs: Codec::new, Codec::encode, Codec::decode"])
p("Ternary codec recovers -1, 0, 1 under errors below roughly q/6",
  "ternary_encode panics on every word other than 0, 1 and 2^64-1; for those three values and any error e with |e| < 0x2AAAAAAAAAAAA800 added modulo 2^64, ternary_decode returns the original value; ternary_decode's output is always ternary.",
  "all three ternary values, all 64-bit errors, all 64-bit words for the rejection and range parts",
  "all 2^64 words; the constants come from an f64 division truncated to u64, so the safe margin is not symmetric and boundary points matter",
  ["src/codec.rs: Codec::ternary_encode, Codec::ternary_decode"])
p("Encoded plaintexts add homomorphically",
  "For any plaintexts x, y < t, decode(encode(x) + encode(y) + e mod 2^64) = (x + y) mod t whenever -delta/2 <= e < delta/2; likewise subtraction.",
  "all t, x, y, e", "all triples of 64-bit words",
  ["src/codec.rs: Codec::encode, Codec::decode"])
# ---------------------------------------------------------------- utils
p("log2 is the floor of the binary logarithm and rejects zero",
  "For every 64-bit x > 0, log2(x) is the unique k with 2^k <= x < 2^(k+1); for x = 0 the subtraction underflows (panic in checked builds).",
  "all 64-bit x", "all 64-bit words",
  ["src/utils.rs: log2"])
p("transpose is the matrix transpose, is an involution on non-degenerate matrices and rejects ragged-short input",
  "transpose panics iff the input is empty or some row is shorter than the first; otherwise the result has len(first row) rows, each of len(input) entries, and entry (j,i) of the result is entry (i,j) of the input; on rectangular matrices with at least one column transposing twice gives the input back. Rows longer than the first are silently cut.",
  "all lists of lists over any type", "unbounded matrix sizes and element types",
  ["src/utils.rs: transpose"])
p("Substitution X -> X^k is a well-defined ring automorphism",
  "For n a power of two and k odd, the in-place loop computing f(X^k) mod (X^n+1) writes every output coefficient exactly once (the previous contents of the output buffer never survive), agrees with evaluating the polynomial at X^k in Z_q[X]/(X^n+1), preserves sums and products, composes as X^(k*k'), and sends small polynomials to equally small ones. It panics iff k is even or n is not a power of two.",
  "all powers of two n, all odd k, all polynomials, all prior buffer contents",
  "infinitely many n and k; needs the permutation i -> ik mod n argument",
  ["src/utils.rs: eval_x_k, eval_x_k_in_memory"])
p("pt_to_lossy_u64 is the little-endian integer of the first 64 bits",
  "If the first min(64, len) coefficients are all 0/1 the result is sum b_i 2^i (without overflow), every 64-bit value is obtained from its own bits, and any non-binary coefficient among the first 64 panics; coefficients from the 65th on are ignored.",
  "all coefficient lists", "all lists of words, unbounded length",
  ["src/utils.rs: pt_to_lossy_u64", "src/oram.rs: Server::decrypt_db"])
# ---------------------------------------------------------------- naive hash
p("The hash table never maps two (function, index) pairs to one slot and fills every slot",
  "Whatever permutation the shuffle draws, (h, x) -> hash(h, x) is a bijection from [0,h_count) x [0,input_domain) onto [0,output_domain); checked_hash returns None exactly outside that domain; new panics iff h_count = 0.",
  "all h_count, input_domain, all permutations drawn by the RNG",
  "every shuffle outcome and every size",
  ["src/naive_hash.rs: NaiveHash::new, hash, checked_hash, output_domain"])
p("hash_to_tuple places every copy of every item in its own grid cell",
  "If rows*cols = h_count*input_domain and cols > 0 then (h,x) -> hash_to_tuple(h,x,cols) is a bijection onto the rows x cols grid and hash(h,x) = cols*r + c.",
  "all sizes, all permutations", "every shuffle outcome and every grid size",
  ["src/naive_hash.rs: NaiveHash::hash_to_tuple", "src/oram.rs: setup_random_oram"])
p("hash_to_mapping never lies: an entry is a real slot of a requested index, and no index or row is used twice",
  "Every entry r -> (c, i) of the result satisfies i in the request and hash_to_tuple(h, i, d) = (r, c) for some h < h_count; each row has at most one entry; if the requested indices are distinct then each index has at most one entry.",
  "all hash tables, all request lists, all d", "all permutations and request lists",
  ["src/naive_hash.rs: NaiveHash::hash_to_mapping"])
p("hash_to_mapping serves every requested index, or panics",
  "INTENDED: for every request of distinct indices the mapping contains an entry for each of them, or the call panics with 'all slots are taken'. FINDING: false in the code - the panic test is unreachable (h >= h_count inside h in 0..h_count), so an index whose rows are all occupied is silently dropped. Proved: the panic is dead code; a concrete table and request that lose an index; a request that loses an index although another order of the same request serves both; the exact condition (some candidate row still free) under which an index is served; and that a request of k indices, each with at least k distinct candidate rows, is always served in full.",
  "all hash tables and request lists", "depends on the shuffle outcome; with default parameters loss is rare so tests pass",
  ["src/naive_hash.rs: NaiveHash::hash_to_mapping"])
# ---------------------------------------------------------------- params / main
p("The parameter file expands to the full cartesian product in order",
  "from_input_params_list yields, for each group in order, every (oram, tfhe) pair of the group exactly once, oram-major; the length is the sum of products; the default list yields the default parameters.",
  "all parameter lists", "unbounded lists",
  ["src/params.rs: ServerParams::from_input_params_list, InputParamsList"])
p("Parameter source selection of the executable",
  "If the --params file opens, command-line parameters are ignored: a well-formed file is used as is and a malformed one yields the default list; otherwise exactly one experiment is run with mode 0 -> SingleQuery, 1 -> MultiQuery, anything else -> Batched and the TFHE parameters of the command line, iterations = 1.",
  "all CLI values, all file outcomes", "all combinations of CLI values",
  ["src/main.rs: main", "src/cli.rs: Cli"])
# ---------------------------------------------------------------- ring / decomposition
p("Gadget decomposition recomposes to the rounded value with balanced digits",
  "For base_log >= 1, level_count >= 1, base_log*level_count < 64, the signed digits of the rounded word are in [-2^(base_log-1), 2^(base_log-1)], there are exactly level_count of them, sum d_l 2^(64-base_log*l) equals the rounded word modulo 2^64, and the rounded word differs from the input by at most 2^(63-base_log*level_count) (centred).",
  "all decomposition parameters, all 64-bit words", "all words and parameters",
  ["src/rlwe.rs: RLWEKeyswitchKey::keyswitch_ciphertext", "src/lwe.rs: conv_lwe_to_rlwe", "src/codec.rs: Codec::decode"])
# ---------------------------------------------------------------- rlwe / lwe
p("RLWE encrypt/decrypt round trip under bounded noise",
  "For every key, mask and noise polynomial with coefficients in [-delta/2, delta/2) and every plaintext with coefficients < t, decrypt_decode(encode_encrypt(pt)) = pt; encode_encrypt panics iff some coefficient is >= t; decrypt(encrypt(m)) - m is exactly the noise polynomial.",
  "all ring sizes, keys, masks, noise and plaintext polynomials", "all randomness; a test sees one Gaussian sample",
  ["src/rlwe.rs: RLWESecretKey::encode_encrypt_rlwe, decrypt_decode_rlwe, encrypt_rlwe, decrypt_rlwe, ternary_encrypt_rlwe, ternary_decrypt_rlwe, encrypt_constant_rlwe"])
p("LWE encrypt/decrypt round trip under bounded noise",
  "Same for LWE: decode_decrypt_lwe(encode_encrypt_lwe(pt)) = pt for every key, mask and noise in [-delta/2, delta/2).",
  "all dimensions, keys, masks, noises, plaintexts", "all randomness",
  ["src/lwe.rs: LWESecretKey::encode_encrypt_lwe, decode_decrypt_lwe"])
p("Adding and subtracting ciphertexts adds and subtracts the messages; noises add",
  "update_with_add / update_with_sub on RLWE ciphertexts: decryption is the sum / difference of decryptions (exactly), so noise bounds add; update_with_monomial_div multiplies the decryption by X^(-m).",
  "all ciphertexts and keys", "all ciphertexts",
  ["src/rlwe.rs: RLWECiphertext::update_with_add, update_with_sub, update_with_monomial_div"])
p("External product multiplies the message by the RGSW plaintext with bounded noise growth, accumulating into the output",
  "For an RGSW encryption of mu with row noise <= E and any RLWE ciphertext c, the output buffer after external_product decrypts to (previous decryption of the output buffer) + mu*decrypt(c) + noise with an explicit bound on the noise in terms of n, base_log, level_count, E, mu and the FFT rounding error.",
  "all keys, ciphertexts, randomness, decomposition parameters", "worst-case over all randomness",
  ["src/rgsw.rs: RGSWCiphertext::external_product, external_product_with_buf, external_product_with_buf_glwe"])
p("cmux selects its second operand on 1 and its first on 0",
  "cmux(out, ct0, ct1) with an RGSW encryption of bit b: decryption of out equals decryption of ct_b up to an explicit additive noise bound, independent of the old contents of out.",
  "all ciphertexts, both bits, all randomness", "worst-case over randomness",
  ["src/rgsw.rs: RGSWCiphertext::cmux, cmux_with_buf"])
p("RGSW encryption of constants, polynomials and -s is well formed",
  "encrypt_constant_rgsw(mu) yields row phases -s*mu*g_l + e and mu*g_l + e for every level; encrypt_rgsw(m) likewise for polynomial m when the ciphertext was allocated with the context's base_log; neg_gsw yields an RGSW encryption of -s when negs_base_log = base_log. FINDING: encrypt_rgsw shifts by ctx.base_log instead of the ciphertext's own base_log, so for negs_base_log != base_log neg_gsw is not an encryption of -s (concrete witness proved).",
  "all keys, messages, randomness, parameters", "the shipped parameters have negs_base_log = base_log so the tests cannot see it",
  ["src/rlwe.rs: RLWESecretKey::encrypt_constant_rgsw, encrypt_rgsw, neg_gsw"])
p("NOT flips an encrypted bit and is an involution",
  "With plaintext modulus 2, not and not_in_place give the same ciphertext; decrypting it yields 1-b in the constant coefficient and unchanged other (zero) coefficients, with the same noise magnitude; not(not(c)) = c exactly.",
  "all keys, ciphertexts", "all ciphertexts",
  ["src/rlwe.rs: RLWECiphertext::not, not_in_place"])
p("less_eq_than computes m <= d on the exponent",
  "For every n, m < n, d < n and an encryption of c*X^m, the constant coefficient of the decryption after less_eq_than(d) is c if m <= d and 0 otherwise, up to an explicit noise bound ((d+1) times the old noise plus FFT error); d >= n panics.",
  "all n, m, d, keys, ciphertexts", "all n, m, d and ciphertexts",
  ["src/rlwe.rs: RLWECiphertext::less_eq_than"])
p("eq_to computes m = d on the exponent",
  "Same with equality; noise does not grow except for the FFT error.",
  "all n, m, d, keys, ciphertexts", "all n, m, d and ciphertexts",
  ["src/rlwe.rs: RLWECiphertext::eq_to"])
p("Key switching preserves the message",
  "keyswitch_ciphertext with a key generated by fill_with_keyswitch_key(before, after) turns a ciphertext under `before` into one under `after` of the same message, with explicit noise bound; the old contents of the output do not matter; the Fourier-domain variant computes the same value up to FFT error (pairwise loop, odd or even number of levels).",
  "all keys, ciphertexts, decomposition parameters (odd and even level counts)", "worst-case over randomness and parameters",
  ["src/rlwe.rs: RLWEKeyswitchKey::fill_with_keyswitch_key, keyswitch_ciphertext, FourierRLWEKeyswitchKey::keyswitch_ciphertext"])
p("Key switching via an RGSW ciphertext agrees with the direct one",
  "RGSWCiphertext::from_keyswitch_key followed by external_product is a key switch: same message under the new key, explicit noise bound.",
  "all keys, ciphertexts, parameters", "worst-case over randomness",
  ["src/rgsw.rs: RGSWCiphertext::from_keyswitch_key, keyswitch_ciphertext"])
p("subs maps RLWE(p(X)) to RLWE(p(X^k))",
  "With a key from fill_with_subs_keyswitch_key(k), k odd, subs yields an encryption of p(X^k) under the same key with explicit noise bound; get_subs_k returns k.",
  "all k odd, keys, ciphertexts", "worst-case over randomness",
  ["src/rlwe.rs: RLWEKeyswitchKey::subs, fill_with_subs_keyswitch_key, FourierRLWEKeyswitchKey::subs"])
p("trace1 isolates the constant coefficient, multiplied by n",
  "With the key map produced by gen_all_subs_ksk, trace1 never panics on a missing key and returns an encryption of n*p(0) with explicit noise bound, for every message polynomial p (all other coefficients vanish exactly).",
  "all powers of two n, keys, messages, randomness", "all n and messages; needs an inductive argument on the automorphism tower",
  ["src/rlwe.rs: RLWECiphertext::trace1, trace1_fourier, gen_all_subs_ksk"])
p("expand turns decomposed RLWE ciphertexts of a bit into an RGSW encryption of the bit",
  "expand (and expand_fourier) applied to make_decomposed_rlwe_ct(bit) yields an RGSW encryption of that bit under the same key with explicit noise bound, whatever the random other coefficients.",
  "both bits, all keys and randomness, all n", "worst-case over randomness",
  ["src/rlwe.rs: expand, expand_fourier, make_decomposed_rlwe_ct, decomposed_rlwe_to_rgsw"])
p("Sample extraction extracts exactly the requested coefficient",
  "fill_with_sample_extract(c, k) yields an LWE ciphertext whose decryption under the same key coefficients equals coefficient k of the RLWE decryption, with no extra noise.",
  "all n, k < n, ciphertexts, keys", "all ciphertexts",
  ["src/lwe.rs: LWECiphertext::fill_with_sample_extract, fill_with_const_sample_extract, LWESecretKey::to_rlwe_sk"])
p("LWE to RLWE conversion puts the LWE message in the constant coefficient",
  "conv_lwe_to_rlwe with keys from fill_with_keyswitching_key returns an RLWE ciphertext decrypting to the constant polynomial of the LWE decryption, with explicit noise bound; expand_slow built from it yields an RGSW encryption of the bit.",
  "all keys, ciphertexts, parameters", "worst-case over randomness",
  ["src/lwe.rs: conv_lwe_to_rlwe, LWEtoRLWEKeyswitchKey::fill_with_keyswitching_key", "src/rlwe.rs: expand_slow, make_decomposed_rlwe_ct2"])
p("compute_noise reports the true infinity norm of the error",
  "The value whose log2 compute_noise returns is the maximum over coefficients of |decrypt(ct)-m| as centred integers, unless a coefficient difference is exactly -2^63 (checked builds panic). compute_noise_encoded measures against the encoded plaintext. FINDING: compute_noise_ternary decodes instead of encoding the reference plaintext, so for every ternary plaintext it measures the distance to zero.",
  "all keys, ciphertexts, plaintexts", "all ciphertexts; the ternary tests only print the noise",
  ["src/rlwe.rs: compute_noise, compute_noise_encoded, compute_noise_ternary"])
p("Polynomial multiplication in place",
  "update_mask_with_mul replaces the mask by its negacyclic product with the argument. FINDING: update_body_with_mul clears the body before multiplying, so the body always becomes zero.",
  "all polynomials", "no test calls it; all polynomials",
  ["src/rlwe.rs: RLWECiphertext::update_mask_with_mul, update_body_with_mul, naive_update_with_mul, naive_update_with_mul_acc"])
# ---------------------------------------------------------------- decision tree
p("Clear decision-tree evaluation returns the label of the unique leaf on the comparison path",
  "For a tree whose operations are all LEQ and whose feature indices are in range, eval returns the label reached by going left iff feature <= threshold (0 when the path ends in a missing child); a GT node anywhere, or an out-of-range feature index anywhere (even off the path), panics. A feature vector longer than max_feature_index() is always in range.",
  "all trees and feature vectors", "unbounded trees and features",
  ["src/decision_tree.rs: Node::eval, eval_node, Node::max_feature_index"])
p("fix_index numbers internal nodes 0,1,2,... in the order flatten lists them",
  "After fix_index, flatten() has count_internal() entries and the i-th has index i; fix_index returns count_internal()-1 and changes nothing but indices; it panics on a leaf.",
  "all trees", "unbounded trees",
  ["src/decision_tree.rs: Node::fix_index, flatten, count_internal"])
p("Tree size accounting",
  "On trees without missing children count_leaf = count_internal + 1 and count_leaf <= 2^count_depth; new_with_depth(d) has depth d, 2^d leaves, 2^d - 1 internal nodes and exactly its leftmost leaf labelled 1, all others 0.",
  "all trees, all depths", "unbounded trees",
  ["src/decision_tree.rs: Node::count_leaf, count_internal, count_depth, new_with_depth, gen_full_tree"])
p("Pruning zero subtrees preserves evaluation",
  "If eval succeeds on a tree then it succeeds with the same result on the tree returned by trunc_tree; if trunc_tree returns None the result was 0; the pruned tree contains no zero leaf and no node without children; pruning twice equals pruning once.",
  "all trees and feature vectors", "unbounded trees",
  ["src/decision_tree.rs: trunc_tree, Node::eval"])
p("Encrypted tree construction consumes exactly one ciphertext per internal node, in flatten order",
  "EncNode::new(root, cts) panics iff root is a leaf or there are fewer than count_internal(root) ciphertexts; otherwise the i-th ciphertext ends up at the node flatten lists i-th, exactly count_internal ciphertexts are consumed, and leaf labels are copied (missing children become label-0 leaves).",
  "all trees and ciphertext streams", "unbounded trees",
  ["src/decision_tree.rs: EncNode::new, new_enc_node, flatten_tree"])
p("Encrypted tree evaluation decrypts to the clear evaluation",
  "If the i-th ciphertext encrypts the i-th comparison bit with bounded noise, then under an explicit noise budget depending on depth and number of leaves, decrypt_and_recompose(EncNode::eval) equals Node::eval for every tree with a nonzero label and all labels below 2^48, whatever the rounding of the floating-point logarithm that sizes the result (nearest conversion, faithful log2); a label 2^49 is lost.",
  "all trees, features, keys, randomness", "unbounded trees and all randomness",
  ["src/decision_tree.rs: EncNode::eval, eval_enc_node, decrypt_and_recompose, compare_expand, encrypt_feature_vector, simulate"])
# ---------------------------------------------------------------- demux / oram
p("Demultiplexing yields the one-hot vector of the encrypted index",
  "For every depth D >= 1 and index i < 2^D, demux_with(b, bit_decomposed_rgsw(i, 2^D)) has exactly 2^D entries; entry i decrypts to the decryption of b and every other entry to 0, up to D times the single external-product noise; an empty bit vector panics; an index i >= n is silently reduced modulo 2^log2(n).",
  "all depths, indices, keys, randomness", "all depths and indices",
  ["src/decision_tree.rs: demux, demux_with, demux_rec, bit_decomposed_rgsw"])
p("process_one returns the value stored at the queried index before the access",
  "For a database row of 2^D columns (D >= 1), the response to a query for column i decrypts to the current content of column i, for reads and writes alike, up to an explicit noise bound.",
  "all database contents, indices, keys, randomness", "worst-case over randomness and sizes",
  ["src/oram.rs: process_one_mt, process_one_st, Server::process_one"])
p("process_one writes exactly the addressed cell on WRITE and nothing on READ",
  "After the access, cell i decrypts to the new data (WRITE) or its old content (READ) and every other cell to its old content, up to an additive noise increment independent of the history.",
  "all database contents, indices, keys, randomness", "worst-case over randomness and sizes",
  ["src/oram.rs: update_db_mt, update_db_st, rw, Server::process_one"])
p("Any history of single accesses behaves like a plain array",
  "For every finite sequence of read and write queries issued by the client and processed by process_one, each response decrypts and decodes to the most recently written value for that index (or the initial value), as long as an explicit linear-in-history noise budget stays below delta/2.",
  "all histories, all keys, all randomness, all database sizes 2^D", "all histories",
  ["src/oram.rs: Client::gen_read_query_one, gen_write_query_one, Server::process_one"])
p("process_multi on pairwise distinct indices: all reads see the old state, all writes land",
  "For queries on pairwise distinct columns every response decrypts to the old content of its column and afterwards each written column holds its new data and all others are unchanged, up to explicit noise.",
  "all query lists, contents, randomness", "all query lists",
  ["src/oram.rs: Server::process_multi"])
p("process_multi with repeated indices",
  "INTENDED: concurrent queries leave unwritten cells unchanged. FINDING: two READ queries for the same column in one process_multi call replace its content v by 3v (noise-free witness proved), so distinctness is necessary.",
  "existential witness; general formula for k reads of one column proved", "tests only use distinct indices",
  ["src/oram.rs: Server::process_multi"])
p("process_batch answers every mapped index and keeps all hash copies of every item equal",
  "If before the call all h_count copies of every item hold the same value, then for a batch query on distinct indices, response r decrypts to the value of the item mapped to row r, and after the call all copies of each item are again equal: to the new data for mapped written items, to the old value otherwise; noise grows by an explicit additive amount.",
  "all hash tables, index sets, contents, randomness", "all permutations, index sets and randomness",
  ["src/oram.rs: Server::process_batch, correct_consistency, Client::gen_read_query_batch, gen_write_query_batch"])
p("Any history of batch accesses behaves like a plain array on the served indices",
  "For every finite sequence of batch reads and writes, each served index reads the most recently written value, as long as an explicit noise budget holds.",
  "all histories of batch operations", "all histories",
  ["src/oram.rs: Server::process_batch"])
p("The dummy database is consistent: every hash copy of item i encrypts pts[i]",
  "gen_dummy_database never panics when rows*cols = h_count*input_domain, returns item_count plaintexts, and cell hash_to_tuple(h, i, cols) decrypts to pts[i] for every h and i (also beyond the first 128 unique items, where item i repeats item i mod 128).",
  "all sizes, hash tables, randomness", "all sizes and permutations",
  ["src/oram.rs: Client::gen_dummy_database, setup_random_oram"])
p("Parallel schedule independence",
  "The response and the new database do not depend on how rayon splits the reduction (any bracketing, identity elements inserted anywhere) nor on the interleaving of the per-column updates or of the per-item consistency corrections: every schedule gives the sequential result.",
  "all reduction trees, all interleavings of the parallel tasks at lock granularity", "schedules are not controllable from tests",
  ["src/oram.rs: process_one_mt, update_db_mt, Server::process_multi, Server::process_batch, correct_consistency"])
p("The lock protocol of the server cannot deadlock",
  "With any number of worker threads executing any assignment of the parallel tasks, every reachable state of the lock protocol (row RwLocks, per-thread buffer Mutexes) in which some task is unfinished has an enabled step.",
  "all thread counts, task assignments, interleavings", "schedules are not controllable from tests",
  ["src/oram.rs: process_one_mt, update_db_mt, process_one_st, update_db_st, correct_consistency"])
p("Query shape is independent of the access (what the server can count)",
  "A query contains exactly log2(cols) address ciphertexts, one operation ciphertext and one data ciphertext for every index, operation and data; a batch query has exactly `rows` queries for every index set; and the server's sequence of cell accesses and homomorphic operations depends only on public sizes and the hash table, never on ciphertext contents.",
  "all pairs of accesses", "a hyperproperty over pairs of executions",
  ["src/oram.rs: Client::make_read_query, make_write_query, gen_read_query_batch, gen_write_query_batch, Server::process_one, Server::process_batch"])
p("Server panics exactly on unusable geometry",
  "process_one on a query built for `cols` columns panics iff cols is not a power of two or cols = 1 (no address bits); process_batch panics if the number of queries differs from the number of rows.",
  "all column counts", "all sizes; tests use 16 columns",
  ["src/oram.rs: process_one_mt, process_one_st, Server::process_batch", "src/decision_tree.rs: demux_rec, bit_decomposed_rgsw"])
p("A repeated index in a batch WRITE corrupts the item (finding)",
  "If hash_to_mapping serves a repeated index through two different non-first copies of the same item, process_batch leaves every copy of the item decrypting to 2*alpha - v (alpha the written value, v the old content) instead of alpha; a concrete request sequence reaches this through the public API.",
  "all servers, hash tables, contents, randomness meeting the hypothesis", "depends on the random hash table and on which copies the mapping picks",
  ["src/oram.rs: Server::process_batch, correct_consistency", "src/naive_hash.rs: NaiveHash::hash_to_mapping"])
p("Mixed sessions of single and multi-query calls behave like a plain array",
  "For every finite sequence of calls on a one-row server, each either process_one with one command or process_multi with commands for pairwise distinct items, no call panics and each decoded response is the content of its item before that call; all writes of a call are visible to later calls; noise grows by an explicit additive amount per call.",
  "all mixed histories of process_one/process_multi calls, command lists, keys, randomness, reduction schedules", "all histories and schedules",
  ["src/oram.rs: Server::process_one, Server::process_multi, Client::gen_read_query_one, gen_write_query_one, setup_random_oram"])
p("single_query of the binary completes, with every assertion holding, exactly on usable sizes",
  "With a good context, item_count = 2^D (D >= 1) and at least one iteration, single_query completes printing one line per iteration (every assert_eq! on decrypted answers holds) whatever the key, shuffle, noise and scheduling within the noise budget; with zero iterations or any other item_count it panics.",
  "all item counts, iteration counts, keys, shuffles, noise, schedules", "all sizes, randomness and schedules",
  ["src/main.rs: single_query"])
p("multi_query of the binary completes, with every assertion holding, exactly on usable sizes",
  "With item_count = 2^D (D >= 1), query_count < item_count and at least one iteration multi_query completes with every assertion holding; with query_count >= item_count >= 1 queries, or another item_count, it panics (FINDING: the queried items are 1..=query_count, so query_count = item_count is out of range); with query_count = 0 it completes for every positive item_count.",
  "all item, query and iteration counts, keys, shuffles, noise, schedules", "all sizes, randomness and schedules",
  ["src/main.rs: multi_query"])
p("batch_query of the binary completes, with every assertion holding, exactly on usable sizes",
  "With rows * cols = 3 * N, N >= 2, cols = 2^D (D >= 1) and at least one iteration batch_query completes with every assertion holding; with a number of cells not divisible by 3 or below 6, cols not such a power of two, or no iterations, it panics.",
  "all row, column and iteration counts, keys, shuffles, noise, schedules", "all sizes, randomness and schedules",
  ["src/main.rs: batch_query"])
p("main runs every selected parameter set; --dryrun executes nothing",
  "main on any list of runnable parameter sets completes and prints as many result lines as there are iterations in total; with --dryrun it completes iff every set has a positive plaintext modulus, at least one iteration and at least one item, printing one line per set, for every key, shuffle and noise; Context::new keeps all parameters and panics iff the plaintext modulus is not 2^k with 1 <= k <= 63; the default parameters have a runnable geometry.",
  "all parameter lists, mixtures of modes, environments", "all parameter lists and environments",
  ["src/main.rs: main", "src/context.rs: Context::new", "src/params.rs: ServerParams::from_input_params_list"])

p("decrypt_db shows the first 64 coefficients of every item, and panics exactly on non-binary items",
  "After setup_random_oram and any history of valid batch calls within the noise budget, decrypt_db returns a rows x cols table in which the cell of every hashed copy of item i is the 64-bit word whose bit b is coefficient b of the current content of item i; it panics iff some item has a coefficient other than 0 and 1 among its first 64 (FINDING: so it panics right after setup_random_oram, whose items are uniform modulo the plaintext modulus).",
  "all geometries, keys, shuffles, noise, histories, contents", "all histories and contents",
  ["src/oram.rs: Server::decrypt_db", "src/utils.rs: pt_to_lossy_u64"])

p('simulate never returns a wrong prediction; decrypt_and_recompose exactly',
  'Whatever the parameters, key, randomness, noise and FFT error, if simulate returns then it returns one prediction per feature vector, in order, each equal to Node::eval of the tree; so it panics whenever Node::eval panics on some vector. decrypt_and_recompose panics iff it gets no ciphertext, more than 64, or one whose constant coefficient is not a bit; otherwise it returns the integer with exactly those bits, least significant first.',
  'all trees, feature lists, parameters, keys, noise of any size', 'no noise bound can be sampled exhaustively',
  ['src/decision_tree.rs: simulate, decrypt_and_recompose'])
p('Single accesses on a multi-row database (finding)',
  'On a consistent database with any number of rows, gen_read_query_one/gen_write_query_one followed by process_one does not panic; if the first copy of the item lies in row 0 the response is the item and a WRITE changes that one copy only; otherwise (FINDING) the response is the item of cell (0,0) and a WRITE is silently lost: no cell changes its content.',
  'all geometries, hash tables, contents, items, commands, randomness, reduction schedules', 'depends on the random hash table; the tests only use one row',
  ['src/oram.rs: Client::gen_read_query_one, gen_write_query_one, Server::process_one', 'src/naive_hash.rs: NaiveHash::hash_to_mapping'])

p('The plaintext and key generators of Context',
  'gen_demuxed_pt(i) panics iff i >= the polynomial size and otherwise is X^i; gen_unit_pt is 1, gen_zero_pt is 0. Every plaintext these generators, gen_binary_pt and gen_pt produce is accepted by encode_encrypt_rlwe and decrypts back to itself for every noise inside the decoding window; gen_ternary_ptxt yields coefficients in {0,1,-1}, accepted by ternary_encrypt_rlwe and recovered by ternary_decrypt_rlwe; the scalar generators likewise with LWE. Each random generator reads only the randomness at the current position, moves on by one, and has exactly the stated range of values. Generated secret keys are binary and consume fresh words of the secret generator; under the zero key decryption returns the body.',
  'all generator states, parameters, polynomial sizes, noise values', 'ranges over all random streams',
  ['src/context.rs: Context::gen_demuxed_pt, gen_unit_pt, gen_zero_pt, gen_binary_pt, gen_pt, gen_ternary_ptxt, gen_rlwe_sk, gen_lwe_sk'])
p('A panicking server call leaves the database unchanged',
  'If process_one or process_multi panics, or process_batch called with the hash function of the database, then no cell of the database has been written: the database is exactly as before the call; otherwise the database and responses are those of a successful call. (FINDING) With a hash function covering fewer items than the database holds, process_batch panics after the rows have been written, and the panicked WRITE is in the database.',
  'all queries, databases, keys, parameters, noise, FFT errors, reduction trees, and all orders of the consistency loop; every panic point', 'crash points cannot be enumerated by tests',
  ['src/oram.rs: Server::process_one, process_multi, process_batch, update_db_mt, update_db_st, correct_consistency'])

p('Client messages are fresh RLWE samples plus plaintext; accesses are hidden up to the RLWE assumption',
  'Everything a client sends over any history of READ/WRITE batches, any list of encrypted feature vectors, the RGSW encryption of the negated key and the substitution key-switching keys: each ciphertext is an RLWE sample (a, a*s+e) drawn at its own position of the random streams - no mask or noise is used for two ciphertexts, over the whole history - plus a shift that does not depend on masks or noises (for queries and features nor on the key) and consists of the scaled plaintexts. Whether the client panics, how many ciphertexts it sends and which positions it uses is the same for all keys, masks and noises, and the number does not depend on the accesses. Hence with ideal (random) samples the views of any two equally long histories coincide under a bijection of the samples.',
  'all histories, keys, random streams, parameters, hash tables, indices, contents', 'ranges over all random streams and histories; tests never look at masks',
  ['src/oram.rs: Client::make_read_query, make_write_query, gen_read_query_batch, gen_write_query_batch', 'src/rlwe.rs: encrypt_rlwe, encrypt_constant_rgsw, encrypt_rgsw, neg_gsw, fill_with_subs_keyswitch_key', 'src/decision_tree.rs: encrypt_feature_vector, bit_decomposed_rgsw'])

p('Fourier-domain arithmetic computes negacyclic products modulo 2^64 with bounded floating-point error',
  'Transforming polynomials forward (one operand as torus elements, the other as integers), multiplying entry by entry, summing up and transforming back computes exactly the sum of the negacyclic products modulo 2^64 when the arithmetic is exact. When every floating-point operation has relative accuracy u, the words returned differ from that sum by at most phi times the size of the sum per coefficient, phi about (d+1)*u*n^2*2^63 with d the number of roundings; the accumulating variants add that to the output. In particular the two polynomial multiplications of the API, any accumulated sum of products, and the Fourier-domain key switch with its one-or-two-rows-at-a-time loop over complex vectors are correct up to that error, and the error hypothesis of all other noise theorems is met.',
  'all even polynomial sizes, all polynomials, all numbers of products, all implementations of the four library operations with some accuracy u', 'quantifies over all 2^(64 n) operands and all floating-point implementations; tests compare a few random products',
  ['src/rlwe.rs: fourier_update_with_mul, fourier_update_with_mul_acc, pre_fourier_update_with_multiply_accumulate, pre_fourier_update_with_two_multiply_accumulate, FourierRLWECiphertext::backward_as_torus, RLWEKeyswitchKey::into_fourier, FourierRLWEKeyswitchKey::keyswitch_ciphertext'])

p('Private decision tree server is data-oblivious',
  "For every tree, parameters and number of features there is one fixed list of circuits (built from the client's ciphertexts, the evaluation keys, public constants, comparison with the public thresholds, substitutions, additions and external products - no branching on ciphertexts) that gives the server's output for all secret keys, all randomness and all feature vectors; or the server panics for all of them. The client sends level_count ciphertexts per feature whatever the values, and which evaluation keys exist and their shapes does not depend on the key. Two runs on equally long feature vectors panic together or return equally many ciphertexts.",
  'all trees, parameters, keys, random streams, feature vectors', 'obliviousness compares all pairs of inputs; a test sees single runs',
  ['src/decision_tree.rs: simulate (server_f), compare_expand, EncNode::new, EncNode::eval, eval_enc_node, encrypt_feature_vector', 'src/rlwe.rs: gen_all_subs_ksk_fourier, trace1_fourier, expand_fourier, less_eq_than'])

p('A caught panic leaves the ORAM server usable: no database lock is ever poisoned',
  'The database rows are `RwLock`s that every call takes with `unwrap()`, so one poisoned row would make every later call panic. Whatever the calls (process_one, process_multi, process_batch, with any arguments), whichever of their parallel closures panic, at whatever statement and under whatever schedule, worker count and lock policy: no row lock is poisoned, no row changes its length, a panicking call still ends (no deadlock, no infinite schedule), and afterwards a call whose closures do not panic on their own runs through under every schedule with the sequential result. The FFT buffers are poisoned, but only for the rest of the call: a closure panicking while it holds the buffer of its thread makes every later closure of the same phase on that thread that needs it panic too; the next call starts with a new pool. The reverse of the medal (finding): a batch that panics after its row updates leaves copies of an item that disagree, and later calls do not notice.',
  'all schedules, worker counts, lock policies, sets of panicking statements, histories of calls and databases', 'A test can inject one panic at one place under the schedule it happens to get; poisoning depends on which guard is alive at the moment of the panic on any thread.',
  ['src/oram.rs: FftBufferPool, process_one_mt, update_db_mt, process_one_st, update_db_st, Server::process_one, Server::process_multi, Server::process_batch, correct_consistency'])

p('Machine arithmetic: the release build computes what the checked build computes',
  "The tests run with overflow checks, a user's release build wraps around silently. For every tree of usize numbers and every feature vector Node::eval never overflows; the size functions and fix_index are exact while the answer fits a usize; eval_x_k is right in release for every odd k although i*k may wrap, and in a checked build panics exactly when (n-1)*k overflows; log2, Codec::new, Codec::encode, pt_to_lossy_u64, NaiveHash (table, hash, hash_to_tuple, output_domain), item counts and gadget factors are the same in both builds for all inputs in the stated ranges. Outside: plaintext modulus 1 is accepted in release, log2(0) is usize::MAX, an overflowing hash table is too small, and encrypt_feature_vector with base_log*level + log n > 64 encrypts a wrong large factor instead of panicking.",
  'both build profiles, all words, trees, polynomials, tables and shuffles', 'tests run only in the checked profile and on a few values; wrap-around is a property of all 2^64 values in the other profile',
  ['src/utils.rs: log2, eval_x_k_in_memory, pt_to_lossy_u64', 'src/codec.rs: Codec::new, encode', 'src/naive_hash.rs: NaiveHash::new, hash, hash_to_tuple, output_domain', 'src/decision_tree.rs: Node::eval, count_leaf, count_internal, count_depth, fix_index, encrypt_feature_vector', 'src/oram.rs: gen_dummy_database, process_one_mt, process_one_st', 'src/main.rs: batch_query', 'Cargo.toml: profile.release, profile.test'])

p('JSON parameter files and trees',
  'A parameter list (and a decision tree of depth at most 63) written to JSON is read back unchanged; deeper trees can be written but never read back. A TFHE object is accepted exactly when each of its ten members occurs once with a number (boolean) of the right kind; the order of members and members with other names do not matter; left and right of a tree node may be left out (missing child), the other members may not. The program runs the cartesian product of the lists it has read; a file in which a single TFHE object lacks one member is rejected as a whole and silently replaced by the built-in default run, ignoring the command line too.',
  'all JSON documents, parameter lists, trees and command lines', 'the space of documents is infinite; a misspelt member yields a successful run of something else',
  ['src/params.rs: TFHEParameters, ORAMParameters, InputParamsList (derive Deserialize, Serialize)', 'src/decision_tree.rs: Op, Node, Internal (derive Deserialize, Serialize)', 'src/main.rs: main'])

p('Correctness for the noise measured in a run (default parameters)',
  "For all parameters, including the repository's defaults: if, in a given run, the error of every external product the server performs stays within given bounds (one bound each for address bits, negated key, read/write flag, selectors), and the sum of these bounds accumulated over the commands fits the decoding window, then every response of the run is correct and every write is visible to later reads; for single queries and batches, from setup on. With the default parameters up to eight batch commands are correct if no product with a flag is off by more than 2^46 and no product with a selector by more than 2^49; for keys with at most 16 ones, noise of at most 8 and a Fourier error factor of at most 8 these bounds hold in every run.",
  'all parameters, keys, generators, floating-point behaviours, histories of commands whose products stay within the bounds', 'whether a finite set of runs decodes says nothing about other runs; the statement links the measured error of each product to the correctness of the whole history',
  ['src/oram.rs: process_one, process_batch, process_one_mt, demux_with, update_db', 'src/rgsw.rs: external_product, cmux', 'src/params.rs: TFHEParameters::default'])

p('Private tree evaluation for the noise measured in a run (default parameters)',
  'For all parameters, including the defaults that the simulation always uses: if, in a given run of the private evaluation, the errors of the comparisons, key switches and external products performed stay within given bounds and (number of leaves) x (depth) x (bound for products with a choice bit) fits half the decoding window, then every decrypted prediction equals the clear evaluation of the tree, without any assumption on the FFT or the worst-case noise. At the default parameters and with a key of at most two ones, noise of at most 1 and a Fourier error factor of at most 1 the bounds hold in every run for trees with leaves x depth at most 6.',
  'all parameters, keys, generators, floating-point behaviours, trees of leq nodes, feature vectors whose evaluation stays within the bounds', 'a test that decrypts correctly says nothing about other keys, trees or features; the statement links the measured error of each homomorphic operation to the correctness of the prediction',
  ['src/decision_tree.rs: simulate, compare_expand, EncNode::eval', 'src/rlwe.rs: less_eq_than, trace1_fourier, expand_fourier', 'src/rlwe.rs: FourierRLWEKeyswitchKey::subs', 'src/rgsw.rs: external_product', 'src/params.rs: TFHEParameters::default'])

p('The report of the benchmark program',
  "When the program completes, its output is the header line followed, for each selected parameter set in order, by exactly one comma-separated line with a field under each column name of the header holding that set's parameters and measured values (dashes in a dry run), and by one '###' line per further iteration; the exponents printed for the plaintext modulus and the number of items are the floors of their binary logarithms, and the modulus is exact in real runs. When it panics, all earlier parameter sets have been reported completely.",
  'all lists of parameter sets, modes, iteration counts, dry runs or not, environments, and texts of measured values without comma or newline', 'tests never look at the output; the correspondence of values to columns must hold for every mode and parameter set',
  ['src/main.rs: main, single_query, multi_query, batch_query'])

p('Multi-query calls and mixed sessions are correct for the noise of the run at hand',
  'If the external products performed by the calls of a session (any mix of single-query and multi-query calls, each with pairwise distinct items) have errors within given bounds, the session never panics, every decoded response is the content of its item before the call, and the final database holds exactly what a plain array would, while the accumulated errors fit the plaintext modulus. No worst-case noise bound and no bound on the FFT is assumed, so it applies to the default parameters; for keys of at most 16 ones, noise of at most 8 and a Fourier error factor of at most 8 every run of up to six calls with up to four queries meets it at the default parameters.',
  'all parameters, keys, generators, floating-point behaviours, reduction orders and sessions (any number of calls and queries)', 'noise depends on the randomness and on the session; correctness must hold for every session and every schedule',
  ['src/oram.rs: Server::process_one, Server::process_multi', 'src/params.rs: TFHEParameters::default'])

p('parse_csv reads exactly the data rows of a CSV file',
  'For every text (with or without a leading byte order mark) that writes a header and data records (fields plain or quoted, any line ends, empty lines, last line break optional), parse_csv returns a table if and only if every data record has as many fields as the header and every field is a decimal numeral below 2^64 (optional plus sign, no spaces); the table then holds exactly these numbers, in order. In all other cases it panics. A table without a header loses its first row silently (finding).',
  'all tables, all field contents (including commas, quotes and line breaks), all ways to write them', 'the set of texts is infinite; the function is not tested at all',
  ['src/utils.rs: parse_csv'])

p('Everything the server ever receives is fresh RLWE samples plus messages',
  'For every parameter set, size, hash and list of READ/WRITE batches: the initial random database, the RGSW encryption of the negated key and all queries of the session consist of RLWE samples drawn from pairwise different random values plus messages, where only the messages of the key encryption depend on the key, and the database cells are copies of at most 128 such ciphertexts at places that depend on the sizes and hash functions only; or the client panics, for all keys and random values alike. The same for the decision-tree client: negated key, all substitution keys, all feature vectors.',
  'all parameters, sizes, hash functions, histories of batches, lists of feature vectors, binary keys, mask and noise streams', 'a quantification over all histories and all random streams; a test sees one run and cannot see which random values were reused',
  ['src/oram.rs: setup_random_oram, gen_dummy_database, gen_read_query_batch, gen_write_query_batch', 'src/rlwe.rs: gen_all_subs_ksk, neg_gsw, encrypt_rlwe', 'src/decision_tree.rs: encrypt_feature_vector'])

p('simulate gives the same result with and without parallel, in every schedule, and reports what it did',
  'For every model, list of feature vectors, key, randomness, Fourier error, number of worker threads (at least one) and order in which the threads take and finish feature vectors, simulate with parallel = true ends with the same predictions, or the same panic, as with parallel = false; a parallel map never deadlocks and completes after at most two scheduling steps per item. The returned SimulationResult counts the feature vectors, holds one prediction per vector in order, equal to the clear evaluation, and names the default parameters. Display of the result and of the context lists exactly these values and determines them (the predictions are not printed).',
  'all models, feature lists, keys, random streams, worker counts, schedules, results', 'a test runs one schedule on one machine',
  ['src/decision_tree.rs: simulate, SimulationResult::new, Display for SimulationResult', 'src/context.rs: Display for Context'])

p('The noise reports mean what they say at powers of two, whatever the f64 rounding',
  'For every key, ciphertext and reference plaintext, and every rounding of f64 conversion and log2 that is faithful: compute_noise reports at most k if every coefficient of decrypt(ct) - m is at most 2^k in absolute value, at least k if some coefficient is at least 2^k, minus infinity exactly if the decryption is exact, never NaN. A compute_noise_encoded report below 63 - log2 t guarantees that decoding returns the plaintext; measured against the decoded value itself (as the benchmark binary does) the report never panics and never exceeds 63 - log2 t, for any ciphertext. compute_noise_rgsw1 reports at most k for RGSW encryptions of 1 with row errors at most 2^k; it is blind to the mask rows, becomes minus infinity if one row is exact, NaN without levels, and on encryptions of 0 reports a large number that is not noise. In a release build an error of exactly half the torus is ignored.',
  'all keys, ciphertexts, plaintexts, parameters, thresholds 2^k, rounding behaviours', 'tests print the reports and assert nothing about them; a bound over all ciphertexts and all roundings is not testable',
  ['src/rlwe.rs: compute_noise, compute_noise_encoded, compute_noise_ternary', 'src/rgsw.rs: compute_noise_rgsw1', 'src/main.rs: single_query, multi_query, batch_query (noise column)'])

p('A whole run fails with probability at most (noise coefficients drawn) times (tail of one coefficient)',
  'When the noise is random, with each single coefficient exceeding B in absolute value with probability at most delta (no independence assumed; key, masks, plaintexts, FFT rounding and scheduling may be random too, in any joint distribution), and the parameters satisfy the noise budget for B: the probability that setup plus any session of single and multi-query accesses, or setup plus any history of read/write batches, or the benchmark binary in single or multi mode, or decision tree simulation, panics or returns one wrong answer is at most K * n * delta, where K is the number of RLWE encryptions the client makes: 2*negs_levels + min(N,128) for setup, 2*levels*(log2 cols + 1) + 1 per query, d*ks_levels plus levels per feature for trees. For noise rounded from Gaussians of variance v, delta = 2*exp(-(B+1/2)^2/(2v)).',
  'all probability spaces, random generators with the tail bound, keys, sessions, batches, trees, feature vectors, parameters, array sizes, rounding and scheduling behaviours', 'a failure probability of 2^-40 cannot be observed by tests, and the count of noise coefficients that matter ranges over all sizes',
  ['src/oram.rs: setup_random_oram, Client::gen_read_query_one, gen_write_query_one, gen_read_query_batch, gen_write_query_batch, Server::process_one, process_multi, process_batch', 'src/main.rs: single_query, multi_query', 'src/decision_tree.rs: simulate', 'src/rlwe.rs: encrypt_rlwe'])

p('Ciphertext operations on flat word vectors act on the ciphertexts they hold',
  'A ciphertext is stored as a flat Vec<u64>: 2n words (mask, body) for RLWE, 4n words per level for RGSW, n+1 words for LWE. Every well-sized vector holds exactly one ciphertext. allocate, clear, copies, get_mask/get_body, update_{mask,body}_with_{add,sub,mul}, update_with_add/sub, update_with_monomial_div, less_eq_than, eq_to, not(_in_place), eval_x_k, get_nth_row, get_last_row, RGSW update_with_add, external product, cmux, encrypt_rgsw, neg_gsw, (subs_)keyswitch key generation, keyswitch_ciphertext, subs, trace1, from_keyswitch_key, expand, expand_fourier, expand_slow, decomposed_rlwe_to_rgsw, to_rlwe_sk and conv_lwe_to_rlwe, with the slice and row-index arithmetic of the code, leave in the output vector exactly the mathematical result for the ciphertexts held by the inputs, whatever the old output contents where they are documented to be overwritten, and panic exactly when it does. izip! panics exactly on unequal lengths in a debug build and truncates in a release build; on n/2-element Fourier vectors the loops never panic and are element-wise.',
  'all polynomial sizes, level counts, word contents, keys, row indices, generators; both build modes for izip!', 'an off-by-one in slice arithmetic shows only for particular sizes, levels or words; tests use one polynomial size and few levels',
  ['src/rlwe.rs: RLWECiphertext, RLWEKeyswitchKey, encrypt_rgsw, neg_gsw, expand, expand_fourier, expand_slow, decomposed_rlwe_to_rgsw', 'src/rgsw.rs: get_nth_row, get_last_row, from_keyswitch_key, update_with_add, cmux_with_buf', 'src/lwe.rs: conv_lwe_to_rlwe, to_rlwe_sk, get_mask, get_body', 'src/utils.rs: mul_const, eval_x_k', 'src/macros.rs: izip, zip_checked'])

p('The work and the traffic of an access are fixed by public sizes',
  'process_one on a row of c columns with v gadget levels executes exactly v*(2c-1)+3c external products, process_multi with k queries k*(v*(2c-1)+3c)+c, process_batch on r rows r*(v*(2c-1)+3c) plus (4h-2) for each of the r*c/h items stored h times, demux over D bits 2^D-1; expand costs one external product per level and log2(n) substitutions per ciphertext, and classifying with a tree of m inner nodes costs m*(v+1) external products, m*v*log2(n) substitutions and 2*m*v polynomial products. The numbers do not depend on the index, the operation, the data, the key, the features or the labels. A query is (log2(c)+1)*v*4n+2n words whatever is accessed. The work is linear in the database size.',
  'all databases, queries, keys, parameters, trees, FFT errors and reduction orders; also calls that panic (same panics as the real code)', 'a data-dependent shortcut or a superlinear loop shows only for some inputs or at sizes larger than tests run; timings in tests cannot establish exact counts',
  ['src/oram.rs: process_one, process_multi, process_batch, process_one_mt, process_one_st, update_db_mt, update_db_st, correct_consistency', 'src/decision_tree.rs: demux_with, compare_expand, eval_enc_node', 'src/rlwe.rs: expand, expand_fourier, trace1, trace1_fourier, decomposed_rlwe_to_rgsw, less_eq_than'])

p('The benchmark suite runs, and what its closures compute after any number of iterations',
  'For the default parameters (and any of their kind) none of the eleven benchmarks panics, whatever the keys, the randomness and the number of iterations k. After k >= 1 iterations enc holds the encryption of the plaintext under the k-th mask and noise, dec the plaintext, cmux an encryption of 1, keyswitch and keyswitch fourier an encryption of the ternary message under the new key, expand and expand fourier return RGSW encryptions of 1, and trace1 fourier holds the constant coefficient of the plaintext as a constant (dividing by n is exact). external_product and keyswitch gsw accumulate into their output: after k iterations it is exactly k times the first result, so keyswitch gsw decrypts to k*message mod 3 (zero after three iterations). less_eq multiplies the same ciphertext again in every iteration and holds the comparison bit after exactly one.',
  'all contexts of the stated kind, secret generators, mask/noise/plaintext streams, bounded FFT errors, numbers of iterations', 'the number of iterations is chosen by criterion at run time and nothing checks the results; tests run each operation once on a fresh buffer',
  ['benches/my_benchmark.rs: enc_benchmark, dec_benchmark, external_product_benchmark, cmux_benchmark, keyswitch_benchmark, keyswitch_fourier_benchmark, keyswitch_gsw_benchmark, expand_benchmark, expand_fourier_benchmark, less_eq_benchmark, trace1_fourier_benchmark', 'src/rgsw.rs: external_product_with_buf, keyswitch_ciphertext_with_buf', 'src/params.rs: TFHEParameters::default'])

p('Any program over the ciphertext API decrypts to its plaintext meaning',
  'Take any sequence of calls on ciphertexts - clear, copy, add, subtract, add/subtract a public polynomial, divide by a monomial, not, less_eq_than, eq_to, external product, cmux, substitution (both variants), trace (both variants), RGSW addition, packing and both expansions - in any order and on any variables, run with the keys the crate generates for a binary secret key. If the same sequence makes sense on plaintext polynomials and a static analysis of the program text (which never sees a ciphertext) accepts it, then the run does not panic, every variable encrypts its plaintext counterpart with at most the error the analysis computed, and any variable whose bound is below half a plaintext step decrypts and decodes to exactly the plaintext result. Programs that do not pack or expand have exactly one plaintext meaning.',
  'all programs (any length), input messages, ring sizes 2^d, parameters within 64 bits, binary keys, generators with bounded noise, FFT rounding within the bound', 'tests exercise single operations on fresh ciphertexts; users compose them arbitrarily and the noise and meaning of compositions has to hold for every program',
  ['src/rlwe.rs: RLWECiphertext methods, RLWEKeyswitchKey::subs, trace1, trace1_fourier, expand, expand_fourier, decomposed_rlwe_to_rgsw', 'src/rgsw.rs: external_product, cmux, update_with_add'])

p("The crate's own tests pass for all randomness (and two of them do not)",
  'Every deterministic or randomised unit test of codec, naive_hash, lwe, rlwe, rgsw and decision_tree (clear and encrypted) completes without a failed assertion or panic for every secret key, every generator and every Fourier rounding within an explicit noise budget, which at TFHEParameters::default() is noise 2^12, rounding 2^20 (2^30 for the noisy generator of test_negs); test_binary_enc passes exactly when the noise lies in the decoding window; test_fourier_mul and test_compute_noise can fail although the library is correct, and it is stated when.',
  'all secret and public generators with bounded noise, all Fourier transforms with bounded relative rounding error, all shuffles (naive_hash), all ring sizes 2^d and parameter sets satisfying the budget; default parameters as an instance', 'A test run draws one sample of the randomness; that no draw at all makes a test fail (flakiness) is a statement about every key, mask, noise and rounding.',
  ['src/codec.rs: tests', 'src/naive_hash.rs: tests', 'src/rlwe.rs: tests', 'src/lwe.rs: tests', 'src/rgsw.rs: tests', 'src/decision_tree.rs: tests'])

p("The crate's ORAM tests pass for every key, shuffle and schedule, except when the greedy mapping drops an item",
  "test_oram, test_oram_multi, test_oram_more and test_oram_batch_more complete without a failed assertion or panic for every secret key, every generator, every shuffle of the hash table, every scheduling of the parallel reductions, every Fourier rounding and every iteration order of hash maps within an explicit noise budget. test_oram_batch passes if and only if the four copies of item 2 do not all lie in the row of the first copy of item 1, or the new data happens to equal item 2's old content: otherwise hash_to_mapping silently drops item 2, it is not written, and the test's final consistency check panics.",
  'all secret and public generators with bounded noise, all permutations as shuffle, all reductions, all Fourier transforms with bounded rounding error, all iteration orders; all rings and parameter sets within the budget', 'A test run is one shuffle, one key and one schedule; the failing shuffle has small probability and is practically never sampled.',
  ['src/oram.rs: tests', 'src/naive_hash.rs: hash_to_mapping'])

p('Evaluating encrypted trees in memory (buffers, index loops, lazy iterator, optional children) is the structured evaluation',
  'demux_with, demux, compare_expand + EncNode::new + EncNode::eval, encrypt_feature_vector, bit_decomposed_rgsw, decrypt_and_recompose and simulate, run on vectors of machine words with preallocated and reused buffers, index loops, recursion over level numbers and an iterator that is consumed lazily, return the words of the ciphertexts the structured algorithms return, and panic in exactly the same cases. No stale content of a buffer shared by several features, levels or ciphertexts reaches an output. Choice bits are computed only when the tree asks for them: extra nodes left in the iterator are never compared. An encrypted node with absent children evaluates to the same words as one with label 0 there.',
  'all rings, keys, generators, trees with 64-bit labels, feature vectors, ciphertext contents and Fourier roundings', 'Tests run one buffer history; a stale word or an index off by one only shows for particular values.',
  ['src/decision_tree.rs: demux_rec, demux_with, demux, EncNode::new, EncNode::eval, new_enc_node, eval_enc_node, compare_expand, encrypt_feature_vector, bit_decomposed_rgsw, decrypt_and_recompose, simulate'])

p('The ORAM client and server in memory (index loops, result vectors, in-place cells, panicking reductions) is the structured ORAM',
  'gen_read/write_query_one/batch, setup_random_oram (cells encrypted in place and copied cell by cell), Server::process_one, process_multi, process_batch and decrypt_db, run on vectors of machine words with index loops, preallocated result vectors, cells overwritten in place and parallel reductions whose combining loops index both operands, return the words of the ciphertexts that the structured algorithms return, leave the memory image of the structured server state, and panic in exactly the same cases, whatever the splitting of the parallel reductions. Consequently a one-row database set up and accessed in memory through any sequence of process_one and process_multi calls answers like an array, and so do sequences of batches. Any mixture of single, multi-query and batch calls on any number of rows is answered by the machine-level server from the grid of C98.',
  'all rings, keys, contexts, hash tables, databases (also ragged or empty), queries, reduction splittings, command sequences, Fourier roundings', 'Tests see one splitting of the reductions and one database shape; an index off by one or a stale result vector shows only for particular shapes and histories.',
  ['src/oram.rs: rw, process_one_mt, process_one_st, update_db_mt, update_db_st, Server::process_one, Server::process_multi, Server::process_batch, correct_consistency, Server::decrypt_db, Client::make_read_query, make_write_query, gen_read_query_batch, gen_write_query_batch, gen_read_query_one, gen_write_query_one, gen_dummy_database, setup_random_oram'])

p('The text of parameter files and serialised trees: exactly JSON, read back, never partly used',
  "A parameter file is accepted as JSON exactly when its text follows the JSON grammar (RFC 8259), and then with the value the grammar gives it; a text has at most one value. Every parameter list written in any formatting (white space, escaped member names, number notations) yields exactly its runs; a file that is not JSON, or a truncated one, is never partly used: the program runs everything in it or the default configuration. The JSON text of every decision tree is read back to the same tree up to depth 63 and refused beyond. The repository's params.json and the expected text of test_json are instances, character by character.",
  'all texts, all JSON values, parameter lists, trees, truncation points, float readers and writers', 'Tests compare one serialised tree; they cannot try all texts, formattings, escapes and truncation points.',
  ['src/main.rs: main', 'src/params.rs: InputParamsList, TFHEParameters, ORAMParameters', 'src/decision_tree.rs: Node, Internal, Op, test_json', 'params.json'])

p('The command line: accepted settings, defaults, precedence of the parameter file, and what it runs',
  'The program accepts a list of arguments exactly if they spell settings (`--name=value`, `--name value`, or a flag) of its documented options, none of them twice, whose values can be read, and then every option has the value given and every other its default; the order and the spelling do not matter, and an unknown option or --help runs nothing. If the parameter file can be opened only --params and --dryrun count; otherwise there is one run of one iteration in the selected mode, with the sizes of that mode. --verbose has no effect, and no command line turns secure_seed off. If every selected parameter set is runnable the program completes.',
  'all argument lists, all file systems, all environments', 'Tests never start the program; arguments, files and their combinations are unbounded.',
  ['src/cli.rs: Cli', 'src/main.rs: main', 'src/params.rs: ServerParams::from_cli'])

p('How likely a batch is to be served completely, over the random hash function',
  'With uniformly random draws, NaiveHash::new produces every table with the same probability (every arrangement comes from exactly one sequence of draws). A batch of two different items is not served completely with probability exactly (cols-1)(cols-2).../(M-1)(M-2)... (h_count factors, M cells); a batch of k distinct items with probability at most the sum over t<k of (t(cols-1))_h / (M-h t)_h, a history of batches with at most the sum; a batch with more items than rows is never served completely. A whole run (setup, any history of read and write batches) answers every requested item like a plain array except with probability at most that sum plus the noise bound of C78. test_oram_batch fails with probability exactly 1/17019.',
  'all geometries, hash counts, requests, histories, keys, noise distributions with a tail bound, schedules; probabilities over all draws of the shuffle', 'Tests sample a handful of shuffles; a failure of probability 1/17019 or 1/972450 is practically never seen and its probability cannot be measured.',
  ['src/naive_hash.rs: NaiveHash::new, hash_to_mapping', 'src/oram.rs: gen_read_query_batch, gen_write_query_batch, test_oram_batch', 'src/main.rs: batch_query'])

p('Telling two sessions apart is as hard as RLWE',
  'Suppose that no test of some class can tell RLWE samples with the key-dependent messages of the evaluation keys added from uniformly random pairs with an advantage above epsilon. Then no guess of an adversary class whose guesses, preceded by adding known values, copying and reordering, are in the test class, given everything the server of an ORAM session ever receives (evaluation key, database, the queries of any history of batches and single reads and writes), can tell two histories with the same numbers of queries apart with an advantage above 2*epsilon, whatever is stored, read or written; the same for the evaluation keys and encrypted feature vectors of a decision-tree session. Each session is epsilon-close to a simulation that knows only the sizes.',
  'all probability spaces, key/mask/noise distributions, classes of tests, epsilon, parameters, geometries, hash functions, histories of operations, feature vectors, plaintext streams', 'Computational indistinguishability is a statement about all tests and a probability distribution; no run of the program shows it.',
  ['src/rlwe.rs: encrypt_rlwe, gen_all_subs_ksk', 'src/rgsw.rs: encrypt_constant_rgsw, encrypt_rgsw', 'src/oram.rs: setup_random_oram, gen_read_query_batch, gen_write_query_batch, gen_read_query_one, gen_write_query_one', 'src/decision_tree.rs: encrypt_feature_vector', 'src/context.rs: gen_neg_gsw'])

p("A server that chooses the client's accesses learns nothing about them",
  'Let the server choose every operation of the client (read or write batches and single reads and writes of existing items with encodable data), each depending on all ciphertexts it has received so far. For two such strategies that always ask for operations of the same numbers of queries, no guess about what the client did, made from the complete transcript after any number of operations, differs in probability by more than 2*epsilon, if the RLWE test that plays the game once with given pairs in place of samples (explicitly constructed) has an advantage of at most epsilon. The client never panics in the game.',
  'all strategies (functions of the transcript), guesses, numbers of operations, probability spaces, key/mask/noise distributions, epsilon, parameters, geometries, hash functions, plaintext streams', 'The adversary is an arbitrary function of everything received and the statement is about a probability distribution; tests run fixed access sequences.',
  ['src/oram.rs: setup_random_oram, gen_read_query_batch, gen_write_query_batch, gen_read_query_one, gen_write_query_one, make_read_query, make_write_query', 'src/rlwe.rs: encrypt_rlwe', 'src/rgsw.rs: encrypt_constant_rgsw', 'src/context.rs: gen_neg_gsw'])

p('The privacy is computational and rests on the noise: a search over all keys breaks the assumption',
  'However key, masks and noises are distributed, as long as the key is binary and every noise coefficient is at most B in absolute value: the test that tries all 2^n binary keys on M rows tells the rows the client sends from uniformly random pairs with advantage at least 1 - 2^n((2B+1)/2^64)^(nM). So the assumption under which the accesses are private (C90, C91) is false for the class of all tests: nothing in the code hides the accesses from a server with unlimited computing power. For the default ring size and noise of at most 2^15 one row gives an advantage of at least 1 - 2^-94208.',
  'all probability spaces, key/mask/noise distributions within the bound, ring dimensions, noise bounds, key-dependent messages, classes of tests containing the search', 'The statement is about an exhaustive search and a probability over all ciphertexts; neither can be run.',
  ['src/rlwe.rs: encrypt_rlwe, decrypt_rlwe', 'src/context.rs: gen_neg_gsw', 'src/params.rs: TFHEParameters'])

p('The benchmark binary completes at the shipped parameters whenever the noise of the run fits',
  "For every permutation used as shuffle, every binary key, every bounded noise and every scheduling of the reductions: a run of the binary in any of its three modes completes, with one result line per iteration and every assertion holding, if the errors of the external products it performs, accumulated over the iterations, stay below half of 2^64/t. No worst-case bound on the Fourier transform or on the parameters is assumed. For the repository's params.json (seven runs, up to 4096 columns, 36 simultaneous queries) this holds if the noise is at most 2^15 and the products are off by at most 2^46 (flag), 121*2^36, almost 2^43 (selector), 2^50 (summed selectors): seven result lines; and it holds without any assumption on the run for keys with at most one 1, noise at most 1 and exact products. With a key of at most 16 ones, noise of at most 8 and a Fourier error factor of at most 8 the fallback parameters need no assumption on the run at all.",
  'all shuffles, binary keys, bounded noises, masks, random data, Fourier transforms, schedules, parameter sets with the stated sizes, numbers of iterations', 'The assertions of the binary are checked for one random key and one schedule per execution; the claim is for all of them.',
  ['src/main.rs: single_query, multi_query, batch_query, main', 'params.json', 'src/params.rs: ServerParams', 'src/oram.rs: process_one, process_multi, process_batch'])

p("The crate's ORAM tests pass at the default parameters whenever the noise of the run fits",
  'test_oram, test_oram_multi, test_oram_more and test_oram_batch_more complete without a failed assertion or panic, and test_oram_batch passes exactly when the greedy mapping does not drop item 2 (or the data coincide), for every secret key, generator, Fourier transform, shuffle, schedule and iteration order of hash maps for which the errors of the external products performed by the test, accumulated over its calls, stay below half of 2^64/t. No worst-case noise budget is assumed, so the statement covers TFHEParameters::default(), where it suffices that the products are off by at most 2^46 (flag), 2^49 (selector; 2^43 for the two ignored tests) and 2^51 (summed selectors). With a key of at most 16 ones, noise of at most 8 and a Fourier error factor of at most 8 the three tests of cargo test need no assumption on the run at all.',
  'all secret keys, generators, shuffles, schedules, map iteration orders, Fourier transforms, noise measures within the budget', 'Each execution of the test suite covers one key, one shuffle and one schedule; the claim covers all of them.',
  ['src/oram.rs: test_oram, test_oram_multi, test_oram_more, test_oram_batch, test_oram_batch_more', 'src/params.rs: TFHEParameters::default'])

p('What the answers of the private-decision-tree server show about the model',
  'Whatever the client sends: (a) a bit position at which all labels of the model agree is answered without encryption (zero mask, the body is the encoded bit), so anybody who sees the answer reads it; (b) the number of answers is exactly the bit length of the largest label of the model; (c) the i-th answer depends on the model only through the tree in which every subtree with constant i-th label bit has been replaced by a leaf and node numbers erased, so two models that agree after this reduction are answered with the same ciphertext, and the reduction keeps the i-th bit of every prediction; (d) the model is not hidden from the client beyond its prediction: there is an honest run in which two models that predict the same on every encryptable feature vector give distinguishable answers.',
  'all models, client messages, key material, parameters, Fourier transforms, bit positions', 'A test sees the answers for one tree; that an answer never depends on more (or is unencrypted exactly here) is a statement about all trees and all client messages.',
  ['src/decision_tree.rs: EncNode, eval_enc_node, max_leaf, simulate', 'src/decision_tree.rs: compare_expand'])

p('The server is an array for whatever messages arrive, in the order they arrive',
  'The crate leaves the transport to its user. For any number of clients that share the secret key (each with its own random generators) and any sequence of messages reaching a one-row server, each of them made by gen_read_query_one / gen_write_query_one (for process_one) or a list of those for distinct items (for process_multi): messages may be lost, delayed, reordered, duplicated or replayed. No call panics, and every decoded answer is the content of its item in a plain array to which the calls are applied in the order of arrival, within the noise budget. In particular delivering a message twice in a row changes no later answer (retransmission is harmless), while replaying an old WRITE message later silently restores the old content. The same holds for batches and process_batch, with the array semantics of C47.',
  'all numbers of clients, call lists, generators, arrival orders with repetition and loss, schedules of the parallel reductions', 'Tests send every query exactly once and in the order it was made; the claim is for all interleavings, losses and repetitions.',
  ['src/oram.rs: process_one, process_multi, process_batch, gen_read_query_one, gen_write_query_one, gen_read_query_batch, gen_write_query_batch'])
p('Answers and stored items are not authenticated',
  'Without any key, whoever handles an answer can add a public plaintext p to it (the encoding is public): the client decodes (m + p) mod t coefficientwise instead of m, whatever m is and without any error. Likewise a server that adds p to the cell of item i, or exchanges the cells of two items, produces a state after which every history of accesses is answered exactly as if the client itself had written v_i + p to the item, or the items had been exchanged: no sequence of accesses can notice.',
  'all plaintexts, items, later histories, generators, schedules', 'A test tampers with one ciphertext; that no later history can tell is a statement about all histories.',
  ['src/rlwe.rs: decrypt_decode_rlwe', 'src/codec.rs: poly_encode, decode', 'src/oram.rs: Server, process_one'])

p('Any mixture of single, multi-query and batch calls on any number of rows is answered from one grid of plain contents',
  "For a server set up with setup_random_oram on rows x 2^D cells (rows * 2^D = h_count * N) and any sequence of calls in any order -- single queries (gen_*_query_one, process_one), lists of single queries addressing different cells (process_multi) and batches of distinct items (gen_*_query_batch, process_batch) -- no call panics, and all decoded answers, including those of batch rows without an item, are given by a grid with one plain content per cell: a single command reads the first copy of its item if that lies in row 0 and cell (0, 0) otherwise, and a WRITE changes that first copy only, if it lies in row 0, and nothing otherwise; a batch shows in row r the cell named by the client's mapping (column 0 if none), and then sets every copy of every item to the written data if the item was served by a batch WRITE, and to what the *first* copy held otherwise. At the end every cell decodes to the final grid. All within a noise budget linear in the calls.",
  'all grids, hash tables, sequences of calls of all three kinds, plaintexts, generators, schedules of the parallel reductions', 'Each test uses one kind of call on one grid; the claim is for all interleavings of the three kinds.',
  ['src/oram.rs: process_one, process_multi, process_batch, correct_consistency, gen_read_query_one, gen_write_query_one, gen_read_query_batch, gen_write_query_batch, setup_random_oram'])
p('A batch after a single WRITE can show stale contents (finding)',
  'If single commands are only used for items whose first copy lies in row 0, all answers of such a mixed session are those of one plain array, except: a batch row that serves, from another copy than the first, an item written by a single query since the last batch shows the content from before that WRITE. After any batch (also one that does not request the item) every copy is up to date again. The exception is real: writing an item with gen_write_query_one and then reading it in a batch which serves it from another row returns the old content, and the same batch repeated returns the new one.',
  'all grids, hash tables, mixed sessions, plaintexts', 'A statement about all interleavings; the tests never mix single queries and batches.',
  ['src/oram.rs: process_one, process_batch, correct_consistency, gen_write_query_one, gen_read_query_batch'])

p('Mixed sessions are correct for the noise they actually produce, at the default parameters',
  "The claim of C98 -- any mixture of process_one, process_multi and process_batch calls on any number of rows never panics and is answered from one grid of plain contents -- holds for every key, every floating-point behaviour and all parameters, including the repository's defaults, as long as the errors of the external products that the session performs, as they can be measured with the secret key, add up to less than half a plaintext step: 'op + sel' per single query, 'op + q * sel + V' per process_multi call of q queries, '(2 h_count - 1) (op + sel)' per batch. At the default parameters (degree 2048, 384 x 16 cells, 3 hash functions, 2048 items, plaintext modulus 256) eight calls are covered if op <= 2^46, sel <= 2^48 and V <= 2^51; for keys of at most 16 ones six calls are covered unconditionally. In particular the stale batch READ of C99 happens at the default parameters.",
  'all parameters, grids, hash tables, keys, FFT errors, generators, mixed sessions and schedules of the parallel reductions whose external products have errors within the measure', 'The worst-case bounds are not met by the default parameters, so no per-call test or worst-case analysis settles it; the claim is about all sessions.',
  ['src/oram.rs: process_one, process_multi, process_batch, correct_consistency, setup_random_oram', 'src/params.rs: TFHEParameters::default'])

p('The binary run in memory',
  'The benchmark binary as it runs in memory -- flat word vectors, one plaintext buffer that every response is decrypted into, responses and expected plaintexts looked up by index, plaintexts compared word by word, the hash map of the batch mode visited in whatever order -- completes or panics exactly as the binary on structured ciphertexts does, whatever the (possible) reduction trees and visiting orders on either side, and then prints as many lines; so every claim about the binary (C61, C93) holds in memory. In particular, with the params.json of the repository, every binary key with at most one 1, all masks, noise of at most 1 and exact Fourier products, the binary in memory passes all its assertions and completes its seven runs.',
  'all modes, parameters, keys, random streams, Fourier roundings, reduction trees of every server call, visiting orders of every hash map, and numbers of iterations', 'Reduction trees and HashMap visiting orders change from run to run; that a reused buffer never carries data of an earlier response into a comparison must hold for every order.',
  ['src/main.rs: single_query, multi_query, batch_query, main', 'src/oram.rs: process_one, process_multi, process_batch', 'src/rlwe.rs: decrypt_decode_rlwe', 'params.json'])

out = os.path.join(os.path.dirname(__file__), "..", "properties.jsonl")
with open(out, "w") as f:
    for x in P: f.write(json.dumps(x) + "\n")
print(len(P))
