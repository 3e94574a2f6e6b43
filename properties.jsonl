{"id": "C01", "title": "Evaluating a table at a point gives its multilinear extension", "statement": "For every table of 2^n field values and every point of length n, `evaluate` returns sum over all n-bit indices b of table[b] * eq(bits of b, point), the first coordinate of the point being the least significant bit; at a 0/1 point it returns the table entry itself.", "quantifier": "every field, every n, every table of length 2^n, every point of length n", "why_tests_cant": "Unit tests check a handful of random points and sizes; the identity has to hold for all sizes and all field elements.", "anchors": ["multilinear_extensions/src/mle.rs: MultilinearExtension::evaluate, fix_variables, fix_variables_parallel"]}
{"id": "C02", "title": "Fixing variables in stages is the same as evaluating at once", "statement": "Fixing the lowest variables of a table at a partial point and evaluating the rest equals evaluating at the concatenated point; fixing the highest variables at a suffix and evaluating the rest likewise; low and high fixings commute. In place and copying versions agree, and the parallel versions return exactly the sequential result.", "quantifier": "every table, every split of every point, every pair of low/high partial points", "why_tests_cant": "Tests only exercise a few lengths; off-by-one in stride or order of points shows only for particular splits.", "anchors": ["multilinear_extensions/src/mle.rs: fix_variables, fix_variables_in_place, fix_high_variables, fix_high_variables_in_place, fix_variables_parallel, fix_variables_in_place_parallel"]}
{"id": "C03", "title": "The eq table holds eq(bits of i, r) at every index, for every worker count", "statement": "`build_eq_x_r_vec(r)` has length 2^|r| and entry i equals the product over j of (r_j if bit j of i is set, else 1-r_j), whatever number of parallel chunks is used; `compute_betas_eval` gives the same table; the entries sum to 1.", "quantifier": "every point, every number of parallel chunks the code can pick", "why_tests_cant": "The parallel path depends on the machine's thread count; a test run fixes one count.", "anchors": ["multilinear_extensions/src/virtual_poly.rs: build_eq_x_r_vec, build_eq_x_r_vec_sequential, build_eq_x_r_helper_sequential", "zkml/src/commit/mod.rs: compute_betas_eval"]}
{"id": "C04", "title": "All eq evaluations agree with the eq table", "statement": "`eq_eval`, `eq_xy_eval` and (for equal lengths) `identity_eval` on (x,y) equal sum over b of eq(b,x)*eq(b,y); on 0/1 points they are 1 when the points are equal and 0 otherwise; `identity_eval` on different lengths silently uses the shorter.", "quantifier": "every pair of points", "why_tests_cant": "Agreement of three separately written formulas for all points is an identity, not a sampled fact.", "anchors": ["multilinear_extensions/src/virtual_poly.rs: eq_eval", "zkml/src/commit/mod.rs: identity_eval", "mpcs/src/sum_check.rs: eq_xy_eval"]}
{"id": "C05", "title": "A ranged view of a table behaves like the sub-table it shows", "statement": "Evaluating or fixing variables of a ranged view at a point equals doing the same on the copied-out range.", "quantifier": "every table, aligned range and point", "why_tests_cant": "Only some call paths go through the range; tests never evaluate a strict sub-range.", "anchors": ["multilinear_extensions/src/mle.rs: RangedMultilinearExtension, get_ranged_mle"]}
{"id": "C06", "title": "A virtual polynomial evaluates to the sum of its scaled products", "statement": "After any sequence of adding product terms, multiplying by a table or merging with another virtual polynomial, `evaluate` at a point equals sum over the added terms of coefficient times product of the factor evaluations (times the multiplied factors), and the reported degree bounds the number of factors of each term.", "quantifier": "every sequence of builder calls, every point", "why_tests_cant": "The builder de-duplicates tables by identity; arbitrary interleavings cannot be enumerated by tests.", "anchors": ["multilinear_extensions/src/virtual_poly.rs: VirtualPolynomial::add_mle_list, mul_by_mle, merge, evaluate"]}
{"id": "C07", "title": "Round polynomials are interpolated correctly from their values at 0..d", "statement": "For every polynomial of degree at most d over a field of characteristic larger than d and every x outside {0..d}, interpolating its values at 0..d at x returns its value at x; at x in {0..d} the function does not return a value (it panics).", "quantifier": "every degree d, every polynomial, every x", "why_tests_cant": "Tests use a few low degrees and random x; exceptional x are never hit.", "anchors": ["sumcheck/src/util.rs: interpolate_uni_poly, barycentric_weights, inner_extrapolate, extrapolate"]}
{"id": "C08", "title": "Batch inversion inverts every entry, whatever the chunking", "statement": "`serial_batch_inversion_and_mul` replaces each nonzero v_i by coeff/v_i and leaves zeros in place; the parallel version gives the same result for every chunk size.", "quantifier": "every list of field elements (with zeros anywhere), every coefficient, every chunk size", "why_tests_cant": "Positions of zeros and chunk borders interact; thread count is fixed in a test.", "anchors": ["sumcheck/src/util.rs: serial_batch_inversion_and_mul, batch_inversion_and_mul"]}
{"id": "C09", "title": "The generated prover code sends the true round polynomial", "statement": "For every degree d and every list of d tables of equal length, the message the generated code computes at positions 0..d equals sum over the remaining hypercube of the product of the tables with the first variable set to 0..d, times 2 to the number of variables the tables do not depend on.", "quantifier": "every degree, table length, round", "why_tests_cant": "The code is produced by a macro for each degree; tests instantiate few degrees.", "anchors": ["sumcheck_macro/src/lib.rs: sumcheck_code_gen, idx_of_one_bits", "sumcheck/src/prover.rs: prove_round_and_update_state"]}
{"id": "C10", "title": "An honest sumcheck proof of a true statement is accepted", "statement": "For every virtual polynomial whose terms are products of one to five tables with the same (positive) number of variables inside a term (different terms may have different numbers of variables), the honest prover's messages are accepted by the verifier for every challenge sequence that avoids {0..d}, and the returned expected evaluation equals the virtual polynomial evaluated at the challenge point.", "quantifier": "every such virtual polynomial, every challenge sequence, every number of threads", "why_tests_cant": "Completeness ranges over all challenge sequences.", "anchors": ["sumcheck/src/prover.rs: IOPProverState::prove_parallel, prover_init_parallel", "sumcheck/src/verifier.rs: IOPVerifierState::verify"]}
{"id": "C11", "title": "A sumcheck proof of a false sum leaves a false evaluation, except for few challenges", "statement": "If the verifier accepts a claimed sum different from the true sum of a polynomial with individual degree at most d, then either the returned expected evaluation differs from the polynomial at the challenge point or some round challenge is a root of a nonzero polynomial of degree at most d fixed before that challenge was drawn; for every (adaptive) prover strategy the fraction of bad challenge vectors is at most n*d/|F|.", "quantifier": "every polynomial, every prover strategy (adaptive in the earlier challenges), every challenge vector", "why_tests_cant": "Quantifies over all adversaries.", "anchors": ["sumcheck/src/verifier.rs: IOPVerifierState::verify, check_and_generate_subclaim"]}
{"id": "C12", "title": "Splitting the sumcheck prover over workers does not change the proof", "statement": "Proving with 2^k workers, each holding a contiguous slice, and merging the partial messages gives the same round messages, challenges and final evaluations as a single prover.", "quantifier": "every table set, every number of workers 2^k up to half the table size (slices of at least two values), every challenge sequence, every interleaving of the worker threads", "why_tests_cant": "The worker count depends on the machine.", "anchors": ["sumcheck/src/prover.rs: prove_batch_polys, prove_round_and_update_state_parallel", "sumcheck/src/util.rs: merge_sumcheck_polys"]}
{"id": "C13", "title": "The sumcheck verifier's verdict depends only on what it checks", "statement": "The verdict and the returned claim do not depend on the `point` stored in the proof, nor on messages beyond the number of variables; with zero variables the claimed sum itself is returned unchecked. A round message of the wrong length is never accepted.", "quantifier": "every proof object, including malformed ones", "why_tests_cant": "Malformed proofs form an infinite set.", "anchors": ["sumcheck/src/verifier.rs: IOPVerifierState::verify", "sumcheck/src/structs.rs: IOPProof"]}
{"id": "C14", "title": "The lookup fraction circuit computes the sum of all fractions", "statement": "For every input layer of 2^n numerators and nonzero denominators, repeatedly applying the layer map ends with output fractions whose sum is sum_i num_i/den_i, and every intermediate layer represents the same sum.", "quantifier": "every n, every input layer", "why_tests_cant": "Depth is unbounded; invariant over layers.", "anchors": ["zkml/src/lookup/logup_gkr/circuit.rs: LogUpLayer::next_layer, LogUpCircuit", "zkml/src/lookup/logup_gkr/structs.rs: Fraction, fractional_outputs"]}
{"id": "C15", "title": "The lookup identity holds exactly when every looked-up value is in the table", "statement": "With multiplicities counting how often each table row is looked up, the difference of the two fraction sums is zero for every challenge that avoids poles; conversely if some looked-up value is not in the table then, whatever multiplicities are claimed, the identity fails for all but at most (lookups + rows) challenges, provided the number of lookups is below the field characteristic.", "quantifier": "every table, every list of lookups, every claimed multiplicity column, every challenge", "why_tests_cant": "Soundness quantifies over all multiplicity columns and all challenges.", "anchors": ["zkml/src/lookup/context.rs: generate_lookup_witnesses", "zkml/src/lookup/logup_gkr/structs.rs", "zkml/src/iop/verifier.rs: Verifier::verify"]}
{"id": "C16", "title": "An accepted lookup argument binds its claims to the circuit output", "statement": "If `verify_logup_proof` accepts, the returned claims are claims about the input layer of a circuit whose output is the returned fraction, at the point fixed by the verifier's own challenges.", "quantifier": "every proof object", "why_tests_cant": "Adversarial proof objects.", "anchors": ["zkml/src/lookup/logup_gkr/verifier.rs: verify_logup_proof"]}
{"id": "C17", "title": "The verifier's final lookup check covers exactly the node and table proofs it verified", "statement": "The numerators and denominators entering the final zero test are those of the node proofs and table proofs that were verified; a proof with missing or extra table proofs is rejected.", "quantifier": "every proof object, every set of tables", "why_tests_cant": "Adversarial proof objects with arbitrary table proof lists.", "anchors": ["zkml/src/iop/verifier.rs: Verifier::verify"]}
{"id": "C18", "title": "Signed integers survive the trip through the field", "statement": "`to_element(to_field(x)) = x` for every |x| <= (p-1)/2, and sums and products computed in the field map back to the integer sums and products as long as the integer result stays within that range.", "quantifier": "every integer in range, every pair", "why_tests_cant": "2^64 inputs.", "anchors": ["zkml/src/quantization/mod.rs: Fieldizer::to_field, IntoElement::to_element"]}
{"id": "C19", "title": "Quantization stays in range, is monotone, and is accurate to half a step", "statement": "Quantizing a real value with a positive scale returns an integer in [MIN,MAX]; larger inputs never give smaller outputs; inside the representable interval, dequantize(quantize(v)) is within half a scale step of v; quantizing a dequantized in-range integer returns it (exact real arithmetic).", "quantifier": "every value, every positive scale, every bit length", "why_tests_cant": "Continuum of inputs.", "anchors": ["zkml/src/quantization/mod.rs: ScalingFactor::quantize, dequantize"]}
{"id": "C20", "title": "Requantization equals rounding the exact product, clamped", "statement": "For every accumulator value in the accepted range, requantization returns clamp(floor((x*fixed_point_multiplier + 2^(shift-1)) / 2^shift)) to [MIN,MAX]; it is monotone; without clamping the result is within one half plus the multiplier error of x*multiplier.", "quantifier": "every accumulator value, every multiplier and shift", "why_tests_cant": "Accumulators have up to 2^40 values and scales are arbitrary.", "anchors": ["zkml/src/layers/requant.rs: Requant::apply, op"]}
{"id": "C21", "title": "The requantization witness satisfies the verifier's recombination for every input", "statement": "For every input in range the chunks the prover looks up lie in the range table, the clamping input lies in the clamping table, and recombining them with the powers of two gives back the input times the fixed-point multiplier; conversely any in-table witness satisfying the recombination over the integers determines the requantized output uniquely. Inputs outside the clamping table make the honest prover's lookup fail.", "quantifier": "every input value and every candidate witness", "why_tests_cant": "Uniqueness ranges over all witnesses.", "anchors": ["zkml/src/layers/requant.rs: gen_lookup_witness, recombine_claims, clamping_size"]}
{"id": "C22", "title": "Declared output bit sizes bound the accumulators", "statement": "For every weight matrix and input with entries in [MIN,MAX], every output of matrix-vector and matrix-matrix multiplication with bias lies within the bit size the layer declares.", "quantifier": "every matrix size, every entry in range", "why_tests_cant": "Worst cases grow with size.", "anchors": ["zkml/src/layers/dense.rs: output_bitsize", "zkml/src/tensor.rs: matmul_output_bitsize"]}
{"id": "C23", "title": "The verifier's closed forms equal the table's multilinear extension", "statement": "For each table whose columns the verifier evaluates itself (range, relu, clamping input, zero table, ...), the closed form at any point equals the multilinear extension of the actual table column.", "quantifier": "every table size parameter, every point", "why_tests_cant": "A polynomial identity for all points and all sizes.", "anchors": ["zkml/src/lookup/context.rs: TableType::evaluate_table_columns, get_merged_table_column"]}
{"id": "C24", "title": "Lookup tables contain exactly the graph of the function they stand for", "statement": "A pair (x,y) is in the relu/clamping/range/zero table iff x is in the stated domain and y is the function's value at x; the merged single-column encoding is injective on the domain.", "quantifier": "every pair, every size parameter", "why_tests_cant": "Sizes are parameters; completeness of the domain boundary is off-by-one prone.", "anchors": ["zkml/src/lookup/context.rs: get_merged_table_column, COLUMN_SEPARATOR"]}
{"id": "C25", "title": "Multi-dimensional indices and flat positions are in bijection", "statement": "For every shape, `strides` gives the row-major flat position of every coordinate, different coordinates have different positions, all positions below the product are hit, and element access with in-range coordinates returns that entry; the element accessor rejects out-of-range coordinates.", "quantifier": "every shape and coordinate", "why_tests_cant": "Shapes are unbounded.", "anchors": ["zkml/src/tensor.rs: Shape::strides, get_at_4d, get_idx, get"]}
{"id": "C26", "title": "Transpose and permutation only move entries", "statement": "transpose(M)[j,i] = M[i,j] and transposing twice is the identity; permute3d places entry at the permuted coordinate for every permutation; reshape keeps the data.", "quantifier": "every matrix/3d tensor and permutation", "why_tests_cant": "Sizes unbounded.", "anchors": ["zkml/src/tensor.rs: transpose, permute3d, reshape"]}
{"id": "C27", "title": "Matrix products match their definition", "statement": "matmul and matvec return sum_k A[i,k]*B[k,j] at each entry with the expected shape.", "quantifier": "every size, every entry", "why_tests_cant": "Sizes unbounded.", "anchors": ["zkml/src/tensor.rs: matmul, matvec"]}
{"id": "C28", "title": "Padding keeps every entry at its coordinate and writes zeros elsewhere", "statement": "Padding a tensor of any rank to any larger shape (or each dimension to its next power of two) leaves entry at coordinate c unchanged for every in-range c and zero at all other coordinates; the in-place variant gives the same result.", "quantifier": "every rank, shape, target shape and contents", "why_tests_cant": "In-place data movement correctness depends on all shapes.", "anchors": ["zkml/src/tensor.rs: pad_next_power_of_two, recursive_pad, pad_to_shape"]}
{"id": "C29", "title": "Padded inference computes the unpadded result", "statement": "Running matmul/matvec/bias on padded operands gives the padded result of the unpadded operation; the padded fully connected matrix produced to ignore garbage applied to a padded (garbage-filled) input gives the same values as the original matrix applied to the original flattened input.", "quantifier": "every size, every padding garbage", "why_tests_cant": "Garbage values are arbitrary.", "anchors": ["zkml/src/tensor.rs: pad_matrix_to_ignore_garbage, matmul", "zkml/src/layers/dense.rs: pad_next_power_of_two"]}
{"id": "C30", "title": "Max pooling returns the maximum of each window", "statement": "Each output entry of maxpool2d is >= every entry of its window and equals one of them; output sizes are (h-k)/s+1.", "quantifier": "every tensor, kernel, stride", "why_tests_cant": "Sizes unbounded.", "anchors": ["zkml/src/tensor.rs: maxpool2d"]}
{"id": "C31", "title": "The FFT is the discrete Fourier transform and the inverse undoes it", "statement": "For every power-of-two length and every input, fft returns sum_j x_j w^{ij} and the inverse transform returns the input; pointwise products of transforms are cyclic convolutions.", "quantifier": "every length 2^k, every input", "why_tests_cant": "All inputs and sizes.", "anchors": ["zkml/src/tensor.rs: fft, get_root_of_unity"]}
{"id": "C32", "title": "FFT-based convolution equals direct convolution", "statement": "fft_conv on square inputs returns, after dropping the padding positions, the same values as conv2d.", "quantifier": "every kernel/input size and contents", "why_tests_cant": "All sizes.", "anchors": ["zkml/src/tensor.rs: fft_conv, into_fft_conv, conv2d, index_u, index_w"]}
{"id": "C33", "title": "Argmax returns the first index of a maximal entry", "statement": "For every nonempty list the returned index is in range, its entry is >= all entries and > all earlier ones.", "quantifier": "every list", "why_tests_cant": "Ties and positions arbitrary.", "anchors": ["zkml/src/tensor.rs: argmax", "zkml/src/lib.rs: argmax"]}
{"id": "C34", "title": "Slicing, concatenating and broadcasting address the right entries", "statement": "Slicing the concatenation of two tensors gives them back; expand repeats entries according to broadcasting rules; concat rejects tensors whose other dimensions differ.", "quantifier": "every shape and range", "why_tests_cant": "All shapes.", "anchors": ["zkml/src/tensor.rs: slice_on_dim, concat, expand, stack_all"]}
{"id": "C35", "title": "An accepted dense layer proof ties output claims to input and weight claims", "statement": "If the dense verifier accepts an output claim and the input, weight and bias claims it passes on are true, then the output claim is true for y = W x + b except for challenges in a set of bounded size.", "quantifier": "every proof object, every claim, all challenges", "why_tests_cant": "Adversarial proofs.", "anchors": ["zkml/src/layers/dense.rs: verify_dense, individual_to_virtual_claim"]}
{"id": "C36", "title": "An accepted matrix multiplication proof ties the output claim to its operands", "statement": "Same as for dense, for matrix products with constant or runtime operands.", "quantifier": "every proof object", "why_tests_cant": "Adversarial proofs.", "anchors": ["zkml/src/layers/matrix_mul.rs: verify_matmul, individual_to_virtual_claim, split_claim, full_points"]}
{"id": "C37", "title": "An accepted convolution proof ties the output claim to input and filter", "statement": "If the convolution verifier accepts and the claims it passes on are true then the output claim is true except with small probability.", "quantifier": "every proof object", "why_tests_cant": "Adversarial proofs.", "anchors": ["zkml/src/layers/convolution.rs: verify_convolution"]}
{"id": "C38", "title": "An accepted pooling proof means each output is the maximum of its window", "statement": "If the range lookups and the zero check for a window hold then the claimed output is the maximum of the four inputs.", "quantifier": "every window, every claimed output, every difference column", "why_tests_cant": "Adversarial witness.", "anchors": ["zkml/src/layers/pooling.rs: verify_pooling"]}
{"id": "C39", "title": "Every looked-up column of an activation/requant/pooling proof is tied to a commitment", "statement": "The number of commitments opened equals the number of witness columns used in the lookup; proofs with fewer commitments are rejected.", "quantifier": "every proof object", "why_tests_cant": "Adversarial proofs.", "anchors": ["zkml/src/layers/activation.rs: verify_activation", "zkml/src/layers/requant.rs: verify_requant", "zkml/src/layers/pooling.rs: verify_pooling"]}
{"id": "C40", "title": "Aggregating several claims on one polynomial is sound", "statement": "If the same-polynomial aggregation verifier accepts claims and the single resulting claim is true then all input claims are true, except for challenges in a set of bounded size; the result point is the verifier's own challenge point.", "quantifier": "every set of claims, every proof", "why_tests_cant": "Adversarial proofs.", "anchors": ["zkml/src/commit/same_poly.rs: Verifier::verify"]}
{"id": "C41", "title": "Opening bookkeeping: verification succeeds only when every committed polynomial was claimed exactly once", "statement": "The commitment verifier accepts only if each model commitment and each table commitment got exactly one claim and every trivial opening is checked.", "quantifier": "every sequence of claim additions", "why_tests_cant": "All call sequences.", "anchors": ["zkml/src/commit/context.rs: CommitmentVerifier"]}
{"id": "C42", "title": "Merkle openings of honest trees verify", "statement": "For every tree and every leaf position, the produced path authenticates the leaf pair at that position against the root.", "quantifier": "every leaf vector of power-of-two length, every position", "why_tests_cant": "All sizes and positions.", "anchors": ["mpcs/src/util/merkle_tree.rs: MerkleTree, merkle_path_without_leaf_sibling_or_root, authenticate_merkle_path_root"]}
{"id": "C43", "title": "Merkle openings bind: another leaf pair at the same position needs a hash collision", "statement": "Two accepted paths of the tree's depth for the same index and root with different leaf pairs yield an explicit collision of the hash; the verifier only accepts paths of the tree's depth.", "quantifier": "every pair of openings", "why_tests_cant": "All adversarial openings.", "anchors": ["mpcs/src/util/merkle_tree.rs: authenticate_merkle_path_root", "mpcs/src/util/hash.rs"]}
{"id": "C44", "title": "Folding a codeword is encoding the folded message", "statement": "For the Reed-Solomon and random foldable code, encode(fold(m,c)) = fold(encode(m),c) for every message and challenge, and the verifier's per-position folding coefficients agree with the prover's table.", "quantifier": "every message length 2^k, every message, challenge, position", "why_tests_cant": "All sizes.", "anchors": ["mpcs/src/basefold/encoding.rs: fold_bitreversed_codeword", "mpcs/src/basefold/encoding/rs.rs", "mpcs/src/basefold/encoding/basecode.rs"]}
{"id": "C45", "title": "Switching from evaluations to coefficients is exact", "statement": "`interpolate_over_boolean_hypercube` returns the coefficients of the multilinear polynomial: evaluating the coefficient form at any point equals the multilinear extension; one-level inverse undoes one-level interpolation.", "quantifier": "every table and point", "why_tests_cant": "All tables.", "anchors": ["mpcs/src/util/arithmetic/hypercube.rs: interpolate_over_boolean_hypercube", "mpcs/src/basefold/sumcheck.rs"]}
{"id": "C46", "title": "An accepted opening means the committed polynomial has that value", "statement": "If the polynomial commitment verifier accepts (commitment, point, value) then value is the evaluation of the committed polynomial, except with negligible probability; in particular it checks the expected number of queries at the positions it sampled.", "quantifier": "every commitment, point, value, proof object", "why_tests_cant": "Adversarial proofs.", "anchors": ["mpcs/src/basefold.rs: verify, batch_verify, simple_batch_verify", "mpcs/src/basefold/query_phase.rs: check"]}
{"id": "C47", "title": "An honest opening's interleaved sumcheck is accepted", "statement": "For every polynomial, point and challenge sequence the honest sumcheck messages of the opening satisfy all verifier equations and the final message is consistent.", "quantifier": "every polynomial, point, challenges", "why_tests_cant": "All inputs.", "anchors": ["mpcs/src/basefold/commit_phase.rs", "mpcs/src/basefold/sumcheck.rs", "mpcs/src/basefold/query_phase.rs: verifier_query_phase"]}
{"id": "C48", "title": "Model iteration visits nodes in dependency order, each once, and all of them when the graph is acyclic", "statement": "Forward iteration yields each node at most once and after all nodes it takes inputs from; backward iteration after all its consumers; every node is yielded iff the graph has no cycle (nodes on or behind a cycle are silently skipped).", "quantifier": "every graph", "why_tests_cant": "All graphs.", "anchors": ["zkml/src/model/iterator.rs: NodeIterator::next, IntoNodeIterator"]}
{"id": "C49", "title": "Building a model keeps edges symmetric", "statement": "After any sequence of successful node insertions, an input edge (a,i)->b is recorded iff the output edge is recorded at a; fresh ids never collide with existing ones; a failed insertion leaves the model unchanged.", "quantifier": "every sequence of insertions", "why_tests_cant": "All histories.", "anchors": ["zkml/src/model/mod.rs: add_node, add_node_with_id, add_consecutive_layer, route_output"]}
{"id": "C50", "title": "Inserting requantization nodes keeps the dataflow", "statement": "Adding requant nodes after a node reroutes all consumers of that node's outputs to the requant node and leaves other edges alone.", "quantifier": "every graph, every node", "why_tests_cant": "All graphs.", "anchors": ["zkml/src/model/mod.rs: add_requant_nodes"]}
{"id": "C51", "title": "What is stored under a key is what is later returned", "statement": "For every history of store operations, getting params or a model after a successful insert returns the inserted value, other keys are unaffected and insertion never silently overwrites.", "quantifier": "every history of operations", "why_tests_cant": "All histories.", "anchors": ["deep-prove/src/store.rs: S3Store, MemStore"]}
{"id": "C52", "title": "Enabling the local cache does not change results", "statement": "A store with a filesystem cache returns the same results as one without, after any history, including failures.", "quantifier": "every history, crash points", "why_tests_cant": "All histories.", "anchors": ["deep-prove/src/store.rs: S3Store::get_params, insert_params, get_or_init_model_with"]}
{"id": "C53", "title": "Different models or settings never share a store key", "statement": "Two requests whose stored artefacts differ get different keys.", "quantifier": "every pair of requests", "why_tests_cant": "All pairs.", "anchors": ["deep-prove/src/store.rs: params_key, model_key", "deep-prove/src/bin/worker/main.rs: run_model_v1"]}
{"id": "C54", "title": "Every accepted proof request is eventually answered, in order, exactly once", "statement": "Over every schedule of submissions, processing and retrievals, each submitted request yields at most one proof result, none is lost, and proofs are returned oldest first.", "quantifier": "every schedule", "why_tests_cant": "All schedules.", "anchors": ["deep-prove/src/bin/worker/api.rs"]}
{"id": "C55", "title": "A worker answers each job with exactly one proof or error report", "statement": "For every sequence of gateway messages the worker sends exactly one reply per decoded job, in order; each input of a job yields a proof.", "quantifier": "every message sequence, every failure pattern", "why_tests_cant": "All sequences.", "anchors": ["deep-prove/src/bin/worker/lpn/grpc.rs", "deep-prove/src/bin/worker/lpn/http.rs", "deep-prove/src/bin/worker/main.rs: run_model_v1"]}
{"id": "C56", "title": "Prover and verifier derive the same challenges iff they absorbed the same messages", "statement": "Two transcripts with the same history of appends give the same challenges; the byte/field encoding of appended data is injective, so different histories are absorbed differently.", "quantifier": "every history", "why_tests_cant": "All histories.", "anchors": ["transcript/src/basic.rs", "transcript/src/blake.rs", "transcript/src/lib.rs"]}
{"id": "C57", "title": "Challenges depend on the statement", "statement": "The public inputs, outputs and the lookup witness commitments are absorbed before the challenges that depend on them are drawn.", "quantifier": "every statement and proof", "why_tests_cant": "Weak Fiat-Shamir shows only to adversaries.", "anchors": ["zkml/src/iop/verifier.rs: Verifier::verify", "zkml/src/iop/prover.rs: prove", "zkml/src/lookup/witness.rs: write_to_transcript"]}
{"id": "C58", "title": "Claims travel along edges: each consumer's input claim becomes exactly the producer's output claim", "statement": "In the backward pass each node receives one claim per output, made from the claims of the consumers of that output; no claim is lost or duplicated.", "quantifier": "every model graph", "why_tests_cant": "All graphs.", "anchors": ["zkml/src/layers/provable/mod.rs: NodeCtx::claims_for_node"]}
{"id": "C59", "title": "Elementwise layers reduce claims correctly", "statement": "Addition (of two activations, or of an activation and a committed constant, with integer multipliers), flatten and reshape turn an output claim into input claims: the honest prover's are true and accepted for every tensor, and if the ones the verifier returns are true then so is the output claim. Permute and scalar multiplication exist as evaluation only and have no proof.", "quantifier": "every tensor, point", "why_tests_cant": "All tensors.", "anchors": ["zkml/src/layers/add.rs", "zkml/src/layers/flatten.rs", "zkml/src/layers/permute.rs", "zkml/src/layers/hadamard.rs"]}
{"id": "C60", "title": "Relu on quantized values is max(x,0) and its table covers the whole domain", "statement": "For every quantized x the relu layer returns max(x,0) and (x, relu x) is a table row.", "quantifier": "every bit length and x", "why_tests_cant": "Parameterised by bit length.", "anchors": ["zkml/src/layers/activation.rs: Relu::apply", "zkml/src/lookup/context.rs"]}
{"id": "C61", "title": "Matrix-vector proofs", "statement": "The stand-alone matrix-vector proof is accepted for true claims, and an accepted proof implies that the output claim is true if the passed-on claim about the vector is.", "quantifier": "every matrix, vector, transcript, proof", "why_tests_cant": "Soundness is about all adversarial proofs.", "anchors": ["zkml/src/layers/matvec.rs: MatVec::prove, verify"]}
{"id": "C62", "title": "Entrywise products", "statement": "The entrywise-product proof is accepted for true claims, and an accepted proof implies that the claim about the product is true if the two values it is reduced to are.", "quantifier": "every pair of tables, point, transcript and adversarial proof", "why_tests_cant": "Soundness is about all adversarial proofs.", "anchors": ["zkml/src/layers/hadamard.rs: prove, verify"]}
{"id": "C63", "title": "The bias is quantized on the accumulator's scale", "statement": "For a linear layer with input scale a and weight scale w, a bias within the representable range is quantized so that it contributes its real value to the accumulator (whose unit is a*w) up to half a unit.", "quantifier": "every scale, weight maximum and bias", "why_tests_cant": "Holds for all real scales; a test sees single models.", "anchors": ["zkml/src/quantization/mod.rs: bias_scaling_matmul", "zkml/src/layers/dense.rs: quantize", "zkml/src/layers/convolution.rs: quantize", "zkml/src/layers/matrix_mul.rs: quantize_op"]}
{"id": "C64", "title": "A lookup into one table cannot be satisfied by the rows of another table", "statement": "When a model uses several lookup tables, a claimed pair (input, output) that is not a row of the table it is looked up in is rejected even if the same numbers occur as a row of another table of the model.", "quantifier": "every pair of tables, every looked-up row, every challenge", "why_tests_cant": "Soundness over all challenges and multiplicity columns; tests only make honest lookups.", "anchors": ["zkml/src/lookup/context.rs: initialise_from_table_set, generate_challenge, ChallengeStorage", "zkml/src/lookup/logup_gkr/circuit.rs: new_lookup_circuit, new_table_circuit"]}
{"id": "C65", "title": "Padding a convolution layer keeps its result", "statement": "Padding a convolution layer for proving yields a layer that computes, on every padded input, the convolution of the unpadded layer.", "quantifier": "every kernel size and input size accepted by the padding step, every input", "why_tests_cant": "All combinations of kernel and input sizes.", "anchors": ["zkml/src/padding.rs: pad_conv", "zkml/src/layers/convolution.rs: Convolution::into_padded_and_ffted"]}
{"id": "C66", "title": "Running a model computes its dataflow", "statement": "For every model graph and input, a successful run records for every node the result of its operation on the values carried by its input edges; when those equations have a solution the run finds it, whatever ids the nodes have and whatever order they are stored in.", "quantifier": "every graph, input and layer semantics", "why_tests_cant": "All graphs and orders.", "anchors": ["zkml/src/model/mod.rs: run_with_tracker", "zkml/src/model/iterator.rs"]}
{"id": "C67", "title": "A run returns every declared output at its index", "statement": "For every model, the outputs returned by a run are, at each index, the value on the wire routed to that output; no declared output is dropped.", "quantifier": "every graph and input", "why_tests_cant": "All graphs.", "anchors": ["zkml/src/model/mod.rs: run_with_tracker, output_nodes, route_output"]}
{"id": "C68", "title": "The verifier ties every public output to the proof", "statement": "For every model and every public output, the verifier's claim about that output is the evaluation of the given output at a point it drew; no output is left unchecked.", "quantifier": "every graph, every output tensor", "why_tests_cant": "An unchecked output shows only to a cheating prover.", "anchors": ["zkml/src/iop/verifier.rs: Verifier::verify", "zkml/src/layers/provable/mod.rs: bind_outputs_to_node"]}
{"id": "C69", "title": "Prover and verifier draw the output challenges in the same order", "statement": "For every model the point at which each output is claimed is the same for prover and verifier.", "quantifier": "every graph, every hash map order", "why_tests_cant": "Hash map order differs from run to run.", "anchors": ["zkml/src/iop/prover.rs: prove", "zkml/src/iop/verifier.rs: Verifier::verify", "zkml/src/layers/provable/mod.rs: bind_outputs_to_node"]}
{"id": "C70", "title": "The requested scaling strategy is the one used", "statement": "A proof request names a quantisation scaling strategy and the data it is calibrated on. The model that is run and proved is the one quantised with that strategy, for every request and every state of the store.", "quantifier": "every request, every state of the store", "why_tests_cant": "A test uses one strategy and looks at whether a proof comes back, not at which quantisation it was made with.", "anchors": ["deep-prove/src/bin/worker/main.rs:run_model_v1", "deep-prove/src/bin/worker/main.rs:parse_model", "deep-prove/src/middleware/v1.rs: DeepProveRequest"]}
{"id": "C71", "title": "Quantised addition approximates addition", "statement": "After quantisation an addition layer computes, up to a small relative error and a known scale, the sum of the quantities its quantised operands stand for, and its intermediate values are within the range its requantisation accepts. For every triple of scales and every pair of operands within the quantised range.", "quantifier": "every operand and output scale, every pair of quantised values", "why_tests_cant": "A test adds a few tensors whose ranges are similar.", "anchors": ["zkml/src/layers/add.rs:Add::quantize", "zkml/src/layers/add.rs:QuantInfo", "zkml/src/layers/requant.rs:Requant::op"]}
{"id": "C72", "title": "Reshaping commutes with padding", "statement": "A model is padded to powers of two before proving. For every reshape the padding accepts, reshaping the padded tensor gives the padding of the reshaped tensor, so the padded model computes what the original one does.", "quantifier": "every shape, reshape and tensor", "why_tests_cant": "A test reshapes one shape, usually with powers of two.", "anchors": ["zkml/src/layers/reshape.rs:Reshape", "zkml/src/padding.rs:pad_reshape_layer"]}
{"id": "C73", "title": "Embedding rows are looked up and proved exactly", "statement": "For a table of vocab rows, the embedding layer returns, for every list of tokens, the rows of the table numbered by the tokens, and an error if a token is negative or not below the vocabulary size. An honest proof of a true output claim is accepted with true claims on the one-hot matrix of the tokens and on the table. If the verifier accepts a proof and the token check, and the claim on the table is true, the output claim is the one of the rows the public tokens number, except with the sum-check's probability.", "quantifier": "every table, every token list of power-of-two length, every output claim, every transcript and every prover", "why_tests_cant": "Quantifies over all provers and challenges; tests only run the honest prover.", "anchors": ["zkml/src/layers/transformer/embeddings.rs: Embeddings::evaluate, prove, EmbeddingsCtx::verify, verify_input_claim"]}
{"id": "C74", "title": "Positional encodings add the first rows of a committed matrix", "statement": "The learned positional layer returns the scaled sum of the input and of the first rows of the positional matrix. An honest proof is accepted with true claims on the input and on the whole positional matrix. If the verifier accepts and the claims it passes on are true, every output claim is true.", "quantifier": "every matrix, every input of power-of-two size, every output claim, every transcript and every prover", "why_tests_cant": "Quantifies over all provers; the accepted forgeries are never produced by the honest prover tests run.", "anchors": ["zkml/src/layers/transformer/positional.rs: Learned::evaluate, prove, verify, compute_positional_matrix_claim, sample_random_coordinates"]}
{"id": "C75", "title": "The final argmax layer outputs, and proves, positions of row maxima", "statement": "Inference returns for every row the first position of its greatest entry. If the verifier accepts the layer and the claims on the vector of maxima and on the input are true, the looked-up values are the gaps between the vector and the input's entries and the vector agrees with the input at the public outputs, so that every output is the position of a greatest entry of its row, except with the stated sum-check probabilities. An honest proof is accepted.", "quantifier": "every logits matrix with power-of-two dimensions, every list of outputs, every lookup claim, every transcript and every prover", "why_tests_cant": "Quantifies over all provers and challenges, and over all logits matrices including the all-zero one and rows of negative logits.", "anchors": ["zkml/src/layers/transformer/logits.rs: Logits::evaluate_with_argmax_data, prove, LogitsCtx::verify, verify_output_evaluation", "zkml/src/lib.rs: max_in_slice"]}
{"id": "C76", "title": "Products of stacks of matrices are computed and proved exactly", "statement": "For every layout of the axes of its two 3d inputs and every order of the axes of its output, the layer computes the stack of the products of the matrices of the two stacks. An honest proof of a true output claim is accepted with true claims on both inputs. If the verifier accepts and the claims it passes on are true, the output claim is true, except with the sum-check's probability.", "quantifier": "every axis layout, every output permutation, every pair of stacks (with power-of-two sizes for the proof), every output claim, transcript and prover", "why_tests_cant": "Quantifies over all provers, all axis layouts and all sizes; the accepted forgeries are never produced by the honest prover tests run.", "anchors": ["zkml/src/layers/concat_matmul.rs: ConcatMatMul::evaluate, prove_step, ConcatMatMulCtx::verify, InputMatrixDimensions, split_output_claim_point, split_sumcheck_point"]}
{"id": "C77", "title": "The query, key and value projections are computed, padded and proved exactly", "statement": "The layer returns the three products X\u00b7W + b. With padded weights, biases and input it computes the same values, head by head, and zero in the padding columns, and it announces the shape it produces. An honest proof of true claims on the three outputs is accepted with true claims on the weights, the biases and the input. If the verifier accepts and the claims it passes on are true, the three output claims are true, except with the stated probabilities.", "quantifier": "every input, weights and biases, every number and dimension of heads (power-of-two sizes for the proof), every three output claims, every transcript and every prover", "why_tests_cant": "Quantifies over all provers and all head counts; the repository's tests use at least three heads and honest proofs only.", "anchors": ["zkml/src/layers/transformer/qkv.rs: QKV::evaluate, output_shapes, prove, QKVCtx::verify, split_claim_point, build_points", "zkml/src/padding.rs: pad_qkv, pad_minimum", "zkml/src/tensor.rs: add_dim2"]}
{"id": "C78", "title": "Attention masking keeps exactly the positions up to the current one, padded or not, and the verifier evaluates the mask exactly", "statement": "For every number of heads and every sequence length n, applying the attention mask to the n by n scores of every head keeps the score of position j for query i when j <= i and replaces it by the value standing for minus infinity when j > i. Tensors that are not square in the last two dimensions, or whose sizes do not match the mask, are refused. The mask of the padded shape does the same on the original positions, whatever the padding contains. The closed form the verifier uses for the mask equals, at every point, the multilinear extension of the mask the prover used, columns being the lowest coordinates, then rows, then heads.", "quantifier": "all head counts, sequence lengths, score tensors, padding contents, values for minus infinity and evaluation points over any field", "why_tests_cant": "The size of the tensors and the point are unbounded; a test fixes one of each. The closed form is a recursion over bits that has to agree with a triangular table for every number of bits.", "anchors": ["zkml/src/layers/transformer/softmax.rs: AttentionMask::new, pad, apply", "zkml/src/layers/transformer/mha.rs: zeroifier, infinitizer, eval_zeroifier_mle, eval_infinitizer_mle", "zkml/src/tensor.rs: Tensor::tri, Tensor::tril"]}
{"id": "C79", "title": "Quantised softmax: causal, padding-independent, exact zeros above the diagonal, table value of the normalised score elsewhere, rows summing to the output scale", "statement": "Evaluating the quantised softmax on square score matrices gives, for every head and query i, zero at every position j > i, and at j <= i the exponential table's value at the score rescaled and shifted by the row's normalisation, which never exceeds zero. The outputs of a row depend only on the scores up to the diagonal, so that neither later positions nor padding influence them. The digits recorded for the proof are in range and recombine to the shifted score. The number of additional digits chosen at quantisation covers every score that can occur. The outputs of a row sum to the output scale up to an explicit bound.", "quantifier": "all head counts, sequence lengths, scores, quantisation parameters (multiplier, cut-off, table sizes), and all roundings of the logarithm within a given error", "why_tests_cant": "The claim quantifies over all tensors and parameters; the failing cases sit at exact powers of two of the cut-off and of the smallest score, which random tests do not hit.", "anchors": ["zkml/src/layers/transformer/softmax.rs: Softmax::quantise, Softmax::<Element>::calculate_shift_data, Evaluate<Element> for Softmax<Element>", "zkml/src/lookup/context.rs: SoftmaxTableData::table_output"]}
{"id": "C80", "title": "An accepted softmax proof ties the output to the input through the tables", "statement": "Whenever the verifier accepts the proof of a softmax layer: the output claim and the looked-up pairs, digits, zero-table chunks and row sums are those of the opened columns (up to the batching and sumcheck error), the columns recombine to the masked, rescaled and shifted input of the returned claim, every column is opened against its commitment, the row sums range over exactly the entries of a row, and the fractions added to the global lookup sum are those of verified lookup proofs. Conversely the verifier accepts the honest proof and returns a true claim on the input.", "quantifier": "all proofs, transcripts, challenges, numbers of variables and of zero-table chunks, sequence lengths, quantisation parameters", "why_tests_cant": "A test proves one honest execution. The claim is about every proof a malicious prover could send, including proofs with extra or missing parts.", "anchors": ["zkml/src/layers/transformer/softmax.rs: SoftmaxCtx::verify, Softmax::prove_step, SoftmaxProof::get_lookup_data", "zkml/src/layers/transformer/mha.rs: eval_zeroifier_mle"]}
{"id": "C81", "title": "Multi-head attention computes causal attention, padding does not change it", "statement": "For every number of heads, head dimension and number of positions, the attention layer outputs, in every head and at every position, the values weighted by the quantised softmax of the scaled products of queries and keys; the output at a position depends only on its query and on keys and values up to that position; the padded layer on padded inputs gives the same outputs at the real positions, heads and columns; and the matrix that follows, once padded, ignores whatever the layer leaves in the padding.", "quantifier": "all head counts, dimensions, lengths, paddings and integer inputs", "why_tests_cant": "the result must hold for every shape and every content of the padding, and leaks from later positions or from garbage only show for particular table sizes and shapes", "anchors": ["zkml/src/layers/transformer/mha.rs: Mha::evaluate_with_intermediate_outputs, Mha::pad_node, pad_matrix_to_ignore_mha_garbage", "zkml/src/layers/transformer/softmax.rs", "zkml/src/layers/concat_matmul.rs"]}
{"id": "C82", "title": "An accepted attention proof ties the output to queries, keys and values", "statement": "Whenever the verifier accepts the proof of an attention layer for a claim on the output and the claims it returns are true of the queries, keys and values, the output claim is true of the attention computed from them through the committed softmax columns, up to the sumcheck and batching errors; and the honest proof is accepted with true claims.", "quantifier": "all transcripts, proofs, claims and inputs of power-of-two sizes", "why_tests_cant": "soundness quantifies over every proof an adversary may send and over all challenges", "anchors": ["zkml/src/layers/transformer/mha.rs: MhaCtx::verify, Mha::prove", "zkml/src/layers/concat_matmul.rs", "zkml/src/layers/transformer/softmax.rs"]}
{"id": "C83", "title": "Quantised layer normalisation computes gamma (x - mean) / deviation + beta row by row", "statement": "Evaluating a quantised layer normalisation on a tensor whose last dimension is the size the layer was built for succeeds; every output is gamma times n (x - mean) times the inverse square root table at the integer part of multiplier n^2 variance / 2^R, plus beta, using the mean and variance of its own row. Adding a constant to a row changes nothing. The lookup index and the range checked rest recompose the scaled variance, the chunks handed to the range table recompose the rest, the bit sizes fixed at quantisation time suffice for every input, and padding the row length leaves the outputs of the real rows unchanged.", "quantifier": "all layers, all shapes, all rows and all integer inputs (bit bounded ones for the size claims)", "why_tests_cant": "the value depends on every number of the row; a test fixes one shape and a few inputs, and the bit sizes are only reached at extreme inputs", "anchors": ["zkml/src/layers/transformer/layernorm.rs: LayerNorm::evaluate, LayerNorm::quantize, lookup_witness, pad_node"]}
{"id": "C84", "title": "An accepted layer normalisation proof ties the output to the input", "statement": "Whenever the verifier accepts the proof of a layer normalisation for a claim on the output, and the claims it returns on the input, on gamma and beta and on the committed columns are true, the output claim is true of the layer normalisation of the input, except for a few challenges. In particular the numbers looked up in the inverse square root table are those of the variances of the rows. Conversely the proof of the honest prover is accepted.", "quantifier": "all contexts, shapes, inputs, proofs, claims and challenges", "why_tests_cant": "soundness is about every proof a prover could send; tests verify proofs made by the prover", "anchors": ["zkml/src/layers/transformer/layernorm.rs: LayerNormCtx::verify, LayerNorm::prove_step"]}
{"id": "C85", "title": "Padding a dense or matrix multiplication layer keeps its result", "statement": "When a quantised model is padded before proving, every dense layer and every matrix multiplication layer that can be built is padded successfully; the padded layer, run on a padded input, gives the result of the original layer in the original positions whatever the padding of the input contains, and the shapes recorded for the output, padded and not, are the shapes the layers produce.", "quantifier": "all matrices, biases, inputs and padded inputs of any size, transposed or not, after a convolution, after multi-head attention or neither", "why_tests_cant": "Tests pad a few fixed sizes; whether a layer survives padding depends on how the sizes relate (fewer than four entries, more outputs than inputs, more than one dimension), and on garbage values in the padding.", "anchors": ["zkml/src/padding.rs: pad_dense, pad_matmul, pad_minimum, GarbagePad", "zkml/src/layers/dense.rs: Dense::new, evaluate, output_shape", "zkml/src/layers/matrix_mul.rs: MatMul::new_internal, op, compute_output_shapes"]}
{"id": "C86", "title": "Opening several polynomials at once is complete and sound", "statement": "For commitments to polynomials of any sizes and claims about their values at points of the right sizes, the batch opening of the honest prover is accepted and leaves prover and verifier in the same transcript; and if the verifier accepts then every claimed value is the value of the committed polynomial, except with negligible probability over the challenges.", "quantifier": "every list of polynomials, points and claims, every transcript and hash, every proof object", "why_tests_cant": "All sizes and combinations of claims, adversarial proofs.", "anchors": ["mpcs/src/basefold.rs: batch_open, batch_verify", "mpcs/src/basefold/commit_phase.rs: batch_commit_phase", "mpcs/src/basefold/query_phase.rs: batch_verifier_query_phase", "mpcs/src/sum_check/classic.rs"]}
{"id": "C87", "title": "An accepted proof of a model means the outputs are those of the model", "statement": "If the verifier accepts a proof for a model, public inputs and public outputs, then the outputs are what the model computes on the inputs, except with negligible probability over the challenges; and the proof the honest prover makes for an inference is accepted. This holds for every graph of layers the API can build.", "quantifier": "every model graph, every inference, every proof object, every transcript", "why_tests_cant": "All graphs and adversarial proofs; the tests run with all output challenges equal to one and only with outputs of an honest inference.", "anchors": ["zkml/src/iop/verifier.rs: Verifier::verify", "zkml/src/iop/prover.rs: Prover::prove", "zkml/src/layers/mod.rs: has_proof, is_provable", "zkml/src/layers/provable/mod.rs", "zkml/src/layers/transformer/logits.rs: compute_model_output_claims", "zkml/src/lib.rs: read_challenges"]}
{"id": "C88", "title": "A generated text is the greedy continuation of the prompt", "statement": "When the driver of a language model answers for a prompt, the tokens added to the prompt are, one after the other, the model's own prediction for the sequence so far; generation stops exactly when the model predicts the end-of-text token or the window is full; the returned trace is that of the last run of the model, and the observer is called once per generated token in order.", "quantifier": "all models (as functions from a sequence to a trace), all end tokens, all prompts, context lengths and limits, any number of generated tokens", "why_tests_cant": "the number of iterations depends on what the model predicts; a test runs one model on one prompt", "anchors": ["zkml/src/model/llm.rs: Driver::run_inference, with_max_context", "zkml/src/tensor.rs: slice_last_dim, concat"]}
{"id": "C89", "title": "The scaling factors recorded for a quantised model belong to the values they are recorded for", "statement": "After a float model has been quantised, the factor recorded for every input of every node, and for every output of the model, is the factor of the very output that this input or model output is connected to, also after requantisation nodes have been inserted; so converting a trace back to real numbers uses for every tensor the factor it was quantised with.", "quantifier": "all models made by successful calls, all quantisation functions for single layers, all input factors", "why_tests_cant": "the factors are stored in maps by node id and the graph is rewired after they have been computed; a mistake shows only for particular wirings", "anchors": ["zkml/src/quantization/strategy.rs: quantize_model", "zkml/src/quantization/metadata.rs: MetadataBuilder", "zkml/src/model/trace.rs: Trace::dequantized"]}
{"id": "C90", "title": "Factors chosen by observing inferences fit the observed values", "statement": "When a model is quantised by running it on representative samples, the scaling factor chosen for every output of every node fits all values that this output had in these runs, and the factor of every model input fits the values of that input in the samples: no observed value is clamped, each comes back from its quantised value within half a step, all quantised values are in the symmetric range, and the range is not larger than needed.", "quantifier": "every model graph, every layer semantics, every list of samples, every node, output and input, every bit length", "why_tests_cant": "A test calibrates a few models on a few samples; that no observed value is clamped has to hold for every graph and every node, including those whose ids collide with the id reserved for inputs.", "anchors": ["zkml/src/quantization/strategy.rs: InferenceObserver::quantize, InferenceTracker::track, distribution_info, scaling_factors_for_node", "zkml/src/model/mod.rs: run_with_tracker", "zkml/src/quantization/mod.rs: ScalingFactor::from_absolute_max"]}
{"id": "C91", "title": "A quantised layer's values have the scaling factor it announces", "statement": "For every layer, input factor and quantised input, the integers the quantised layer produces (after its requantisation), multiplied by the factor the layer announces for its output, are what the float layer computes from the values that the quantised input stands for, up to rounding.", "quantifier": "every dense layer, matrix multiplication, convolution, rectifier, pooling, GELU and embeddings layer, every weight, bias, input and factor, every bit length", "why_tests_cant": "Tests compare a few quantised outputs with the float outputs under a generous tolerance and mostly compare the index of the largest logit; a wrong factor shows only for particular ranges of values.", "anchors": ["zkml/src/layers/dense.rs: Dense::quantize_op, quantize", "zkml/src/layers/mod.rs: Layer::quantize_op", "zkml/src/layers/activation.rs: Relu::op, GELU::quantize, GELU::apply, GELUQuantData::table_output", "zkml/src/layers/pooling.rs", "zkml/src/layers/matrix_mul.rs: MatMul::quantize_op, quantize_from_scalings", "zkml/src/layers/convolution.rs: Convolution::quantize_op, quantize_from_scalings", "zkml/src/layers/transformer/embeddings.rs: Embeddings::quantize_op", "zkml/src/tensor.rs: quantize, dequantize, max_abs_output, maxpool2d"]}
{"id": "C92", "title": "The honest lookup prover is accepted and tells the truth", "statement": "For every transcript and every valid input of the lookup argument - a table with its multiplicities, or any number of groups of looked-up columns - the prover returns a proof, and unless a challenge drawn in one of its sumchecks is 0, 1, 2 or 3, the verifier accepts that proof and is left with the prover's transcript. The claims it returns are the true evaluations of the columns (and multiplicities) at one point, and the fractions it returns are the sums of multiplicity (or -1) over merged row.", "quantifier": "all transcripts, all thread counts, all numbers, widths and values of columns of a power-of-two length, all constant and column challenges", "why_tests_cant": "A test proves a few random columns of a few sizes; the protocol has a round per variable, three kinds of layers and a different shape of the last round, and the claim is about every table and every challenge.", "anchors": ["zkml/src/lookup/logup_gkr/prover.rs: batch_prove, final_round_claim", "zkml/src/lookup/logup_gkr/structs.rs: LogUpInput::new_lookup, new_table, make_circuits, base_mles", "zkml/src/lookup/logup_gkr/circuit.rs: LogUpLayer::get_mles, LogUpCircuit", "zkml/src/lookup/logup_gkr/verifier.rs: verify_logup_proof"]}
{"id": "C93", "title": "Honest activation proofs verify", "statement": "For every ReLU or GELU layer, every input of at least four entries, its outputs, every true claim about the outputs and every transcript, the prover produces a proof; the verifier accepts it (unless a challenge hits an interpolation point), both return the same true claim about the input and hand the same true claims about the two committed columns to the commitment opening, and the fraction sum of the lookup is the one of the rows (input, output).", "quantifier": "all inputs, outputs, table challenges and transcripts of ReLU and GELU layers", "why_tests_cant": "the completeness of an interactive protocol ranges over all challenges and inputs; the only test of the GELU proof uses columns so small that the prover's opening values are not used", "anchors": ["zkml/src/layers/activation.rs: gen_lookup_witness, prove_step, verify_activation", "zkml/src/commit/context.rs: add_witness_claim"]}
{"id": "C94", "title": "Honest requantisation proofs verify", "statement": "For every requantisation layer, every input of at least four entries that it can requantise, every true claim about the outputs and every transcript, the prover produces a proof; the verifier accepts it (unless a challenge hits an interpolation point), both return the same true claim about the input and the same true claims about the committed columns, and the fraction sums of the clamping and range lookups are those of the witness columns.", "quantifier": "all inputs, requantisation parameters, table challenges and transcripts", "why_tests_cant": "completeness ranges over all inputs, shifts, numbers of chunks and challenges", "anchors": ["zkml/src/layers/requant.rs: gen_lookup_witness, prove_step, recombine_claims, verify_requant"]}
{"id": "C95", "title": "Honest pooling proofs verify", "statement": "For every 2x2 max pooling of a tensor with power-of-two dimensions and at least four outputs, every true claim about the output and every transcript, the vectors committed by the prover are the output minus each of the four window entries, the prover produces a proof, the verifier accepts it (unless a challenge hits an interpolation point), both return the same true claim about the input and the same true claims about the five committed columns, and the lookup's fraction sums are those of the four difference columns.", "quantifier": "all power-of-two shapes, inputs, table challenges and transcripts", "why_tests_cant": "the interleaving that lines up window entries with outputs depends on every dimension; completeness ranges over all inputs and challenges", "anchors": ["zkml/src/layers/pooling.rs: compute_polys, prove_pooling, verify_pooling, gen_lookup_witness"]}
{"id": "C96", "title": "Honest proof of a feed-forward network verifies", "statement": "For every network built from convolution, dense, ReLU, requantisation, 2x2 max pooling and flatten layers (any graph in which an output feeds one input), every inference in which the layers' inputs have the sizes and ranges they are made for, and every transcript, the prover produces a proof with the real lookup witnesses, table challenges, layer proofs and table proofs, unless a certain challenge in a convolution is 1, so that it would have to divide by zero; given a commitment scheme that opens true claims, the verifier accepts this proof, unless a sumcheck challenge is one of the prover's interpolation points or a table challenge makes a denominator zero.", "quantifier": "all graphs, weights, inputs, requantisation parameters, table orders, transcripts and complete commitment schemes", "why_tests_cant": "prover and verifier must stay in step over every layer, table and claim of every network; multiplicities must match the rows looked up by all layers together", "anchors": ["zkml/src/iop/prover.rs: prove, prove_tables, instantiate_witness_ctx", "zkml/src/iop/verifier.rs: verify, verify_table", "zkml/src/iop/mod.rs: ChallengeStorage::initialise", "zkml/src/lookup/context.rs: generate_lookup_witnesses, initialise_from_table_set", "zkml/src/layers/mod.rs: prove, get_lookup_data"]}
{"id": "C97", "title": "An accepted proof of a feed-forward network means that the output is the network's", "statement": "If the verifier accepts a proof for given public inputs and outputs of a network of dense, requantisation, ReLU, pooling and flatten layers, the outputs are those the network computes on the inputs, except with the probability of a lucky random challenge, provided the polynomial commitment is binding.", "quantifier": "every network of these layers, every input, every claimed output, every proof, including those of a dishonest prover, every transcript", "why_tests_cant": "A test can only try proofs it knows how to construct; a soundness error is a proof nobody wrote a test for.", "anchors": ["zkml/src/iop/verifier.rs:verify", "zkml/src/layers/requant.rs:verify_requant", "zkml/src/layers/dense.rs:verify_dense", "zkml/src/commit/context.rs:CommitmentVerifier::verify"]}
{"id": "C98", "title": "Honest convolution proofs are accepted", "statement": "For a convolution layer prepared for proving, and any padded input, the prover turns the data recorded during the evaluation and a true claim about the output into a proof. The verifier accepts this proof (unless a challenge is one of the interpolation nodes 0 to 3; if the last one for the transform of the input is 1, the prover divides by zero), and prover and verifier end with the same true claims about the input, the filter and the bias and the same transcript.", "quantifier": "all filters, biases and inputs (any numbers of channels, any kernel size that fits), all points of the claim, all transcripts, any number of threads", "why_tests_cant": "The proof chains a clearing sumcheck, an inverse transform, an entrywise product and two forward transforms, each with a cascade of delegated sumchecks of decreasing size; an index or bit-order mistake may cancel for the sizes and the challenges of a test.", "anchors": ["zkml/src/layers/convolution.rs: prove_convolution_step, prove_batch_fft_weights, verify_convolution, step_info", "zkml/src/iop/prover.rs: prove_batch_fft, prove_batch_ifft, delegate_matrix_evaluation, phi_g_init, phi_pow_init", "zkml/src/tensor.rs: fft_conv, ConvData::new"]}
{"id": "C99", "title": "Padding a whole model keeps its results", "statement": "If the shapes of a model are padded to powers of two, then the padded model has the same layers and connections, and its inference on a padded input succeeds whenever the inference of the original model on the original input does, and every tensor computed in it, and so the result, holds the entries of the tensor of the original model at the same coordinates.", "quantifier": "every model, all its weights, every input", "why_tests_cant": "The padded entries are garbage between layers; whether a later layer picks some of it up depends on the combination of shapes, layers and weights, and tests run on a few models.", "anchors": ["zkml/src/padding.rs: pad_model, pad_conv, pad_dense, pooling, reshape", "zkml/src/model/mod.rs: run_with_tracker", "zkml/src/layers/mod.rs: pad_node"]}
{"id": "C100", "title": "Opening several polynomials under one commitment at one point", "statement": "If several polynomials of the same number of variables are committed to together, then the proof the opener makes for their values at one point is accepted, whatever the polynomials, the point and the transcript, and prover and verifier leave the transcript in the same state. Conversely, an accepted proof means that every one of the given values is the value of its polynomial at the point, except with the stated small number of lucky challenges.", "quantifier": "all lists of polynomials of one size, all points, values, transcripts, hash functions and both codes; for the converse all proofs a prover might send", "why_tests_cant": "A test opens a few random polynomials with one transcript; it does not try proofs no honest prover makes, such as one carrying the committed tables or no queries, or values that err with cancelling errors.", "anchors": ["mpcs/src/basefold.rs: batch_commit, simple_batch_open, simple_batch_verify", "mpcs/src/basefold/commit_phase.rs: simple_batch_commit_phase", "mpcs/src/basefold/query_phase.rs: simple_batch_prover_query_phase, simple_batch_verifier_query_phase, simple_batch_basefold_get_query, SimpleBatchQueriesResultWithMerklePath"]}
{"id": "C101", "title": "A loaded ONNX model computes what the ONNX graph computes", "statement": "If the parser accepts an ONNX file and the loaded model runs on an input, the model has as many outputs as the graph, and each is the tensor the ONNX operations of the graph define for that input (convolution, matrix product, bias, ReLU, max pooling, flattening), up to a batch dimension of one.", "quantifier": "all graphs handed over by tract made of these operations with all weights, shapes, names, strides, paddings and dilations; all inputs; all orders of the loader map", "why_tests_cant": "Tests load a few exported files and compare a few inputs; graphs with square matrices, other strides or other constants are unboundedly many.", "anchors": ["zkml/src/parser/onnx.rs:from_inference_model", "zkml/src/parser/onnx.rs:load_gemm", "zkml/src/parser/onnx.rs:load_conv", "zkml/src/parser/onnx.rs:load_relu", "zkml/src/parser/onnx.rs:load_maxpool", "zkml/src/parser/onnx.rs:load_reshape"]}
{"id": "C102", "title": "Loading the same ONNX file always gives the same model", "statement": "Parsing the same ONNX file in two runs of the program gives the same model: the iteration order of hash maps has no effect on it.", "quantifier": "all graphs and all pairs of orders of the loader map", "why_tests_cant": "Hash map orders are random per process; a test sees one of them and cannot force the others.", "anchors": ["zkml/src/parser/onnx.rs:ParserFactory", "zkml/src/parser/onnx.rs:parse_node"]}
{"id": "C103", "title": "Announced output shapes", "statement": "The shapes that a layer announces for its outputs from the shapes of its inputs, before computing anything, are the shapes of the tensors it then computes, one for each output.", "quantifier": "every dense layer, matrix multiplication, addition, reshape, max pooling and float convolution, and all inputs for which the layer announces shapes and computes an output", "why_tests_cant": "The announced shapes are what inference records for the next layers, and the tests only use square images, where a formula that reads one side only is right.", "anchors": ["zkml/src/layers/provable/mod.rs: OpInfo::output_shapes", "zkml/src/layers/dense.rs: Dense::output_shape", "zkml/src/layers/matrix_mul.rs: compute_output_shapes", "zkml/src/layers/add.rs: Add::output_shapes, AddCtx::output_shapes", "zkml/src/layers/pooling.rs: maxpool2d_shape", "zkml/src/layers/convolution.rs: conv2d_shape", "zkml/src/tensor.rs: maxpool2d, conv2d"]}
