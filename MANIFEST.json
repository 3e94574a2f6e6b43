{
 "claims": [
  {
   "property": "C01",
   "status": "proved",
   "theorems": [
    "Props.C01_evaluate_is_mle",
    "Props.C01_evaluate_at_bits",
    "Props.C01_evaluate_wrong_length"
   ],
   "note": "evaluate, with the parallel fixing passes it uses, equals the multilinear extension for every size"
  },
  {
   "property": "C02",
   "status": "proved",
   "theorems": [
    "Props.C02_fix_variables_evaluate",
    "Props.C02_fix_high_variables_evaluate",
    "Props.C02_variants_agree",
    "Props.C02_low_high_commute"
   ],
   "note": "in-place loops are modelled with their stale tails"
  },
  {
   "property": "C03",
   "status": "proved",
   "theorems": [
    "Props.C03_eq_table_parallel",
    "Props.C03_eq_table_sequential",
    "Props.C03_compute_betas",
    "Props.C03_eq_table_sum"
   ],
   "note": "for every thread count and every content of the uninitialised buffers"
  },
  {
   "property": "C04",
   "status": "proved",
   "theorems": [
    "Props.C04_eq_evaluations",
    "Props.C04_eq_on_bits",
    "Props.C04_identity_eval_truncates",
    "Props.C04_length_mismatch_panics"
   ],
   "note": ""
  },
  {
   "property": "C05",
   "status": "partial",
   "theorems": [
    "Props.C05_ranged_fix_partial",
    "Props.C05_ranged_evaluate_false",
    "Props.C05_ranged_fix_false"
   ],
   "note": "false of the code for evaluate, fix_variables_parallel and fix_variables(&[]); negations proved, the remaining paths are proved correct"
  },
  {
   "property": "C06",
   "status": "proved",
   "theorems": [
    "Props.C06_evaluate_built",
    "Props.C06_evaluate_wrong_length"
   ],
   "note": "over every history of builder calls; tables are shared by address as in the code (Arc identity)"
  },
  {
   "property": "C07",
   "status": "proved",
   "theorems": [
    "Props.C07_interpolate",
    "Props.C07_interpolate_at_node",
    "Props.C07_extrapolate"
   ],
   "note": "value outside the nodes, panic at the nodes, and barycentric extrapolation"
  },
  {
   "property": "C08",
   "status": "proved",
   "theorems": [
    "Props.C08_serial_batch_inversion",
    "Props.C08_parallel_batch_inversion"
   ],
   "note": "serial and chunked parallel version for every number of threads"
  },
  {
   "property": "C09",
   "status": "proved",
   "theorems": [
    "Props.C09_generated_message",
    "Props.C09_generated_message_explicit"
   ],
   "note": ""
  },
  {
   "property": "C10",
   "status": "proved",
   "theorems": [
    "Props.C10_honest_accepted",
    "Props.C10_honest_accepted_built",
    "Props.C10_mixed_product_false"
   ],
   "note": "for every transcript, serial and parallel prover; C10_mixed_product_false shows the size restriction is needed: mul_by_mle can build a polynomial whose honest proof is rejected"
  },
  {
   "property": "C11",
   "status": "proved",
   "theorems": [
    "Props.C11_sound",
    "Props.C11_soundness_error"
   ],
   "note": "per-run statement and counting over all adaptive strategies"
  },
  {
   "property": "C12",
   "status": "proved",
   "theorems": [
    "Props.C12_every_schedule",
    "Props.C12_distributed_eq_single",
    "Props.C12_every_schedule_eq_single",
    "Props.C12_single_value_slices_false"
   ],
   "note": "Every schedule of the worker threads terminates within n(4W+3) steps without deadlock in the lock-step result, and the result equals the single prover's. C12_single_value_slices_false: with one-value slices the code returns an empty proof."
  },
  {
   "property": "C13",
   "status": "proved",
   "theorems": [
    "Props.C13_point_ignored",
    "Props.C13_extra_messages_ignored",
    "Props.C13_zero_variables",
    "Props.C13_accepted_shape"
   ],
   "note": ""
  },
  {
   "property": "C14",
   "status": "partial",
   "theorems": [
    "Props.C14_table",
    "Props.C14_lookup_partial",
    "Props.C14_denominator",
    "Props.C14_two_lookups_false"
   ],
   "note": "All table circuits and all lookup circuits of at least four lookups; the circuit of two lookups has only two outputs and reading its fraction panics (C14_two_lookups_false)."
  },
  {
   "property": "C15",
   "status": "proved",
   "theorems": [
    "Props.C15_final_check",
    "Props.C15_complete",
    "Props.C15_sound"
   ],
   "note": "Completeness with the prover's multiplicities, and soundness for arbitrary columns and multiplicities counted over both challenges."
  },
  {
   "property": "C16",
   "status": "partial",
   "theorems": [
    "Props.C16_table_partial",
    "Props.C16_lookup_partial",
    "Props.C16_batch_error",
    "Props.C16_last_batch_error",
    "Props.C16_output_error",
    "Props.C16_zero_rounds_false",
    "Props.C16_unbound_evaluations_false"
   ],
   "note": "Round-by-round soundness with explicit lucky events and their counts, for proofs with the expected rounds and honest points; negations: rounds not required, evaluations not bound by the transcript."
  },
  {
   "property": "C17",
   "status": "partial",
   "theorems": [
    "Props.C17_partial",
    "Props.C17_extra_false",
    "Props.C17_missing_false"
   ],
   "note": "Holds when there are as many table proofs as tables; the verifier does not compare the numbers (C17_extra_false, C17_missing_false)."
  },
  {
   "property": "C18",
   "status": "proved",
   "theorems": [
    "Props.C18_round_trip",
    "Props.C18_dot",
    "Props.C18_add",
    "Props.C18_mul",
    "Props.C18_i64_extremes_false"
   ],
   "note": "For every modulus; instance Goldilocks. The i64 values beyond (p-1)/2 do not survive (C18_i64_extremes_false)."
  },
  {
   "property": "C19",
   "status": "proved",
   "theorems": [
    "Props.C19_in_range",
    "Props.C19_monotone",
    "Props.C19_accuracy",
    "Props.C19_round_trip",
    "Props.C19_tensor_scale"
   ],
   "note": "Exact rational arithmetic in place of f32."
  },
  {
   "property": "C20",
   "status": "partial",
   "theorems": [
    "Props.C20_op",
    "Props.C20_no_overflow",
    "Props.C20_monotone",
    "Props.C20_accuracy",
    "Props.C20_from_multiplier_partial",
    "Props.C20_from_multiplier_large_false",
    "Props.C20_overflow_false"
   ],
   "note": "Rounding, monotonicity, accuracy and absence of overflow for every accumulator below 2^(bits-1). The fixed-point multiplier is correct only for multipliers below 2 (C20_from_multiplier_large_false), and the largest values accepted overflow (C20_overflow_false)."
  },
  {
   "property": "C21",
   "status": "partial",
   "theorems": [
    "Props.C21_witness",
    "Props.C21_in_table",
    "Props.C21_accepted_unprovable_false",
    "Props.C21_unique"
   ],
   "note": "Honest witness, exact characterisation of the inputs in the clamping table, and uniqueness. False as stated: the inference accepts values whose clamping input is not in the table (C21_accepted_unprovable_false)."
  },
  {
   "property": "C22",
   "status": "partial",
   "theorems": [
    "Props.C22_dense_partial",
    "Props.C22_dense_bias_false",
    "Props.C22_conv_partial",
    "Props.C22_conv_bias_false",
    "Props.C22_matmul",
    "Props.C22_matmul_unprovable_false"
   ],
   "note": "Bounds for all three layers; false for large quantized biases (C22_dense_bias_false, C22_conv_bias_false), and the matrix multiplication size admits accumulators that cannot be proved (C22_matmul_unprovable_false)."
  },
  {
   "property": "C23",
   "status": "proved",
   "theorems": [
    "Props.C23_closed_forms",
    "Props.C23_verify_table",
    "Props.C23_rows"
   ],
   "note": "All table types in one statement, including the committed column; and the table part of the verifier."
  },
  {
   "property": "C24",
   "status": "partial",
   "theorems": [
    "Props.C24_rows",
    "Props.C24_merged",
    "Props.C24_domains",
    "Props.C24_error_table_max_false",
    "Props.C24_error_table_zero_false"
   ],
   "note": "Exact rows of every table and injectivity of the merged encoding; false for the error table (C24_error_table_max_false, C24_error_table_zero_false)."
  },
  {
   "property": "C25",
   "status": "partial",
   "theorems": [
    "Props.C25_positions",
    "Props.C25_access",
    "Props.C25_access_4d",
    "Props.C25_rejects_partial",
    "Props.C25_last_index_false"
   ],
   "note": "Positions (strides, bijection) and access in range are proved for every shape; rejection of out-of-range indices is proved for all indices but the last. The code does not check the last index: C25_last_index_false."
  },
  {
   "property": "C26",
   "status": "proved",
   "theorems": [
    "Props.C26_transpose",
    "Props.C26_transpose_twice",
    "Props.C26_permute",
    "Props.C26_reshape"
   ],
   "note": "Transpose, double transpose, all six axis permutations, reshape."
  },
  {
   "property": "C27",
   "status": "proved",
   "theorems": [
    "Props.C27_matmul",
    "Props.C27_matvec",
    "Props.C27_rejects",
    "Props.C27_row_vector_rejected"
   ],
   "note": "Entries of matmul and matvec, rejection of unfitting shapes; C27_row_vector_rejected records that [1,n] vectors are refused although is_vector accepts them."
  },
  {
   "property": "C28",
   "status": "proved",
   "theorems": [
    "Props.C28_pad_to_shape",
    "Props.C28_next_power_of_two",
    "Props.C28_same"
   ],
   "note": "Both padding algorithms, every rank; in-place and recursive agree. Hypothesis: no dimension is zero (the code underflows or divides by zero otherwise)."
  },
  {
   "property": "C29",
   "status": "proved",
   "theorems": [
    "Props.C29_matmul",
    "Props.C29_dense",
    "Props.C29_garbage"
   ],
   "note": "Padded matmul, padded dense layer with bias, and the garbage-ignoring matrix for arbitrary garbage."
  },
  {
   "property": "C30",
   "status": "proved",
   "theorems": [
    "Props.C30_maxpool"
   ],
   "note": "Every rank >= 2, kernel no larger than either dimension, positive stride."
  },
  {
   "property": "C31",
   "status": "proved",
   "theorems": [
    "Props.C31_root",
    "Props.C31_forward",
    "Props.C31_inverse",
    "Props.C31_convolution",
    "Props.C31_lengths"
   ],
   "note": "Forward transform is the DFT for every length 2^k with 1 <= k <= two-adicity, inverse undoes it both ways, products give cyclic convolutions; lengths below two or above the two-adicity panic."
  },
  {
   "property": "C32",
   "status": "partial",
   "theorems": [
    "Props.C32_direct",
    "Props.C32_layer_partial",
    "Props.C32_large_kernel_panics"
   ],
   "note": "Proved for every size with the padded kernel smaller than the padded input (or of size one), for all contents including garbage in the padding, with results below half of the field; the code panics when the padded kernel is as large as the padded input (C32_large_kernel_panics)."
  },
  {
   "property": "C33",
   "status": "proved",
   "theorems": [
    "Props.C33_argmax",
    "Props.C33_argmax_empty",
    "Props.C33_tensor_argmax",
    "Props.C33_negative_infinity_false"
   ],
   "note": "Both argmax functions; the tensor method needs the start value to be a lower bound, C33_negative_infinity_false shows the float case."
  },
  {
   "property": "C34",
   "status": "partial",
   "theorems": [
    "Props.C34_broadcast_shape",
    "Props.C34_broadcast_symmetric",
    "Props.C34_concat_slice",
    "Props.C34_concat_slice_2d",
    "Props.C34_slice_on_dim",
    "Props.C34_stack_all",
    "Props.C34_expand",
    "Props.C34_expand_rejects",
    "Props.C34_concat_unchecked_false"
   ],
   "note": "Concat/slice round trips, slices partition the data, stacking, expand by broadcasting rules with rejection. concat does not compare the other dimensions: C34_concat_unchecked_false."
  },
  {
   "property": "C35",
   "status": "partial",
   "theorems": [
    "Props.C35_dense_complete",
    "Props.C35_dense_sound_partial",
    "Props.C35_dense_soundness_error_partial",
    "Props.C35_extra_factor_false"
   ],
   "note": "Honest proofs accepted; sound (per run and counted over all strategies) only if the proof carries exactly two individual claims. The verifier does not check that: C35_extra_factor_false makes any output claim pass with true claims passed on."
  },
  {
   "property": "C36",
   "status": "partial",
   "theorems": [
    "Props.C36_matmul_complete",
    "Props.C36_matmul_sound_partial",
    "Props.C36_matmul_soundness_error_partial",
    "Props.C36_extra_factor_false"
   ],
   "note": "As C35, for all combinations of constant operands, transposition and bias; C36_extra_factor_false is the attack."
  },
  {
   "property": "C37",
   "status": "partial",
   "theorems": [
    "Props.C37_input_and_filter_unbound_false",
    "Props.C37_clearing_partial"
   ],
   "note": "The statement is false of the code: the verifier discards the results of every sumcheck after the clearing step, so an accepted proof of an output claim exists for every input and filter (C37_input_and_filter_unbound_false). Proved: the clearing of garbage entries (C37_clearing_partial). Missing: any link between output, input and filter, which the code does not establish."
  },
  {
   "property": "C38",
   "status": "partial",
   "theorems": [
    "Props.C38_window",
    "Props.C38_pooling_partial",
    "Props.C38_batch_error",
    "Props.C38_equal_challenges_false",
    "Props.C38_row_width_false"
   ],
   "note": "The window argument (range + zero product implies maximum) and the batched protocol equation are proved; false as stated because both window coordinates are one challenge, and the row width is the prover's."
  },
  {
   "property": "C39",
   "status": "partial",
   "theorems": [
    "Props.C39_commitments_dropped_false",
    "Props.C39_requant_any_claim_false",
    "Props.C39_activation_partial",
    "Props.C39_requant_partial"
   ],
   "note": "False as stated: numbers of commitments and evaluations are not checked; proved what holds when they are right."
  },
  {
   "property": "C40",
   "status": "partial",
   "theorems": [
    "Props.C40_same_poly_complete",
    "Props.C40_same_poly_sound_partial",
    "Props.C40_same_poly_soundness_error_partial",
    "Props.C40_prover_point_false"
   ],
   "note": "Completeness; soundness and the error bound for proofs whose point is the challenge point. The verifier takes the point from the proof, and C40_prover_point_false shows a false claim accepted against every transcript."
  },
  {
   "property": "C41",
   "status": "proved",
   "theorems": [
    "Props.C41_all_opened",
    "Props.C41_prover_in_step",
    "Props.C41_complete",
    "Props.C41_unknown_claim_ignored",
    "Props.C41_routing_disagrees"
   ],
   "note": "Soundness of the bookkeeping for every call history (each committed weight and table claimed exactly once and every claim checked), completeness, prover and verifier in step. Also proved: claims for unknown polynomial ids are dropped silently, and prover and verifier route by different criteria."
  },
  {
   "property": "C42",
   "status": "proved",
   "theorems": [
    "Props.C42_batch_base",
    "Props.C42_batch_ext",
    "Props.C42_single_base",
    "Props.C42_single_ext",
    "Props.C42_not_power_of_two"
   ],
   "note": "For every batch of polynomials over the base or extension field, and for single ones."
  },
  {
   "property": "C43",
   "status": "partial",
   "theorems": [
    "Props.C43_binding_partial",
    "Props.C43_committed_base_partial",
    "Props.C43_committed_ext_partial",
    "Props.C43_short_path_false"
   ],
   "note": "Binding with collision extraction is proved for paths of equal length. The second half is false: the length of a path is not checked, and a pair of elements of the quadratic extension is not hashed, so an inner digest is accepted as a leaf pair (C43_short_path_false)."
  },
  {
   "property": "C44",
   "status": "proved",
   "theorems": [
    "Props.C44_rs_fold",
    "Props.C44_rs_codeword",
    "Props.C44_basecode_fold",
    "Props.C44_basecode_coeffs",
    "Props.C44_basecode_zero_panics"
   ],
   "note": "Both codes after setup and trim, every size between the base code and the maximum. The random code needs non-zero key-stream entries (negation: setup panics otherwise)."
  },
  {
   "property": "C45",
   "status": "proved",
   "theorems": [
    "Props.C45_interpolate",
    "Props.C45_single_entry_panics",
    "Props.C45_one_level"
   ],
   "note": "Every table with at least two entries and every point; a single entry panics (stated)."
  },
  {
   "property": "C46",
   "status": "partial",
   "theorems": [
    "Props.C46_no_queries_false",
    "Props.C46_no_queries_basecode_false",
    "Props.C46_inner_layer_false",
    "Props.C46_sumcheck_partial",
    "Props.C46_lucky_partial",
    "Props.C46_queries_partial",
    "Props.C46_trivial_partial"
   ],
   "note": "Negations: no queries needed (any digest, any value), and inner hash layers accepted as a trivial opening. Proved: sumcheck part up to lucky challenges (at most two per round), what each supplied query establishes, and for an opening that carries a table of the committed size that the value is that of the committed table or named hash calls collide (C46_trivial_partial). Missing: proximity, not implied by the code's checks."
  },
  {
   "property": "C47",
   "status": "proved",
   "theorems": [
    "Props.C47_rs",
    "Props.C47_basecode"
   ],
   "note": "Commit, open and verify of one polynomial over the extension field, for both codes, every size, point, transcript and hash: accepted with the value of the multilinear extension, same final transcript. Base code of at least two message symbols (the code uses 2^7)."
  },
  {
   "property": "C48",
   "status": "proved",
   "theorems": [
    "Props.C48_forward",
    "Props.C48_backward",
    "Props.C48_complete",
    "Props.C48_deterministic",
    "Props.C48_owned"
   ],
   "note": "Both iterators (and their owning versions) yield every node from which no cycle is reachable, exactly once, dependencies first, independently of the hash map's order."
  },
  {
   "property": "C49",
   "status": "partial",
   "theorems": [
    "Props.C49_symmetric",
    "Props.C49_fresh_id",
    "Props.C49_built_complete",
    "Props.C49_failed_insertion_partial",
    "Props.C49_failed_insertion_false",
    "Props.C49_id_reused_false"
   ],
   "note": "Every model built by successful calls records each connection exactly once at both ends and has no cycle. A failed insertion leaves the model with the edges pushed before the error, and insertion under an id in use overwrites the node: both proved as negations."
  },
  {
   "property": "C50",
   "status": "partial",
   "theorems": [
    "Props.C50_shape",
    "Props.C50_symmetric",
    "Props.C50_dataflow",
    "Props.C50_fan_out_false",
    "Props.C50_too_few_false"
   ],
   "note": "Shape, symmetry and dataflow meaning proved when there is one requantisation layer per output. Negations proved: with fan-out including a model output the new model cannot be run; with fewer layers than outputs edges dangle."
  },
  {
   "property": "C51",
   "status": "partial",
   "theorems": [
    "Props.C51_insert_then_get_partial",
    "Props.C51_model_then_model_partial",
    "Props.C51_other_keys",
    "Props.C51_no_overwrite_partial",
    "Props.C51_head_failure_overwrites_false",
    "Props.C51_race_false",
    "Props.C51_failed_insert_stored_false",
    "Props.C51_mem_get",
    "Props.C51_mem_model",
    "Props.C51_mem_overwrites_false"
   ],
   "note": "Without the file cache a successful insertion or initialisation is returned by every later read, over every history with any failures except a failing head request; other keys are unaffected. False in general: a failing head request or two concurrent workers silently overwrite, a failed insertion may have stored its value, the in-memory store overwrites."
  },
  {
   "property": "C52",
   "status": "partial",
   "theorems": [
    "Props.C52_cache_returns_nothing_false",
    "Props.C52_insert_get_false",
    "Props.C52_retry_false",
    "Props.C52_same_or_error_partial",
    "Props.C52_every_job_fails_false"
   ],
   "note": "False: with the cache enabled no value is ever returned and every job fails, over every history; proved in general. What holds: an operation with the cache fails or agrees with the one without."
  },
  {
   "property": "C53",
   "status": "partial",
   "theorems": [
    "Props.C53_model_keys_partial",
    "Props.C53_params_keys",
    "Props.C53_kinds",
    "Props.C53_empty_hash_false",
    "Props.C53_version_false"
   ],
   "note": "Keys are injective for non-empty hashes (given an injective percent encoding of segments). False for an empty input hash against none, and across package versions for models."
  },
  {
   "property": "C54",
   "status": "partial",
   "theorems": [
    "Props.C54_accounting_partial",
    "Props.C54_drained_partial",
    "Props.C54_order_false",
    "Props.C54_starvation_false",
    "Props.C54_failure_unanswered_false",
    "Props.C54_anonymous_false"
   ],
   "note": "Accounting over every schedule: nothing lost, nothing twice. False: order is last-in first-out, starvation for any number of rounds, failed requests are never answered, proofs are anonymous."
  },
  {
   "property": "C55",
   "status": "partial",
   "theorems": [
    "Props.C55_grpc_ids_partial",
    "Props.C55_grpc_replies_partial",
    "Props.C55_grpc_undecodable_false",
    "Props.C55_http_replies_partial",
    "Props.C55_http_at_least_once_partial",
    "Props.C55_http_duplicate_false",
    "Props.C55_http_fetch_false",
    "Props.C55_proofs_partial",
    "Props.C55_one_proof_per_input",
    "Props.C55_input_dropped_false",
    "Props.C55_load_error_false",
    "Props.C55_fresh_job",
    "Props.C55_race_false"
   ],
   "note": "One reply per message in order for both clients when messages decode and sends succeed; proofs are exactly those of the inputs whose run succeeds. False: an undecodable message or a failed fetch ends the worker, duplicates, dropped inputs, a race on the parameters fails a provable job."
  },
  {
   "property": "C56",
   "status": "partial",
   "theorems": [
    "Props.C56_same_history",
    "Props.C56_binding_partial",
    "Props.C56_padding_false",
    "Props.C56_padding_default_false",
    "Props.C56_message_false",
    "Props.C56_label",
    "Props.C56_blake_ext_false",
    "Props.C56_blake_kind_false"
   ],
   "note": "Same flat history => same challenges and state. Different histories of the same shape feed the permutation different inputs before the next challenge or exhibit a capacity collision. ASCII labels are absorbed injectively. Negations: no padding (appending what the state holds is unnoticed, e.g. zeros on the default transcript), zero-padded byte messages, the BLAKE3 transcript's variable-length elements and prefix labels."
  },
  {
   "property": "C57",
   "status": "partial",
   "theorems": [
    "Props.C57_weights_partial",
    "Props.C57_same_start",
    "Props.C57_false",
    "Props.C57_forgery_false"
   ],
   "note": "Only the commitments to the weights are absorbed (injectively). Negation: all challenges before the first layer are the same for every input, every output of the same size, every table commitment, every lookup witness commitment; and with the challenges known beforehand a prover passes the lookup test with rows that are not in the table."
  },
  {
   "property": "C58",
   "status": "partial",
   "theorems": [
    "Props.C58_claims_follow_edges",
    "Props.C58_no_claim_lost",
    "Props.C58_input_claims",
    "Props.C58_input_indices",
    "Props.C58_fan_out_fails"
   ],
   "note": "Every layer is called once with exactly the claims of the inputs its outputs are connected to; no claim is lost; input claims are exact. An output used twice or not at all makes the pass fail (proved)."
  },
  {
   "property": "C59",
   "status": "proved",
   "theorems": [
    "Props.C59_add_complete",
    "Props.C59_add_sound",
    "Props.C59_zero_multiplier_false",
    "Props.C59_reshape_shapes",
    "Props.C59_reshape",
    "Props.C59_flatten"
   ],
   "note": "Addition: completeness and soundness for every tensor, multiplier and point, static operand or not; a static operand needs a non-zero multiplier (C59_zero_multiplier_false). Reshape and flatten: the data is kept, so claims pass through unchanged. Permutation as evaluation is C26_permute."
  },
  {
   "property": "C60",
   "status": "proved",
   "theorems": [
    "Props.C60_relu"
   ],
   "note": "For every bit length."
  },
  {
   "property": "C61",
   "status": "partial",
   "theorems": [
    "Props.C61_matvec_complete",
    "Props.C61_matvec_unchecked_false"
   ],
   "note": "Honest proofs accepted. Soundness is false: C61_matvec_unchecked_false (the sumcheck's final value is never checked)."
  },
  {
   "property": "C62",
   "status": "partial",
   "theorems": [
    "Props.C62_hadamard_complete",
    "Props.C62_hadamard_sound_partial",
    "Props.C62_prover_point_false"
   ],
   "note": "Completeness; soundness for proofs whose point is the challenge point. The verifier takes the point from the proof, and C62_prover_point_false shows a false claim accepted against every transcript."
  },
  {
   "property": "C63",
   "status": "partial",
   "theorems": [
    "Props.C63_bias_scale",
    "Props.C63_matmul_bias_false",
    "Props.C63_matmul_partial"
   ],
   "note": "Proved for dense and convolution; false for matrix multiplication (C63_matmul_bias_false), where it holds only if output and weight scale agree."
  },
  {
   "property": "C64",
   "status": "partial",
   "theorems": [
    "Props.C64_partial",
    "Props.C64_cross_table_false"
   ],
   "note": "A lookup whose fingerprint is in no table is caught; rows of different tables are not separated (C64_cross_table_false)."
  },
  {
   "property": "C65",
   "status": "partial",
   "theorems": [
    "Props.C65_same_layer_partial",
    "Props.C65_small_frame_panics"
   ],
   "note": "False: padding passes the output shape where the input shape is needed; whenever the resulting frame is smaller than the padded input every evaluation panics (C65_small_frame_panics). Holds when the output is larger than half of the padded input (C65_same_layer_partial)."
  },
  {
   "property": "C66",
   "status": "proved",
   "theorems": [
    "Props.C66_run_sound",
    "Props.C66_run_complete",
    "Props.C66_built"
   ],
   "note": "Sound and complete with respect to the dataflow equations."
  },
  {
   "property": "C67",
   "status": "partial",
   "theorems": [
    "Props.C67_outputs_partial",
    "Props.C67_output_dropped_false"
   ],
   "note": "Proved when nodes with an output going outside have only such outputs, each once; otherwise a declared output is silently dropped (negation proved)."
  },
  {
   "property": "C68",
   "status": "partial",
   "theorems": [
    "Props.C68_outputs_bound_partial",
    "Props.C68_output_unbound_false"
   ],
   "note": "Proved when no node has two outputs going outside; otherwise an output stays unbound (negation proved)."
  },
  {
   "property": "C69",
   "status": "partial",
   "theorems": [
    "Props.C69_same_challenges_partial",
    "Props.C69_single_output",
    "Props.C69_order_false"
   ],
   "note": "Proved for visits in index order and for single-output models; false for other hash map orders (negation proved)."
  },
  {
   "property": "C70",
   "status": "partial",
   "theorems": [
    "Props.C70_strategy_ignored_false"
   ],
   "note": "False: proved that on a fresh store the requested strategy and calibration hash have no influence on the outcome, for every environment. The positive property does not hold of the code."
  },
  {
   "property": "C71",
   "status": "partial",
   "theorems": [
    "Props.C71_accuracy_partial",
    "Props.C71_range_partial",
    "Props.C71_range_false",
    "Props.C71_dropped_false"
   ],
   "note": "Proved for scales of at most one (accuracy) and operands between -1 and 1 (range). False for scales above one (C71_dropped_false) and for larger ranges (C71_range_false). Scales are reals in the model; the code uses f32."
  },
  {
   "property": "C72",
   "status": "partial",
   "theorems": [
    "Props.C72_split_partial",
    "Props.C72_squeeze",
    "Props.C72_false"
   ],
   "note": "Proved for splitting off or merging a power-of-two inner dimension and for inserting a dimension of size one; false when the inner size is not a power of two (C72_false)."
  },
  {
   "property": "C73",
   "status": "partial",
   "theorems": [
    "Props.C73_rows",
    "Props.C73_complete",
    "Props.C73_input_claim",
    "Props.C73_sound",
    "Props.C73_soundness_error",
    "Props.C73_alias_false"
   ],
   "note": "Inference, completeness and soundness (with the exact count) are proved. False in one respect: tokens are only compared modulo the padded vocabulary size, so soundness carries the hypothesis that every public token is in range (C73_alias_false)."
  },
  {
   "property": "C74",
   "status": "partial",
   "theorems": [
    "Props.C74_evaluate",
    "Props.C74_complete",
    "Props.C74_sound_partial",
    "Props.C74_forged_false",
    "Props.C74_overwritten_false"
   ],
   "note": "Inference and completeness are proved. Soundness is false in two ways (C74_forged_false, C74_overwritten_false); C74_sound_partial holds for one input and true sub-matrix evaluations."
  },
  {
   "property": "C75",
   "status": "partial",
   "theorems": [
    "Props.C75_evaluate",
    "Props.C75_padding_false",
    "Props.C75_sound",
    "Props.C75_meaning",
    "Props.C75_complete",
    "Props.C75_zero_false",
    "Props.C75_alias_false"
   ],
   "note": "Inference, soundness relative to the lookup claim and completeness are proved. False in three respects: no proof exists for all-zero logits (C75_zero_false), outputs are compared only modulo the padded number of columns (C75_alias_false), and a padded row of negative logits gets a padding column (C75_padding_false). Ties: C75_complete shows that every position of a maximum is provable, not only the first."
  },
  {
   "property": "C76",
   "status": "partial",
   "theorems": [
    "Props.C76_evaluate",
    "Props.C76_complete",
    "Props.C76_sound_partial",
    "Props.C76_extra_factor_false"
   ],
   "note": "inference and completeness in full; soundness needs three individual claims, which the verifier does not check (C76_extra_factor_false proves the forgery)"
  },
  {
   "property": "C77",
   "status": "partial",
   "theorems": [
    "Props.C77_evaluate",
    "Props.C77_padding",
    "Props.C77_announced_shape_iff",
    "Props.C77_wrong_columns_rejected",
    "Props.C77_complete",
    "Props.C77_sound_partial",
    "Props.C77_prover_point_false"
   ],
   "note": "Inference, padding and completeness are proved; the announced padded shape is right only for at least 3 heads of dimension at least 3 (C77_announced_shape_iff); soundness needs the aggregation's point to be the challenge point, which the verifier does not check (C77_prover_point_false)."
  },
  {
   "property": "C78",
   "status": "proved",
   "theorems": [
    "Props.C78_mask_shapes",
    "Props.C78_mask_apply",
    "Props.C78_mask_mismatch",
    "Props.C78_mask_pad",
    "Props.C78_mask_padded_apply",
    "Props.C78_mask_eval",
    "Props.C78_zeroifier"
   ],
   "note": "Shapes, application, padding, the verifier's closed forms and the agreement of the two constructions are proved for all sizes."
  },
  {
   "property": "C79",
   "status": "partial",
   "theorems": [
    "Props.C79_evaluate",
    "Props.C79_shapes",
    "Props.C79_causal",
    "Props.C79_softmax_partial",
    "Props.C79_digits",
    "Props.C79_mask_leaks_false",
    "Props.C79_wrap_false",
    "Props.C79_chunks_partial",
    "Props.C79_chunks_false",
    "Props.C79_row_sum_partial"
   ],
   "note": "Causality and padding-independence, the shape of every output, digits and their recombination are proved without restriction. The table values and the exact zeros hold when the table has room beyond the cut-off and scores stay within the range of the tables; C79_mask_leaks_false, C79_wrap_false and C79_chunks_false give the cases where they fail. The row sum is proved with exact real arithmetic up to an error parameter for the f32 logarithm."
  },
  {
   "property": "C80",
   "status": "partial",
   "theorems": [
    "Props.C80_inference_partial",
    "Props.C80_softmax_partial",
    "Props.C80_after_lookups_partial",
    "Props.C80_extra_lookup_false",
    "Props.C80_unopened_false",
    "Props.C80_complete_partial",
    "Props.C80_many_chunks_false",
    "Props.C80_few_rows_false"
   ],
   "note": "C80_softmax_partial: on acceptance, unless a sumcheck challenge was lucky, the batched differences between the opened columns and the looked-up values (including block sums and the output claim) vanish and the columns recombine to minus the masked scores of the returned claim. C80_complete_partial: the honest prover, with the real lookup prover, makes an accepted proof with true claims for at most three zero-table chunks and at least four rows, barring unlucky challenges for which an inversion panics. C80_inference_partial: the same from the quantised evaluation, when the masked scores are within the tables. Outside these bounds the prover always fails (C80_many_chunks_false, C80_few_rows_false). False: extra lookup proofs are ignored by the verifier but summed (C80_extra_lookup_false); the columns of the zero table need not be opened (C80_unopened_false); the number of summed entries is chosen by the prover (C80_after_lookups_partial holds for every e)."
  },
  {
   "property": "C81",
   "status": "partial",
   "theorems": [
    "Props.C81_evaluate",
    "Props.C81_causal_partial",
    "Props.C81_padding_partial",
    "Props.C81_garbage",
    "Props.C81_then_matrix_partial",
    "Props.C81_leak_false"
   ],
   "note": "C81_evaluate and C81_garbage hold for every shape. Causality and padding (C81_causal_partial, C81_padding_partial, C81_then_matrix_partial) need an exponential table with room beyond the cut-off, which the code does not ensure; without it later positions leak with the largest weight (C81_leak_false)."
  },
  {
   "property": "C82",
   "status": "partial",
   "theorems": [
    "Props.C82_inference_partial",
    "Props.C82_mha_partial",
    "Props.C82_complete_partial",
    "Props.C82_many_chunks_false",
    "Props.C82_few_rows_false"
   ],
   "note": "C82_mha_partial composes the two products and the softmax: on acceptance the output claim is true of the values weighted by the looked-up table, or one of the named error events happened; it inherits the assumptions of C76_sound_partial (three individual claims) and C80_softmax_partial. C82_complete_partial: the honest prover, with the real lookup prover, makes an accepted proof with true claims for at most three zero-table chunks and at least four rows in all heads; outside these bounds it always fails (C82_many_chunks_false, C82_few_rows_false). C82_inference_partial: from the quantised evaluation of the layer to an accepted proof."
  },
  {
   "property": "C83",
   "status": "partial",
   "theorems": [
    "Props.C83_evaluate",
    "Props.C83_mismatch",
    "Props.C83_shift",
    "Props.C83_witness",
    "Props.C83_padding_partial",
    "Props.C83_padded_rows_false",
    "Props.C83_sizes",
    "Props.C83_zero_bias_false",
    "Props.C83_chunks",
    "Props.C83_accuracy"
   ],
   "note": "what is computed, shift invariance, witness recomposition, chunks, sizes and padding of the row length are proved for all inputs; rows added by padding come out as beta instead of zero and a zero beta makes quantisation panic, both proved as _false"
  },
  {
   "property": "C84",
   "status": "partial",
   "theorems": [
    "Props.C84_layernorm_partial",
    "Props.C84_after_lookups_partial",
    "Props.C84_forged_false",
    "Props.C84_index_false",
    "Props.C84_unopened_false",
    "Props.C84_complete_partial",
    "Props.C84_few_rows_false",
    "Props.C84_inference_partial"
   ],
   "note": "what acceptance implies given evaluations of columns, and completeness of the whole step with its lookup proofs (C84_complete_partial, C84_inference_partial from the quantised evaluation, C84_after_lookups_partial given true lookup claims), are proved for all inputs of at least four rows; with fewer rows the prover always fails (C84_few_rows_false); that the looked-up rows belong to the input is false: accEvals is not tied to the openings and its length is unchecked (C84_forged_false), the chunks do not determine the index (C84_index_false), commitments may be missing (C84_unopened_false)"
  },
  {
   "property": "C85",
   "status": "partial",
   "theorems": [
    "Props.C85_dense_partial",
    "Props.C85_dense_garbage_partial",
    "Props.C85_dense_rows_false",
    "Props.C85_dense_small_false",
    "Props.C85_dense_shape_partial",
    "Props.C85_dense_shape_false",
    "Props.C85_matmul_right",
    "Props.C85_matmul_left",
    "Props.C85_matmul_inputs",
    "Props.C85_matmul_transposed_partial",
    "Props.C85_matmul_transposed_false",
    "Props.C85_matmul_left_transposed_false",
    "Props.C85_bias_transposed_false",
    "Props.C85_bias_rows_false",
    "Props.C85_matmul_garbage"
   ],
   "note": "Proved: dense layers on inputs padded to at least four entries (the entries first, anything after), dense layers after a convolution, the announced shapes for three or more outputs, matrix multiplication with weights on either side, two inputs with and without transposition, transposed weights with no more outputs than padded inputs, weights after multi-head attention. False of the code, with proofs: inputs of several dimensions whose last dimension is padded, inputs of one or two entries, announced shape for one or two outputs, transposed weights with more outputs than padded inputs, weights times transposed input, bias with transposed weights, added rows hold the bias."
  },
  {
   "property": "C86",
   "status": "partial",
   "theorems": [
    "Props.C86_rs_partial",
    "Props.C86_basecode_partial",
    "Props.C86_unclaimed_false",
    "Props.C86_unused_point_false",
    "Props.C86_no_queries_false",
    "Props.C86_no_queries_basecode_false",
    "Props.C86_sumcheck_partial",
    "Props.C86_weights_partial",
    "Props.C86_round_partial",
    "Props.C86_degree_false",
    "Props.C86_queries_partial"
   ],
   "note": "Completeness for both codes (C86_rs_partial, C86_basecode_partial): all sizes above the base code, any claims such that every point is used and the largest polynomial has a point of its size; without these conditions the honest proof is refused or the prover panics (C86_unclaimed_false, C86_unused_point_false). Soundness is false: proofs without queries are accepted for any digests and values (C86_no_queries_false). Proved: values right or a named lucky event, given that the final message belongs to the committed tables (C86_sumcheck_partial), bounds on the number of lucky challenges, and what each supplied query establishes. Missing: proximity, not implied by the code's checks; a message of the first sumcheck may have any number of coefficients (C86_degree_false)."
  },
  {
   "property": "C87",
   "status": "partial",
   "theorems": [
    "Props.C87_lookups_partial",
    "Props.C87_shapes_partial",
    "Props.C87_sound_partial",
    "Props.C87_complete_partial",
    "Props.C87_single_sound_partial",
    "Props.C87_wrong_output_count",
    "Props.C87_wrong_output_false",
    "Props.C87_additive_sound_partial",
    "Props.C87_additive_complete_partial",
    "Props.C87_reshape_false",
    "Props.C87_schoolbook_rejected",
    "Props.C87_logits_false"
   ],
   "note": "Soundness is proved relative to the soundness of each call of a layer's verifier (C87_sound_partial, C87_single_sound_partial) and outright for models of additions and flattenings (C87_additive_sound_partial); completeness likewise. Not covered: Logits, Embeddings at inputs, nodes with several outputs of the model. False as stated: the output challenges do not depend on the outputs (C87_wrong_output_false), Reshape nodes make every proof fail (C87_reshape_false), Logits puts prover and verifier out of step (C87_logits_false)."
  },
  {
   "property": "C88",
   "status": "partial",
   "theorems": [
    "Props.C88_greedy_partial",
    "Props.C88_unique",
    "Props.C88_answers",
    "Props.C88_window_false",
    "Props.C88_context_false"
   ],
   "note": "false for a prompt that fills the window set by with_max_context (the empty trace is returned, C88_window_false) and the window may exceed the context of the model (C88_context_false)"
  },
  {
   "property": "C89",
   "status": "partial",
   "theorems": [
    "Props.C89_scalings_partial",
    "Props.C89_output_scalings",
    "Props.C89_before_requant_false"
   ],
   "note": "proved for every input and output along the edges; false for the output of a node followed by a requantisation node, whose factor is that after requantisation (C89_before_requant_false)"
  },
  {
   "property": "C90",
   "status": "partial",
   "theorems": [
    "Props.C90_nodes_partial",
    "Props.C90_sizes",
    "Props.C90_inputs_partial",
    "Props.C90_chosen",
    "Props.C90_collision_false"
   ],
   "note": "Proved for every node other than 10000 and, for models without a node 10000, for every input; false for models with a node of that id (C90_collision_false). The runs are those of the graph model; f32 rounding is not modelled."
  },
  {
   "property": "C91",
   "status": "partial",
   "theorems": [
    "Props.C91_dense_partial",
    "Props.C91_relu",
    "Props.C91_pooling",
    "Props.C91_gelu_partial",
    "Props.C91_gelu_covers",
    "Props.C91_gelu_false",
    "Props.C91_gelu_range_false",
    "Props.C91_embeddings_partial",
    "Props.C91_embeddings_false",
    "Props.C91_matmul_right_partial",
    "Props.C91_matmul_left_partial",
    "Props.C91_matmul_inputs_partial",
    "Props.C91_matmul_bias_false",
    "Props.C91_conv_partial"
   ],
   "note": "Proved for dense layers, matrix multiplications without bias and convolutions (within stated rounding bounds, multiplier below two, biases that fit), exactly for the rectifier and maximum pooling. False for matrix multiplications with a bias, which is quantised with the factor of the output instead of that of the weights (C91_matmul_bias_false gives the exact deviation), for GELU, which announces the factor of its input although its values have the factor 1/MAX, and for embeddings, which announce the observed factor although the table was quantised with its own. Other layers are not covered here (their quantised evaluation is in C71, C79, C83)."
  },
  {
   "property": "C92",
   "status": "partial",
   "theorems": [
    "Props.C92_table",
    "Props.C92_lookup",
    "Props.C92_short_lookup_false"
   ],
   "note": "Completeness of the lookup argument with the prover of the code (no longer a parameter): C92_table for every table, C92_lookup for every list of groups of columns with at least four rows. Missing: columns of one or two rows, for which the claim is false (C92_short_lookup_false: the prover panics)."
  },
  {
   "property": "C93",
   "status": "partial",
   "theorems": [
    "Props.C93_relu",
    "Props.C93_gelu_partial",
    "Props.C93_other_value_rejected",
    "Props.C93_gelu_false"
   ],
   "note": "Proved for ReLU. False for GELU: prover and verifier register different values for the column of scaled inputs (C93_gelu_false); C93_gelu_partial is what remains."
  },
  {
   "property": "C94",
   "status": "proved",
   "theorems": [
    "Props.C94_requant"
   ],
   "note": "Completeness of the requantisation proof with the real lookup prover, columns of at least four rows."
  },
  {
   "property": "C95",
   "status": "proved",
   "theorems": [
    "Props.C95_pooling"
   ],
   "note": "Completeness of the pooling proof with the real lookup prover, outputs of at least four entries."
  },
  {
   "property": "C96",
   "status": "proved",
   "theorems": [
    "Props.C96_complete"
   ],
   "note": "Networks of convolution, dense, ReLU, requantisation, 2x2 max pooling and flatten layers; the commitment scheme is a parameter that opens true claims. Examples: net_accepted, cnn_accepted (with a convolution)."
  },
  {
   "property": "C97",
   "status": "partial",
   "theorems": [
    "Props.C97_affine_partial",
    "Props.C97_forgery_false",
    "Props.C97_wrong_output_false"
   ],
   "note": "False as stated: a dishonest prover can give a requantisation layer any output it has on some other input and the whole proof is accepted (C97_forgery_false for every network, C97_wrong_output_false for a concrete one with openings checked by evaluation). Proved for networks of dense and flatten layers with one output (C97_affine_partial), for proofs with two individual claims per dense layer."
  },
  {
   "property": "C98",
   "status": "partial",
   "theorems": [
    "Props.C98_complete",
    "Props.C98_layer_complete",
    "Props.C98_unit_frame_false",
    "Props.C98_conversion"
   ],
   "note": "Proved for every layer prepared from a filter, bias and input size of at least 2x2 whose padded kernel is 1x1 or smaller than the padded input (C98_layer_complete, C98_complete). False for 1x1 inputs: the verifier panics on every proof (C98_unit_frame_false). Layers with a larger kernel panic at evaluation already, see C32."
  },
  {
   "property": "C99",
   "status": "partial",
   "theorems": [
    "Props.C99_padded_partial",
    "Props.C99_panics_false"
   ],
   "note": "Proved for models of convolutions, dense layers, ReLU, requantisation, max pooling and flatten layers connected in any way, under the conditions of LayerFits; false in general (the padded model may panic). Other layers are missing."
  },
  {
   "property": "C100",
   "status": "partial",
   "theorems": [
    "Props.C100_rs",
    "Props.C100_basecode",
    "Props.C100_any_values_false",
    "Props.C100_no_queries_false",
    "Props.C100_values_unbound_false",
    "Props.C100_sumcheck_partial",
    "Props.C100_weights_partial",
    "Props.C100_trivial_partial",
    "Props.C100_queries_partial"
   ],
   "note": "Completeness is proved in full for both codes (C100_rs, C100_basecode). The converse is false of the code: a proof carrying tables with the right root is accepted for all points and values (C100_any_values_false), the number of queries is not checked (C100_no_queries_false), and the weights do not depend on the values (C100_values_unbound_false). Proved: soundness of the sumcheck and the batching for proofs without tables when the final message belongs to the polynomials, with counts, and what each query establishes."
  },
  {
   "property": "C101",
   "status": "partial",
   "theorems": [
    "Props.C101_loaded_partial",
    "Props.C101_square_matrix_false",
    "Props.C101_relu_constant_false",
    "Props.C101_relu_operation_false",
    "Props.C101_pool_strides_false",
    "Props.C101_pool_ceil_false",
    "Props.C101_flatten_operation_false",
    "Props.C101_scalar_bias_false"
   ],
   "note": "False of the code: square matrices, missing pool strides, ceil mode, non-zero constants in nodes named Relu, other operations in nodes named Flatten, scalar conv bias (the _false theorems). C101_loaded_partial: for every graph without these, every node of the loaded model has the value of its ONNX node, for every order of the loader map. Missing: that every graph of supported operations is loaded."
  },
  {
   "property": "C102",
   "status": "partial",
   "theorems": [
    "Props.C102_unambiguous_partial",
    "Props.C102_order_false",
    "Props.C102_refused_false"
   ],
   "note": "False of the code when a node name contains two keys (C102_order_false, C102_refused_false). C102_unambiguous_partial: true for all graphs whose names contain keys of one loader only."
  },
  {
   "property": "C103",
   "status": "partial",
   "theorems": [
    "Props.C103_dense",
    "Props.C103_matmul",
    "Props.C103_add",
    "Props.C103_add_context_false",
    "Props.C103_pool_partial",
    "Props.C103_pool_false",
    "Props.C103_conv_float_false",
    "Props.C103_conv_float_partial",
    "Props.C103_reshape",
    "Props.C103_qkv",
    "Props.C103_concat",
    "Props.C103_logits_partial",
    "Props.C103_logits_false",
    "Props.C103_positional",
    "Props.C103_mha",
    "Props.C103_softmax_layernorm",
    "Props.C103_flatten",
    "Props.C103_embeddings"
   ],
   "note": "Proved for dense layers, matrix multiplications, attention projections, products of stacks of matrices, multi-head attention, softmax, layer norm, embeddings, learned positions, additions, flattening and reshapes, and for logits of rank 2; for pooling and float convolutions exactly when it holds. False for pooling of images that are not square, for float convolutions (an extra dimension), for logits of higher rank and for the verifier's description of an addition. Not treated: padded mode and quantised convolutions (see C32, C65)."
  }
 ]
}