# Formal model of deep-prove: design

## Layout

* `lean/Verif/Spec/*`  – small specifications, written without reference to the model (textbook
  definitions: multilinear extension, sum over the hypercube, DFT, topological order, ...).
* `lean/Verif/Model/*` – the model of the Rust code, function by function. Each definition cites the
  file and lines in `/repo`.
* `lean/Verif/Lemmas/*` – helper lemmas.
* `lean/Verif/Props/*` – the property theorems, one group per file, each followed by an `example`
  that meets its hypotheses.

## Modelling conventions

* A Rust `Vec`/slice is a `List`. `&mut` functions return the new value.
* `panic!`, `assert!`, `expect`, `unwrap` and out-of-range indexing are `none`
  (or an `Except` error when the code distinguishes a returned error from a panic).
* Field arithmetic: the code is generic in `E: ExtensionField`; the model is generic in a Lean
  `Field F`. Base field elements are embedded (`FieldType::Base`/`Ext` differ only by this
  embedding), so both variants are modelled by a list over `F`. Goldilocks is `ZMod p` where the
  concrete prime matters (signed encoding).
* `usize`/`u64` arithmetic is `Nat` (no overflow), `i64` elements are `Int`, unless a property is
  about the machine range.
* Floating point is not modelled. Where a float scale enters (quantization), the model uses exact
  rationals and says so.
* rayon parallel iterators: a parallel map/sum is modelled by splitting into an arbitrary number of
  chunks and combining; theorems quantify over the number of chunks.
* Hash functions, the Poseidon permutation and Fiat-Shamir challenges are uninterpreted functions
  (parameters); soundness theorems quantify over all challenges, or over all adaptive prover
  strategies and count bad challenge vectors.
* serde, tracing, timers, network transport and the ONNX parser are not modelled.

## Trusted base

Lean 4.33.0's kernel; the axioms `propext`, `Classical.choice`, `Quot.sound` (no theorem uses any
other; no axioms are added, no `sorry`, no `native_decide`, no `bv_decide`); Mathlib definitions used in
statements (`Field`, `ZMod`, `Finset.sum`, `Polynomial`, ...); and the hand translation from Rust to
the model, which the comments in `Model/` document line by line.

Every theorem in `MANIFEST.json` depends on a subset of these three axioms. This was checked with
`#print axioms` on each name. Soundness statements about interactive arguments name the challenge and the
exceptional event explicitly; nothing is assumed about hash functions beyond what a statement says.

### Which parts of the code are modelled

"Modelled" means that a definition in `Model/` cites the lines; simplifications are in its comment.

| crate | modelled | not modelled |
|-------|----------|--------------|
| `multilinear_extensions` | `mle.rs` (fixing, evaluation, ranged views), `virtual_poly.rs`, `util.rs` | serde; the `FieldType` split (one list over `F`) |
| `sumcheck`, `sumcheck_macro` | prover, parallel prover, verifier, `util.rs`, the generated summation as a function of the degree | thread pools, macro expansion as text |
| `transcript`, `poseidon`, `ff_ext` | challenger as an absorb/squeeze machine with the permutation a parameter, BLAKE transcript with the hash a parameter, `hash_or_noop`, conversions of integers to the field | `statistics.rs`, `synchronized.rs` beyond what C12 uses, the permutation itself |
| `mpcs` | Basefold commit, open, verify, batch open, batch verify, simple batch open and verify; both codes; Merkle trees; hypercube interpolation; the classic sum-check in coefficient form | `expression.rs` beyond the shape `batch_open` uses, `plonky2_util` beyond what the codes use, `bh.rs` |
| `zkml/lookup` | fraction circuits, the layers and verifier of the lookup argument, tables, multiplicities, witness columns | parts of `witness.rs` that only move data |
| `zkml/commit` | bookkeeping of claims, aggregation of claims about one polynomial, choice between single and batch opening | serialisation |
| `zkml/iop` | `Prover::prove`, `Verifier::verify` and `verify_table`; in C87 the layers, tables and openings are parameters there, in C96 layers and tables of feed-forward networks are filled in | context generation beyond shapes, tables and claims |
| `zkml/model` | graph construction, iterators, run, requantisation nodes, the generation loop of `llm.rs` | tokenisers; `trace.rs` beyond the values a step records |
| `zkml/layers` | evaluation and verification of dense, convolution, matmul, pooling, activation, requant, add, reshape, flatten, hadamard, matvec, concat-matmul, QKV, MHA, softmax, layer normalisation, embeddings, positional, logits; the prover of those whose property claims completeness | float evaluation, `permute.rs` and `mul.rs` as layers, `transformer/mod.rs` |
| `zkml/padding.rs` | dense, matmul, convolution, pooling, reshape, flatten; `pad_model` over a graph of convolutions, dense, ReLU, requantisation, pooling and flatten layers | `pad_model` with other layers |
| `zkml/quantization` | scales as exact numbers, requantisation, bit sizes, integers to field, the kind of strategy as a store key (C70), `quantize_model` and `metadata.rs` (C89), calibration in `strategy.rs` (C90), quantisation of dense, matrix multiplication, convolution, activation, pooling and embeddings layers (C91) | `f32` rounding, the random samples used when none are given |
| `zkml/tensor.rs` | the operations named in C26–C34 and used by the layers, FFT convolution | float-only helpers |
| `zkml/parser`, `zkml/bin`, `zkml/inputs.rs` | `parser/onnx.rs` from the graph tract hands over on (C101, C102) | reading the file, typing and decluttering by tract; `gguf.rs`, `json.rs`, `llm.rs`; `bin` and `inputs.rs` (reading inputs is a parameter of the worker model) |
| `deep-prove` | proof and parameter store, worker loop, its HTTP and gRPC handlers as state transitions | CLI, transport, marketplace metering |
| `gkr`, `simple-frontend`, `utils` | – | all (`zkml` uses only `ceil_log2` and the pair type `PointAndEval` of `gkr`) |

## Properties: what is modelled and how it is proved

| id | model | method |
|----|-------|--------|
| C01 | `fix_variables`/`evaluate` as list folds | induction on the point; spec = Σ over indices of value·eq |
| C02 | low and high fixing | induction; low/high commute by index arithmetic |
| C03 | sequential and chunked eq table builders | induction on the point; chunk lemma |
| C04 | three eq formulas | induction, product–sum exchange |
| C05 | ranged view | negation with witness; partial theorem for the full range and for the paths that use the range |
| C06 | virtual polynomial builder with table de-duplication | invariant over builder calls |
| C07 | barycentric interpolation | Lagrange uniqueness (Mathlib `Lagrange`) |
| C08 | Montgomery batch inversion | invariant of the forward/backward passes |
| C09 | macro expansion as a function of the degree | binary expansion lemma for the c_k terms; list induction |
| C10 | prover loop + verifier loop | induction on rounds |
| C11 | verifier loop, adaptive prover as function of earlier challenges | induction on rounds, root counting |
| C12 | distributed prover | slice/merge lemma, induction on rounds |
| C13 | verifier | case analysis |
| C14 | layer map | induction on the number of layers |
| C15 | multiplicities, fraction sums | partial fractions / polynomial identity, root counting |
| C16 | logup verifier | negation with witness + partial |
| C17 | final check of the verifier | negation with witness + partial |
| C18 | Goldilocks encoding | `ZMod` casts |
| C19 | quantize over ℚ | floor/round lemmas |
| C20, C21 | requant integer pipeline | integer division lemmas |
| C22 | output bit size | bound by induction on the dot product |
| C23, C24 | table construction and closed forms | induction on number of variables |
| C25–C30, C33, C34 | tensor operations on flat lists | index arithmetic, induction on rank |
| C31, C32 | iterative FFT with bit reversal, fft_conv | induction on log length; root of unity sums |
| C35–C40 | layer verifiers | deterministic soundness + negations with explicit forged proofs |
| C41 | claim maps | invariant over call sequences |
| C42, C43 | Merkle trees with uninterpreted hash | induction on depth; collision extraction |
| C44, C45, C47 | foldable codes, hypercube interpolation, opening sumcheck | induction on log size |
| C46 | Basefold verifier | negation (no queries checked) + partial |
| C48–C50 | graph and iterator | invariants of the worklist |
| C51–C53 | store as state machine over a file system and an object store | invariants over histories + negations |
| C54, C55 | worker queues and loops | invariants over schedules + negations |
| C56, C57 | transcripts as absorbed histories | injectivity / negation with witness |
| C58 | claim routing | permutation of claims |
| C65 | `pad_conv` | equality of layers + negation |
| C63 | bias scale of the linear layers | half-step accuracy of C19 |
| C59, C60 | elementwise layers | direct |
| C64 | fingerprints of several tables | polynomial identity + negation with witness |
| C61, C62 | matrix-vector and entrywise-product proofs | as C35 |
| C66, C67 | running a graph: trace and collected outputs (`Model/GraphRun.lean`) | loop invariant against the dataflow equations; negation by a built model |
| C68, C69 | binding and claiming outputs | invariants of the binding loop; negations by two small models |
| C70 | run_model_v1 with parsing, running and proving as parameters | negation for every environment |
| C71 | the choice of common scale and multipliers of quantised addition, over the reals | error bounds on the rounded multipliers; negations for scales above one and for large ranges |
| C72 | the three kinds of reshape, their padded forms, padding from C25 | equality of padded data coordinate by coordinate; negation for inner sizes that are not powers of two |
| C73 | `Model/TokenLayers`: token lookup, one-hot reduction, prover, verifier and the check of the public tokens | one-hot and row extensions as sums over rows; product sum-check soundness; aliasing proved in general |
| C74 | `Model/TokenLayers`: sum with the first rows, sampled coordinates, folding of the sub-matrix evaluations, claim map | splitting a multilinear extension over prefixes; forgeries solved for explicitly |
| C75 | `Model/TokenLayers`: row maxima, both sum-checks of the argmax layer, the public output check; the lookup claim is a parameter (C16) | fold invariant; two sum-checks and a batching challenge; negations for zero logits, aliasing and padding |
| C76 | `Model/ConcatMatMul`: axis layouts, permutations, slices, stacking; the tables, the sum-check and the claim points of prover and verifier | index algebra over the six axis orders; degree-3 sum-check; negation for an extra factor |
| C77 | `Model/Qkv`: products with bias, padding of weights and biases, announced shape, prover and verifier with the batched sum-check and the aggregation | padding by coordinates; degree-2 sum-check of three products; composition with C40; negations for the announced shape and the prover-chosen point |
| C78 | `AttentionMask`, `tri`, `zeroifier`, `eval_zeroifier_mle` (Model/Attention) | entries of the mask by index arithmetic; closed form by induction on the number of bits, splitting both indices at the top bit |
| C79 | quantised softmax evaluation (Model/Attention) with the two `f32` functions as parameters | closed form of the evaluation, uniqueness of the shift for causality, digits by induction, row sums with real exponentials; negations where tables are too small |
| C80 | `SoftmaxCtx::verify` in full and `Softmax::prove_step` with its lookup proofs, without the accumulation of claims (Model/SoftmaxProof) | inversion of the verifier, soundness of the two sumchecks against `softmaxSum` and `maskSum`, mask closed form from C78; completeness through `proveTerms` and C92, for at most three zero chunks and at least four rows; from the evaluation of C79 to an accepted proof in `C80_inference_partial`; negations by explicit proofs and for all inputs outside these bounds |
| C81 | `Mha` evaluation and padding, `pad_matrix_to_ignore_mha_garbage` (Model/Mha) | closed form from C76 and C79; rows compared entry by entry, invisible weights zero; sums over heads for the padded matrix; leak computed exactly when the table has no room |
| C82 | `MhaCtx::verify`, `Mha::prove` with the real lookup prover (Model/Mha) | composition of C76 and C80, both directions; with C81 in `C82_inference_partial` |
| C83 | `LayerNorm` quantisation, evaluation, padding and lookup witness (Model/LayerNorm) | refinement to mean and variance over the rationals; bounds by Cauchy-Schwarz |
| C84 | `LayerNormCtx::verify` and `LayerNorm::prove_step` with its lookup proofs (Model/LayerNormProof) | inversion of the verifier into three sumchecks, soundness of each; honest run from the general prover theorem and C92, composed with the quantised evaluation of C83 in `C84_inference_partial` |
| C85 | `Model/LayerPad` models `Dense` (new, evaluate, output_shape), `MatMul` (new, op, compute_output_shapes), `pad_dense`, `pad_matmul` and the two ways of ignoring garbage; the claims compare the entries of the padded and the original result with explicit sums. Tensors of rank four as dense matrices are not modelled. |
| C86 | `batch_open`, `batch_verify`, the batched commit and query phases and the sumcheck of mpcs (Model/BasefoldBatch) | completeness by linearity of the codes and an invariant on the running oracle; soundness of both sumchecks with named lucky events; Schwartz-Zippel counts; negations by explicit proofs |
| C87 | `Model/WholeProof`: `Verifier::verify` and `Prover::prove` over the graph model of C58, with the layers, tables and openings as parameters; an instance for additions and flattenings | induction along the inference order (soundness) and along the backward order (completeness); Schwartz-Zippel count; negations for the output challenges, `Reshape`, `Logits` |
| C88 | `Model/Generation`: the loop of the driver with the model run as a parameter | induction on the remaining window; uniqueness of the greedy continuation |
| C89 | `Model/Metadata`: `quantize_model` over the graph model with the quantisation of one layer as a parameter; the two maps of the metadata builder | invariant of the forward pass (factors along edges), preserved by every insertion of requantisation nodes; pairing of two collections along the same wires for the outputs |
| C90 | `Model/Calibration`: the tracker, one run per sample of the graph model of C66, minimum and maximum of all values seen | invariant of the loop over samples: the tracked list is exactly the set of values of the trace; then closed form of `from_absolute_max` |
| C91 | `Model/QuantLayers`, `Model/QuantMatMul`: quantisation of dense layers, matrix multiplications, convolutions, rectifier, GELU, embeddings, with the factors they announce; evaluation from C27, C30, C32, C60, C73, C85 | error bound through the accumulator for dense, matrix multiplication and convolution; exact commutation for rectifier and pooling; closed form of the error factor for GELU and embeddings |
| C92 | `Model/LogUpProver.lean`: `LogUpInput` with its checks, `get_mles`, the terms of a round (`add_mle_list` calls by address), the rounds, `batch_prove` | `Lemmas/LogUpProver.lean`: the virtual polynomial of a round by induction over the instances, its value is `layerPoly`, the sumcheck of C10 gives one round; rounds by induction over the layers of the circuit; then the final evaluation as in C16. Columns of one or two rows: negation. |
| C93 | `Model/LookupProvers.lean`: witness columns, `prove_step` of activations, the claims handed to the commitment prover | C92 for the lookup, C40 for the accumulation of the two claims about the output. GELU: negation, through the batch opening of C86 (the batched sum differs by a non-zero multiple of the difference of the values). |
| C94 | `Model/LookupProvers.lean`: witness columns, the virtual polynomial by address, `prove_step` of requantisation | C92 for both lookups, C10 for the sumcheck on the virtual polynomial (built by induction over the chunks), C21 for the recombination. |
| C95 | `Model/LookupProvers.lean`: `compute_polys` with its iterators (`step_by`, `chunks`, `interleave`), `prove_pooling` | `Lemmas/PoolPolys.lean`: merging by induction over the logarithm of the width; C30 for the maxima; C92 and C10; claim about the input as in C38. |
| C96 | `Model/Network.lean`: layers with prover and verifier, lookup witnesses, challenges of the tables, table proofs, claims for the openings, as parameters of `Model/WholeProof.lean` | An invariant of both states (same challenges, all claims collected true) kept by every layer (C35, C93–C95, C98; a convolution unless its prover divides by zero, `Spec/Passes.lean`) and table (C92); the sum of fractions by C15; `Lemmas/WholeProofIf.lean` for the walk through the graph. |
| C97 | `Spec/Forgery.lean`: a dishonest prover (not part of the code) over the verifier of `Model/Network.lean`; the walk of C96 for any prover in step with the verifier (`Lemmas/NetWhole.lean`) | False: the two evaluations of `C39_requant_any_claim_false` inside a whole proof. Networks of dense and flatten layers: C87 and C35, with the opening of all claims as a hypothesis on the commitment scheme. |
| C98 | `fft_conv` data, `phi_g_init`, `delegate_matrix_evaluation`, `prove_batch_fft(_weights)`, `prove_batch_ifft`, `prove_convolution_step` | closed form of the intermediate vectors by induction on the levels; each sumcheck's sum through the transform identities; composition + negation for 1×1 |
| C99 | `Model/PadModel.lean`: `pad_model` for models of convolutions, dense layers, ReLU, requantisation, pooling and flatten layers; inference of the padded model with the shapes carried along | One lemma per layer (C29–C32, C65, C85): if the input holds the entries of the unpadded input, so does the output; then induction along the order of the run (C48, C66). Negation: a model that runs but whose padded version panics (C65). |
| C100 | `Model/SimpleBatch.lean`: `batch_commit`, `simple_batch_open`, `simple_batch_verify` with their commit and query phases | Completeness: both codes are linear, so the weighted sum of the codewords is the codeword of the weighted sum, and the chain of foldings of C47 applies. Soundness by reduction to the single opening (C46) and the batching count of C86. Negations: explicit proofs. |
| C101 | `Model/Onnx.lean`: the loaders of `parser/onnx.rs` over tract's graph as data; `Spec/Onnx.lean`: the ONNX operations entry by entry | Invariant of the loading loop: every node of the loaded graph, given inputs that agree with the ONNX values up to the batch dimension, yields the ONNX value of its id. Then induction over the run. Negations: explicit graphs. |
| C102 | the same model, the hash map as a list in any order | The loader found does not depend on the order when no name contains two keys; then the loops agree. Negation: a graph whose name contains two keys. |
| C103 | `output_shapes` of dense, matrix multiplication, attention projections, products of stacks of matrices, multi-head attention, softmax, layer norm, logits, learned positions, embeddings, flattening, addition, reshape, pooling and convolution without padding, next to the evaluation of the same layers | Inversion of both functions; pooling: the shapes agree exactly if the halves of the sides do. Negations: images that are not square, float convolutions, the verifier's addition. |

## Disagreements between the code and its intended properties

Recorded here as they are proved; see the "Findings" section.

## Findings

Each entry names the theorem that proves the disagreement on a concrete witness.

- C05 `RangedMultilinearExtension`: the declared range is ignored by evaluation (`C05_*` negations in Props/Mle.lean).
- C07 `C07_interpolate_at_node`: `interpolate_uni_poly` panics when the challenge is one of the nodes `0..d`.
- C10 `C10_mixed_product_false`: a product mixing tables of different sizes is accepted by the builder, but the
  honest proof of its true sum is rejected.
- C12 `C12_single_value_slices_false`: with one-value slices the distributed prover returns an empty proof.
- C35 `C35_extra_factor_false`, C36 `C36_extra_factor_false`: `individual_claims` may have any length and all its
  entries are multiplied, so a third entry makes any false output claim pass while all claims passed on are true.
- C61 `C61_matvec_unchecked_false`: `matvec::verify` never compares the sumcheck's final value with anything.
- C40 `C40_prover_point_false`, C62 `C62_prover_point_false`: the aggregation of claims on one polynomial and the
  entrywise product evaluate `eq` at the point stored in the proof instead of the sumcheck's challenges.
- C18 `C18_i64_extremes_false`: `Element` is i64 but values beyond (p-1)/2 do not survive the trip through
  Goldilocks.
- C20 `C20_from_multiplier_large_false`: `Requant::from_multiplier` shifts in the wrong direction for multipliers of
  2 and more; the applied multiplier is at most 1. `C20_overflow_false`: the largest values `op` accepts overflow
  i64.
- C21 `C21_accepted_unprovable_false`: `Requant::op` accepts values up to 2^bits, twice what the clamping table
  covers.
- C22 `C22_dense_bias_false`, `C22_conv_bias_false`: a bias in its quantized domain exceeds the declared output
  size. `C22_matmul_unprovable_false`: the matrix multiplication's size uses the floor of the logarithm, so in-range
  operands give an accumulator outside the clamping table.
- C63 `C63_matmul_bias_false`: `MatMul` quantizes its bias with the output scale instead of the weight scale.
- C24 `C24_error_table_max_false`, `C24_error_table_zero_false`: the error table misses its largest value when twice
  the error is a power of two, and otherwise contains zero as padding.
- C14: the circuit of a lookup with two entries is its own output layer and has two outputs instead of four, so
  `batch_prove` and `fractional_outputs` panic by indexing (`C14_two_lookups_false`).
- C17: table proofs beyond the number of tables are counted in the final sum but never verified (zip truncation), so
  one forged table proof cancels any lookups (`C17_extra_false`); missing table proofs are not rejected
  (`C17_missing_false`).
- C64: all tables share the constant challenge and the first column has coefficient one, so a row (x, 0) has the
  same fingerprint in every table: the relu row (x, 0) satisfies the clamping lookup (x, 0) for negative x
  (`C64_cross_table_false`).
- `verify_logup_proof` (lookup/logup_gkr/verifier.rs) never absorbs the round evaluations before the challenges
  `logup_batching`, `logup_alpha`, `logup_lambda` are drawn, so the prover can choose them afterwards: any outputs
  are accepted with true claims at the verifier's own point (`C16_unbound_evaluations_false`, every transcript). The
  number of rounds is not checked either: a proof without any sumcheck is accepted (`C16_zero_rounds_false`).
- C25: `Tensor::get_idx` never compares the last index with the last dimension; `get(vec![0, 4])` on a 2x3 tensor
  returns the entry (1, 1) (`C25_last_index_false`).
- C27: `matvec` accepts `[1, n]` tensors by `is_vector` but then compares n with the first dimension, so each of
  them with n != 1 panics (`C27_row_vector_rejected`).
- C33: `Tensor::argmax` starts from `T::MIN`; for floats `[-inf, f32::MIN]` gives index 0 instead of 1
  (`C33_negative_infinity_false`).
- C34: `concat` of tensors with equal rank does not compare the remaining dimensions and builds tensors whose data
  does not match their shape (`C34_concat_unchecked_false`).
- C32: `into_fft_conv` chooses the frame `nextpow2(n - K + 1)`. If the padded kernel is as large as the padded input
  (for example 3x3 kernel on 3x3 or 4x4 input) the frame is 1 and `index_u` reads out of range: panic
  (`C32_large_kernel_panics`).
- C65: `pad_conv` overwrites `input_shape_og` with the output shape before it calls `into_padded_and_ffted`, so the
  frame is `nextpow2(nextpow2(h-k+1) - K + 1)`. For a 5x5 input and a 3x3 kernel this is 1 instead of 8 and every
  evaluation of the padded layer panics (`C65_small_frame_panics`).
- C38 `C38_equal_challenges_false`: `verify_pooling` builds `[r1, r2]` from a single challenge, so two inputs that
  agree on the diagonal and on the sum of the off-diagonal entries of each window are not told apart; a proof of
  maximum 5 for the window 0 10 / 0 0 is accepted with all claims true (example beside the theorem).
  `C38_row_width_false`: the row width (`variable_gap`) is taken from the proof.
- C39 `C39_commitments_dropped_false`: commitments are zipped with evaluations, so an accepted activation,
  requantisation or pooling proof stays accepted with no commitments, and then no column is opened.
  `C39_requant_any_claim_false`: two extra evaluations in an accepted requantisation proof make it claim any value
  of the input.
- Convolution (C37): `verify_convolution` discards the subclaims of all sumchecks after the clearing step; any
  accepted proof can be turned into an accepted proof of the same output claim whose input and filter claims are
  about any tensors (`C37_input_and_filter_unbound_false`).
- Merkle trees (C43): `authenticate_merkle_path_root` does not check the length of the path, and `hash_or_noop` does
  not hash inputs of at most four elements. A digest of an inner node is accepted as a pair of leaves of an
  extension-field tree with a shorter path, at every position (`C43_short_path_false`).
- **C44.** `base_from_raw_bytes` (mpcs/src/util/arithmetic.rs:152-158) adds up the bytes it is given, so the entries
  of the random foldable code's table are small numbers and may be zero; with a zero entry `setup` panics in
  `batch_multiplicative_inverse` (`C44_basecode_zero_panics`).
- **C46.** The opening verifier zips the queries of the proof with the sampled positions (query_phase.rs:1031-1059)
  and never checks their number. For every digest, point and value there is an accepted proof without queries
  (`C46_no_queries_false`).
- **C46.** `verify` takes any proof that carries evaluations as a trivial opening without comparing their number
  with the committed polynomial's (basefold.rs:873-894). Because `hash_or_noop` keeps four elements, the second hash
  layer of a codeword's tree is a table with the same root and, for rate 1/2, the polynomial's size; the verifier
  accepts its values (`C46_inner_layer_false`).
- C41: `add_common_claims` drops claims about polynomial ids that were never committed, without an error
  (`C41_unknown_claim_ignored`); and the verifier decides by the length of the claim's point, the prover by the size
  of the polynomial, whether an opening goes through the path without queries (`C41_routing_disagrees`).
- C49: `add_node_with_id` (zkml/src/model/mod.rs:310-337) pushes output edges on earlier nodes before it has
  validated the later inputs, so a failed insertion leaves dangling edges to a node that does not exist
  (`C49_failed_insertion_false`); and it silently overwrites a node whose id is in use (`C49_id_reused_false`).
- C50: `add_requant_nodes` (zkml/src/model/mod.rs:170-255) gives the new node one input per consumer, so a
  requantised output that is both consumed and a model output makes the model fail to run (`C50_fan_out_false`), and
  zips outputs with layers, so too few layers disconnect outputs (`C50_too_few_false`).
- C58: `claims_for_node` accepts only wires with exactly one edge, so a model in which an output is used twice has
  no proof (`C58_fan_out_fails`).
- C67: `output_nodes` keeps a node only if all its wires go outside, so an output of a node that also has an inner
  wire is dropped without error (`C67_output_dropped_false`).
- C68: `bind_outputs_to_node` inserts per wire and overwrites, so of several outputs of one node only the last is
  bound; the verifier's claim about the others is the default claim and does not depend on the public output
  (`C68_output_unbound_false`).
- C69: the verifier visits the output nodes in hash map order while the prover draws challenges in index order, so
  with two output nodes honest proofs fail for some hash seeds (`C69_order_false`).
- C51: `insert_params` treats every failure of its `head` request as absence of the key, so a timeout lets it
  overwrite (`C51_head_failure_overwrites_false`); check and `put` are two requests, so two workers both succeed and
  one value is lost (`C51_race_false`); `MemStore` overwrites silently.
- C52: the S3 store with a file cache calls `create_dir_all` on the path of the file itself and then writes to it.
  The write always fails, so no value is ever returned and every job fails (`C52_cache_returns_nothing_false`,
  `C52_every_job_fails_false`).
- C53: a scaling input hash that is empty gets the same key as none; the model key has no package version, so a new
  version proves with the model parsed by the old one (`C53_version_false`).
- C54: the local API takes requests and hands out proofs last-in first-out; a request can be starved for ever; a
  failed request leaves no trace; a proof does not say which request it belongs to.
- C55: a message the gRPC worker cannot decode ends the worker, as does one failed fetch of the HTTP worker; results
  can be delivered twice; an input whose run fails is silently dropped from the reply; two workers starting on the
  same new model make one job fail.
- C70: `parse_model` always quantises with `AbsoluteMax`, whatever strategy the request names; the strategy only
  changes the key (`C70_strategy_ignored_false`).
- C57: neither the public input and output nor the commitments to lookup witnesses and multiplicities are absorbed
  before the lookup challenges are drawn (`LogUpWitness::write_to_transcript` is never called). The challenges of
  the lookup argument are constants of the context, and `C57_forgery_false` gives the columns that pass the lookup
  test with rows outside the table.
- C56: the challenger pads nothing: on a transcript with a partly filled buffer, absorbing the element the state
  holds at the next position (zero on a new transcript) is not noticed (`C56_padding_false`,
  `C56_padding_default_false`). Byte strings are padded with zeros without a length, and blocks at least p wrap
  around (`C56_message_false`). The BLAKE3 transcript used by the benchmarks writes field elements without a length
  and one label is a prefix of the other (`C56_blake_ext_false`, `C56_blake_kind_false`).
- C71: `Add::quantize` compares absolute values of base-two logarithms of scales. For scales below one this orders
  them, for scales above one it reverses the order: with scales 1024 and 2 the second operand's multiplier rounds to
  0 and the operand is dropped (and, if it is static, the prover divides by zero). Separately, the bit size it
  declares for the intermediate values covers sums up to about 4, so with 8 bits, equal operand scales of at least
  1/63 and a coarser output scale, the sum of two large values makes `Requant::op` fail.
- C72: `pad_reshape_layer` only checks that the products of the padded sizes agree. Reshaping 6 elements to 2 rows
  of 3 passes the check (8 = 2*4), but the padded layer puts the fourth element into the first row.
- C73: the verifier reduces the public tokens modulo the padded vocabulary size (`to_bit_sequence_le` does not check
  that the value fits), so a proof for one token list is accepted for every list with the same residues
  (`C73_alias_false`).
- C74: the sub-matrix evaluations of the learned positional layer are not absorbed before the extra coordinates are
  sampled, are not tied to any commitment and their number is not checked. A prover that solves for the last one
  makes every output claim acceptable with true claims on the input and on the committed matrix
  (`C74_forged_false`).
- C74: with several inputs the claims on the positional matrix are inserted in a map under the same key, so only the
  last one is checked against the commitment (`C74_overwritten_false`).
- C75: the verifier of the argmax layer inverts the product of an equality evaluation and the input's evaluation and
  panics when it is zero; an all-zero logits matrix has no acceptable proof (`C75_zero_false`).
- C75: the public outputs of the argmax layer are compared modulo the padded number of columns (`C75_alias_false`),
  and inference on the padded matrix takes the maximum over the padding columns too, so a row of negative logits
  gets the first padding column as its token (`C75_padding_false`). Ties: the proof shows a position of a maximum,
  not the first one (`C75_complete` holds for every position).
- C76: the verifier of `ConcatMatMul` multiplies all individual claims of the proof but never checks that there are
  three; a fourth factor makes any output claim pass with true claims on both inputs (`C76_extra_factor_false`).
- C77: the query-key-value layer pads heads and head dimension to at least 4 (`pad_minimum`) but announces an output
  shape computed with plain powers of two, so for models with one or two heads, or heads of dimension one or two,
  the announced shape is wrong (`C77_announced_shape_iff`) and no proof is accepted under it
  (`C77_wrong_columns_rejected`). The layer also inherits the unchecked point of the same-polynomial aggregation:
  three false output claims are accepted with true claims handed on (`C77_prover_point_false`).
- C79: the quantised softmax replaces masked scores by `-((bkm >> 16) + 1) << 16`, which is looked up modulo the
  size `2^ceil_log2(bkm >> 16)` of the exponential table. When `(bkm >> 16) + 1` equals that size and there are no
  zero chunks, masked positions get the table's largest value instead of zero (`C79_mask_leaks_false`). `bkm` is
  computed in floating point; we did not establish that such a value occurs for a deployed model.
- C79: the number of zero chunks is computed from `ceil_log2(|min_input >> 16|)`, which is one bit short when that
  number is a power of two: the smallest score then wraps around to exponent zero and gets the largest output
  (`C79_chunks_false`); in general scores beyond the range wrap (`C79_wrap_false`).
- C80: `SoftmaxProof::get_lookup_data` returns the fractions of every lookup proof in the softmax proof, while
  `SoftmaxCtx::verify` zips the lookup proofs with the expected tables and ignores the rest. An unverified extra
  lookup proof makes the global lookup sum zero for any columns (`C80_extra_lookup_false`).
- C80: the number of commitments in a softmax proof is never compared with the number of evaluations. A proof with
  only five commitments is accepted, and then the columns of the zero table are never opened (`C80_unopened_false`).
- C80: the number of entries summed by the error check of the softmax is the difference between the numbers of
  variables of two lookup proofs, both chosen by the prover, and never compared with the row length.
  `C80_after_lookups_partial` shows acceptance for every `e`, e.g. `e = 0`, where each single entry is checked instead of
  each row.
- C80: the softmax prover passes on the scalar times the evaluation of its input, the verifier divides by the
  scalar; the two sides continue with different claims unless the scalar is one (conclusion of
  `C80_complete_partial`).
- C80: the softmax verifier divides by `eq * tril` and panics when a challenge makes it zero; the prover multiplies
  at most five tables, so that it panics for more than three zero-table chunks (`C80_many_chunks_false`). The number of
  chunks is the number of bits of the smallest input above the size of the exponential table, divided by that size, which
  shrinks with the temperature.
- C80, C82: with fewer than four rows in all heads together (one position and one or two heads, or two positions and
  one head) the lookup of the row sums has fewer than two variables and its prover fails (`C80_few_rows_false`,
  `C82_few_rows_false`; the cause is `C92_short_lookup_false`).
- C81: attention inherits the leak of the softmax: when the exponential table holds exactly the cut-off plus one
  entries and there is no zero-table chunk, every later position is attended to with the largest weight
  (C81_leak_false). The padding rows are then attended to as well, so the padded layer and the unpadded one differ.
- C83: layer normalisation has no mask for padded rows: a row of zeros comes out as `beta`
  (`C83_padded_rows_false`), so padded sequences are no longer zero padded after it. A layer whose `beta` is all
  zero (or with an input scale so small that the multiplier rounds to zero) cannot be quantised, `ceil_log2(0)`
  panics (`C83_zero_bias_false`). `gamma` and `beta` are padded to the next power of two while other layers are
  padded to at least four, so a layer of size one or two panics after padding (`C83_mismatch`).
- C84: the layer normalisation verifier checks its first sumcheck and the recombination of index and chunks against
  `acc_evals`, numbers in the proof that are not the ones opened against the commitments (only the second is tied to
  them, by the second sumcheck). Its length is not checked and the recombination uses `acc_evals.last()`, which the
  first check ignores when a number is appended. So the output computed from any columns with entries in the tables
  is accepted for any input, with true openings: `C84_forged_false`.
- C84: the last chunk is committed times `2^top_chunk_scalar_log` and the verifier multiplies by the inverse; a
  chunk that is no multiple is accepted, so the index may be one less than the true one: `C84_index_false`. As in
  C80, the commitments are zipped with the evaluations and may be missing: `C84_unopened_false`.
- C85: `pad_dense` pads the columns to at least four, but a padded input of one or two entries stays that short, so
  the padded layer panics on it (`C85_dense_small_false`).
- C85: a dense layer on an input with several dimensions, accepted by `Dense::evaluate`, is padded as if the padded
  input began with the entries of the input; when the last dimension grows the padded layer computes something else
  (`C85_dense_rows_false`).
- C85: `pad_matmul` ignores `TransposeB` when sizing the weights: transposed weights with more outputs than padded
  input columns make it panic (`C85_matmul_transposed_false`), weights times a transposed input fail unless the
  padded input is square (`C85_matmul_left_transposed_false`); `MatMul::new_internal` compares the bias with the
  columns of the stored weights, so a transposed layer with a bias can be built only with a bias that makes `op`
  fail (`C85_bias_transposed_false`).
- C85: `Dense::output_shape` with padding announces one or two outputs where `pad_dense` makes four
  (`C85_dense_shape_false`). After padding the rows added to the input of a matrix multiplication come out as the
  bias (`C85_bias_rows_false`).
- **C86.** `batch_verify` (mpcs/src/basefold.rs:964-1098) shares the missing check of the number of queries with
  `verify`: a proof without queries is accepted for any roots and any values (`C86_no_queries_false`). The degree
  passed to `ClassicSumCheck::verify` is not used (sum_check/classic.rs:197-217): a message may have any number of
  coefficients, and with as many as the field has elements every claim passes unless a challenge is zero
  (`C86_degree_false`); the number of lucky challenges grows with the length of the message (`C86_round_partial`).
- **C86.** `batch_open` takes the number of variables from the polynomials (basefold.rs:566), `batch_verify` from
  the points (line 976). If the largest polynomial has no claim the honest proof is refused (`C86_unclaimed_false`);
  a point without a claim makes the prover panic (`C86_unused_point_false`).
- C87: the challenges at which the public outputs are evaluated are drawn before anything that depends on the inputs
  or outputs is absorbed (iop/verifier.rs:79-143). For every model with one output of at least two elements, every
  accepted proof is also accepted with another output of the same shape (`C87_wrong_output_false`): add a table
  whose extension vanishes at the point, which anyone can compute.
- C87: `LayerCtx::has_proof` (layers/mod.rs:207-212) is true for `Reshape`, but the prover never makes a proof for
  it (`is_provable` is false, reshape.rs:182-184), so a model with a `Reshape` node is always rejected with "Proof
  for node not found" (`C87_reshape_false`).
- C87: for a model ending in `Logits` the prover draws a point for the output (iop/prover.rs:424-436) and the
  verifier does not (logits.rs:680-689), so the transcripts differ from there on (`C87_logits_false`). The tests do
  not see this because `read_challenges` draws nothing under `cfg(test)` (lib.rs:152-157).
- C87: `Layer::is_provable` is negated for the school-book convolution (layers/mod.rs:372) and `is_provable` of its
  context is `unreachable!`, so a model with one cannot be proved or verified (`C87_schoolbook_rejected`).
- C88: `Driver::with_max_context` is not compared with anything (model/llm.rs:97-142). With a limit not above the
  length   of the prompt the model is never run and the driver returns the empty default trace as a success
  (`C88_window_false`);   with a limit above the context length the model is run on sequences longer than its
  context (`C88_context_false`).   A context length of 0 makes `context_length - 1` underflow.
- C89: `quantize_model` (quantization/strategy.rs:251-296) records for a node followed by a requantisation node the
  factor after requantisation, and the same factor for the input and the output of the requantisation node
  (`C89_before_requant_false`). `Trace::dequantized` (model/trace.rs:103-150) therefore converts the values before
  and   after requantisation with one factor, although they differ by the requantisation multiplier. A
  requantisation node   behind an output with several consumers has one recorded input factor and several inputs.
- C90: the samples of the model inputs are tracked under the node id 10000 (`INPUT_TRACKING_ID`,
  quantization/strategy.rs:70,114). A model that has a node of that id (more than 10000 nodes, or
  `Model::add_node_with_id`, which is public) mixes the outputs of this node with the inputs. If the outputs are
  large compared with the inputs, the factor of the input turns every input into zero (`C90_collision_false`).
- C91: `Layer::quantize_op` (layers/mod.rs:728-733) announces for every activation the factor of its input. That is
  right for the rectifier. GELU however puts out `round(gelu(x) * MAX)` (activation.rs:583-587), whose factor is `1
  / MAX`. With inputs calibrated to `[-A, A]` all following layers read the output of GELU as `A` times its value
  (`C91_gelu_false`), and where the function exceeds one the output leaves the range of quantised values
  (`C91_gelu_range_false`). The factor that `Activation::quantize_op` itself returns, the observed one, is dropped.
- C91: the embeddings layer is quantised as a matrix product (transformer/embeddings.rs:334-347): the table gets the
  factor of its largest entry `A`, and the requantisation from the product of factors to the observed factor is
  dropped, but the observed factor is still announced. The lookup needs no requantisation, but its values have the
  factor of the table. If the samples only saw outputs in `[-B, B]`, all later layers read the embeddings as `B / A`
  times their value (`C91_embeddings_false`).
- C92: `new_lookup` accepts columns of one or two rows, but `batch_prove` panics on them for every value and
  challenge: with two rows the circuit has one layer, its output consists of the two denominators only, and
  prover.rs:59-73 indexes four values; with one row `ceil_log2(0)` panics (`C92_short_lookup_false`). Dense layers
  and matrix products are padded to at least four rows and columns (`pad_minimum`), which keeps their outputs clear
  of this case; `new_lookup` itself, and layers padded to the next power of two only, are not.
- C93: for GELU with a multiplier `m ≠ 1`, activation.rs:419-441 hands the commitment prover the claim about the
  *unscaled* input for the committed column of *scaled* inputs (the evaluation times `m⁻¹`), while the verifier
  (activation.rs:496-505) registers the evaluation itself. The batch opening is computed with the value of the
  prover and is rejected with the value of the verifier (`C93_gelu_false`, `C93_other_value_rejected`), so no proof
  of a model with a GELU layer of non-trivial size verifies. The only test proves a layer with 32 padded entries,
  below the trivial size, where the value of the claim is not used by the prover.
- C97 `C97_forgery_false`: the error of C39 reaches the public outputs. In any feed-forward network with a
  requantisation layer a dishonest prover proves that layer with another input, appends two evaluations to its
  proof, and the whole proof is accepted with the wrong outputs, every commitment opened truthfully.
  `C97_wrong_output_false` is a complete example: the network computes `[0, 3, 1, 3]`, a proof of `[3, 0, 0, 0]` is
  accepted. Comparing the number of evaluations with the number of commitments in `verify_requant`
  (requant.rs:805-815) removes it.
- C98: `pow_two_omegas` (convolution.rs:1450-1461) writes `pows[0]` of a vector of length `n - 1`. For a
  convolution of 1×1 inputs the verifier calls it with `n = 1`, so verification panics on every proof, although
  padding and evaluation of such a layer succeed (`C98_unit_frame_false`).
- C98: when the last challenge of the sumcheck for the transform of the input is 1, prover and verifier of a
  convolution both take the inverse of zero and panic (convolution.rs:1036, 1357); the same holds for the weights in
  the verifier (1301). C96 therefore assumes that no convolution meets this challenge (`NeverBad`, `ConvDivides`).
- The verifier of `simple_batch_verify` takes every proof that carries tables as a proof for small polynomials and
  compares only the root of their Merkle tree with the commitment; it looks neither at the point nor at the values.
  Whoever made the commitment can send the committed codewords as tables, at every size, and is believed all values
  at all points (`C100_any_values_false`). The values are also not written to the transcript before the weights are
  drawn, so for an honest proof two values can be shifted so that the errors cancel (`C100_values_unbound_false`).
  These functions are public but are used only by the tests and benches of `mpcs`.
- ONNX loading (C101). `load_gemm` never looks at the einsum expression: it decides by sizes whether to transpose,
  so a square matrix with one row per input is used transposed (`C101_square_matrix_false`). `load_relu` checks
  neither the operation nor the constant: `max(x, 6)` and a product with a constant inside a node named
  `LeakyRelu/Mul` are loaded as ReLU (`C101_relu_constant_false`, `C101_relu_operation_false`). `load_maxpool`
  accepts missing strides, which mean 1, and the ceil mode, and loads a pooling with stride 2 that rounds down
  (`C101_pool_strides_false`, `C101_pool_ceil_false`). `load_flatten` does not look at the operation
  (`C101_flatten_operation_false`). `load_conv` takes a bias without dimensions for a missing bias, whatever its
  value (`C101_scalar_bias_false`).
- The loader of an ONNX node is that of the first key of a hash map that occurs in the name of the node. If two keys
  occur, the order of the map, which is random per process, decides: the same file is loaded to different models or
  refused (`C102_order_false`, `C102_refused_false`).
- C84: a layer normalisation over fewer than four rows cannot be proved: the prover of its lookups fails on tables
  with fewer than two variables (`C92_short_lookup_false`): `C84_few_rows_false`.
- C91: a matrix multiplication quantises its bias with the factor of the output in place of that of the weights
  (matrix_mul.rs:582-585, see C63). Read with the announced factor, the bias is multiplied by the factor of the
  weights over that of the output; the exact deviation is in `C91_matmul_bias_false`.
- C103: `maxpool2d_shape` (pooling.rs:774-784) and `conv2d_shape` (convolution.rs:1565-1578) read the height only
  and announce a square output, so for images whose sides have different halves the shape that inference records
  is not that of the output (`C103_pool_false`); preparing such a model for proofs is refused later
  (`check_cnn_input`). The float convolution returns four dimensions where three are announced
  (`C103_conv_float_false`). `AddCtx` announces one output per input although an addition has one output
  (add.rs:258-270, `C103_add_context_false`).
  `Logits` accepts scores of any rank from 2 on but announces one row per entry of the first dimension
  (transformer/logits.rs:96-130, `C103_logits_false`); proving such an evaluation is refused later (507).
