import Verif.Model.Fft
import Verif.Model.Merkle

/-!
The codes of the polynomial commitment: `mpcs/src/basefold/encoding.rs`, `mpcs/src/basefold/encoding/rs.rs`,
`mpcs/src/basefold/encoding/basecode.rs`, with the helpers of `mpcs/src/util/arithmetic.rs`,
`mpcs/src/util/arithmetic/hypercube.rs` and `mpcs/src/util/plonky2_util/mod.rs`.

Simplifications: one field `F` stands for the base field and its extension (base elements are embedded with `E::from`); parallel iterators are
sequential; panics and errors are `none`; `usize` does not overflow.
-/

namespace Model

variable {F : Type}

/-! ### Bit reversal -/

/-- `reverse_bits`, plonky2_util/mod.rs:72-80: the lowest `num_bits` bits in reverse order. (For `num_bits = 0` the code returns `0` only
on `0`, the only argument it is used with.) -/
def reverseBits : (numBits n : ℕ) → ℕ
  | 0, _ => 0
  | k + 1, n => n % 2 * 2 ^ k + reverseBits k (n / 2)

/-- `reverse_index_bits_in_place` and `reverse_index_bits`, plonky2_util/mod.rs:54-63, 200-252: panics unless the length is a power of two.
The result is the one the comment at lines 65-70 gives; the cache-friendly in-place algorithm is not modelled here. -/
def reverseIndexBits (v : List F) : Option (List F) := do
  let k ← log2Strict v.length
  (List.range v.length).mapM fun i => v[reverseBits k i]?

variable [Field F]

/-! ### Hypercube -/

/-- `chunk[1] -= chunk[0]`, hypercube.rs:21-23, sumcheck.rs:47-49; a chunk of length one panics. -/
def pairDiff : List F → Option (List F)
  | [a, b] => some [a, b - a]
  | _ => none

/-- The body of the loop over a chunk, hypercube.rs:29-34: `chunk[j] -= chunk[j - half]` for `j` from `half` to the chunk size. -/
def chunkDiff (half : ℕ) (chunk : List F) : Option (List F) :=
  (List.range half).foldlM (fun c k => do
    let x ← c[k + half]?
    let y ← c[k]?
    set? c (k + half) (x - y)) chunk

/-- One pass, hypercube.rs:27-35, `chunk_size = 1 << i`. -/
def hypercubePass (v : List F) (i : ℕ) : Option (List F) := do
  let cs ← (chunks (2 ^ i) v).mapM (chunkDiff (2 ^ i >>> 1))
  some cs.flatten

/-- `interpolate_over_boolean_hypercube`, hypercube.rs:16-37. -/
def interpolateHypercube (evals : List F) : Option (List F) := do
  let n ← log2Strict evals.length
  let cs ← (chunks 2 evals).mapM pairDiff
  (List.range' 2 (n + 1 - 2)).foldlM hypercubePass cs.flatten

/-! ### Arithmetic -/

/-- `horner`, arithmetic.rs:26-28. -/
def horner (coeffs : List F) (x : F) : F := coeffs.reverse.foldl (fun acc c => acc * x + c) 0

/-- `interpolate2_weights`, arithmetic.rs:120-132. -/
def interpolate2Weights (a0 a1 b0 b1 weight x : F) : F := a1 + (x - a0) * (b1 - a1) * weight

/-! ### Coding schemes -/

/-- The part of `EncodingScheme` (encoding.rs:26-85) that the protocol uses, after `setup` and `trim`: the prover's and the verifier's
parameters are already applied. -/
structure CodeScheme (F : Type) where
  /-- `get_number_queries`. -/
  numQueries : ℕ
  /-- `get_rate_log`. -/
  rateLog : ℕ
  /-- `get_basecode_msg_size_log`. -/
  basecodeLog : ℕ
  /-- `get_max_message_size_log`. -/
  maxLog : ℕ
  /-- `message_is_left_and_right_folding`; `message_is_even_and_odd_folding` is its negation. -/
  leftRight : Bool
  encode : List F → Option (List F)
  encodeSmall : List F → Option (List F)
  proverCoeffs : ℕ → ℕ → Option (F × F × F)
  verifierCoeffs : ℕ → ℕ → Option (F × F × F)

/-- `fold_bitreversed_codeword`, encoding.rs:91-116; also `basefold_one_round_by_interpolation_weights`, commit_phase.rs:511-526, which is
given `level = log2_strict(len) - 1`. -/
def foldCodeword (S : CodeScheme F) (codeword : List F) (challenge : F) : Option (List F) := do
  let k ← log2Strict codeword.length
  let level ← checkedSub k 1
  (List.range (codeword.length / 2)).mapM fun i => do
    let y0 ← codeword[2 * i]?
    let y1 ← codeword[2 * i + 1]?
    let x ← S.proverCoeffs level i
    some (interpolate2Weights x.1 y0 x.2.1 y1 x.2.2 challenge)

/-- `fold_message`, encoding.rs:123-135. -/
def foldMessage (msg : List F) (challenge : F) : Option (List F) :=
  (List.range (msg.length / 2)).mapM fun i => do
    let y0 ← msg[2 * i]?
    let y1 ← msg[2 * i + 1]?
    some (y0 + y1 * challenge)

/-! ### Reed-Solomon -/

/-- `fft_root_table`, rs.rs:31-63; `gen` is `F::two_adic_generator`. -/
def fftRootTable (gen : ℕ → F) (lgN : ℕ) : Option (List (List F)) :=
  let bases := List.iterate (fun b => b * b) (gen lgN) (max lgN 1)
  (List.range lgN).mapM fun i => do
    let base ← bases[lgN - (i + 1)]?
    some (twiddles base (max (2 ^ i) 2))

/-- One pass of `fft_classic_inner`, rs.rs:100-120: the loop over `k` visits the chunks of length `m`. -/
def fftRound (v : List F) (row : ℕ × List F) : Option (List F) := do
  let cs ← (chunks (2 ^ (row.1 + 1)) v).mapM (butterfly row.2 1 (2 ^ (row.1 + 1) / 2))
  some cs.flatten

/-- `fft_classic_inner`, rs.rs:92-121. -/
def fftInner (v : List F) (r lgN : ℕ) (table : List (List F)) : Option (List F) :=
  (((List.range table.length).zip table).take lgN |>.drop r).foldlM fftRound v

/-- The loop `values[i] = values[i & mask]`, rs.rs:154-170, with `i & mask = i / 2^r * 2^r`. -/
def copyLow (r : ℕ) (v : List F) : Option (List F) :=
  if 0 < r then
    (List.range v.length).foldlM (fun w i => do
      let x ← w[i / 2 ^ r * 2 ^ r]?
      set? w i x) v
  else some v

/-- `fft`, rs.rs:129-173. -/
def fftRs (v : List F) (r : ℕ) (table : List (List F)) : Option (List F) := do
  let v ← reverseIndexBits v
  let lgN ← log2Strict v.length
  if table.length = lgN then do
    let v ← copyLow r v
    fftInner v r lgN table
  else none

/-- `coset_fft`, rs.rs:175-189: coefficient `i` is multiplied by `shift^i`, a running product. -/
def cosetFft (coeffs : List F) (shift : F) (zeroFactor : ℕ) (table : List (List F)) : Option (List F) :=
  fftRs (List.zipWith (· * ·) coeffs (twiddles shift coeffs.length)) zeroFactor table

/-- `RSCodeSpec`, rs.rs:20-26. -/
structure RsSpec where
  numQueries : ℕ
  rateLog : ℕ
  basecodeLog : ℕ

/-- `RSCodeDefaultSpec`, rs.rs:194-215. -/
def rsDefaultSpec : RsSpec := ⟨200, 1, 7⟩

/-- `RSCodeProverParameters` and `RSCodeVerifierParameters`, rs.rs:231-258. -/
structure RsParams (F : Type) where
  table : List (List F)
  gammaPowers : List F
  gammaInvDivTwo : List F
  fullLog : ℕ

/-- `trim`, rs.rs:283-348; `gamma` is `GENERATOR`. -/
def rsTrim (spec : RsSpec) (gamma : F) (table : List (List F)) (maxLog : ℕ) : Option (RsParams F × RsParams F) :=
  if table.length < maxLog + spec.rateLog then none
  else if maxLog < spec.basecodeLog then some (⟨[], [], [], maxLog⟩, ⟨[], [], [], maxLog⟩)
  else do
    let gp := List.iterate (fun x => x * x) gamma (max (maxLog + spec.rateLog) 1)
    let gi := (List.iterate (fun x => x * x) gamma⁻¹ (max (maxLog + spec.rateLog) 1)).map fun x => x * (2 : F)⁻¹
    let t := table.take (maxLog + spec.rateLog)
    let high ← (t.drop (spec.basecodeLog + spec.rateLog)).mapM fun v => do some [← v[1]?]
    some (⟨t, gp, gi, maxLog⟩, ⟨t.take (spec.basecodeLog + spec.rateLog) ++ high, gp, gi, maxLog⟩)

/-- `encode_internal`, rs.rs:458-501; `exp_power_of_2(k)` squares `k` times. -/
def rsEncodeInternal (spec : RsSpec) (gamma : F) (table : List (List F)) (coeffs : List F) (fullLog : ℕ) : Option (List F) := do
  let lgM ← log2Strict coeffs.length
  if lgM + spec.rateLog ≤ table.length ∧ lgM ≤ fullLog then
    cosetFft (coeffs ++ List.replicate (coeffs.length * (2 ^ spec.rateLog - 1)) 0) ((fun x => x * x)^[fullLog - lgM] gamma) spec.rateLog
      (table.take (lgM + spec.rateLog))
  else none

/-- `encode`, rs.rs:350-354. -/
def rsEncode (spec : RsSpec) (gamma : F) (pp : RsParams F) (coeffs : List F) : Option (List F) := do
  let lgM ← log2Strict coeffs.length
  if spec.basecodeLog ≤ lgM then rsEncodeInternal spec gamma pp.table coeffs pp.fullLog else none

/-- `encode_small`, rs.rs:356-359. -/
def rsEncodeSmall (spec : RsSpec) (gamma : F) (vp : RsParams F) (coeffs : List F) : Option (List F) :=
  rsEncodeInternal spec gamma vp.table coeffs vp.fullLog

/-- The root of the level, rs.rs:390-394 and 423-427. -/
def rsRoot (row : List F) (level index : ℕ) : Option F :=
  if index < 2 ^ level then row[index]? else do some (-(← row[index - 2 ^ level]?))

/-- The inverse root in the weight, rs.rs:400-408 and 439-447. -/
def rsInvRoot (row : List F) (level index : ℕ) : Option F :=
  if index = 0 then some 1
  else if index < 2 ^ level then do some (-(← row[2 ^ level - index]?))
  else if index = 2 ^ level then some (-1)
  else row[2 ^ (level + 1) - index]?

/-- `prover_folding_coeffs`, rs.rs:377-410. -/
def rsProverCoeffs (spec : RsSpec) (pp : RsParams F) (level index : ℕ) : Option (F × F × F) := do
  let index := reverseBits level index
  let row ← pp.table[level]?
  let d ← checkedSub (pp.fullLog + spec.rateLog) (level + 1)
  let root ← rsRoot row level index
  let gamma ← pp.gammaPowers[d]?
  let x0 := root * gamma
  let inv ← rsInvRoot row level index
  let gammaInv ← pp.gammaInvDivTwo[d]?
  some (x0, -x0, -gammaInv * inv)

/-- `verifier_folding_coeffs`, rs.rs:412-454. -/
def rsVerifierCoeffs (spec : RsSpec) (vp : RsParams F) (level index : ℕ) : Option (F × F × F) := do
  let index := reverseBits level index
  let row ← vp.table[level]?
  let d ← checkedSub (vp.fullLog + spec.rateLog) (level + 1)
  let root ← if level < spec.basecodeLog + spec.rateLog then rsRoot row level index else do some ((← row[0]?) ^ index)
  let gamma ← vp.gammaPowers[d]?
  let x0 := root * gamma
  let inv ← if level < spec.basecodeLog + spec.rateLog then rsInvRoot row level index
    else do some ((← row[0]?) ^ (2 ^ (level + 1) - index))
  let gammaInv ← vp.gammaInvDivTwo[d]?
  some (x0, -x0, -gammaInv * inv)

/-- `RSCode` after `setup(setupLog)` (rs.rs:275-281) and `trim(maxLog)`. -/
def rsScheme (spec : RsSpec) (gen : ℕ → F) (gamma : F) (setupLog maxLog : ℕ) : Option (CodeScheme F) := do
  let table ← fftRootTable gen (setupLog + spec.rateLog)
  let p ← rsTrim spec gamma table maxLog
  some { numQueries := spec.numQueries, rateLog := spec.rateLog, basecodeLog := spec.basecodeLog, maxLog := maxLog, leftRight := false,
         encode := rsEncode spec gamma p.1, encodeSmall := rsEncodeSmall spec gamma p.2,
         proverCoeffs := rsProverCoeffs spec p.1, verifierCoeffs := rsVerifierCoeffs spec p.2 }

/-! ### The random foldable code -/

/-- `BasecodeSpec`, basecode.rs:36-66. -/
structure BasecodeSpec where
  numQueries : ℕ
  rateLog : ℕ
  basecodeLog : ℕ

/-- `get_basecode`, basecode.rs:242-261: `par_chunks_exact(message_size)`, domain `1, 2, ...`. -/
def getBasecode (poly : List F) (rate messageSize : ℕ) : List (List F) :=
  (List.range (poly.length / messageSize)).map fun c =>
    (List.range (messageSize * rate)).map fun (i : ℕ) => horner ((poly.drop (messageSize * c)).take messageSize) ((i : F) + 1)

/-- The loop body, basecode.rs:293-301. -/
def foldableStep (level : List F) (half : ℕ) (chunk : List F) (k : ℕ) : Option (List F) := do
  let x ← chunk[k + half]?
  let t ← level[k]?
  let y ← chunk[k]?
  let chunk ← set? chunk (k + half) (y - x * t)
  set? chunk k (y + x * t)

/-- One level, basecode.rs:281-304; `chunk` is the chunk size after doubling. -/
def foldableLevel (table : List (List F)) (logRate : ℕ) (st : ℕ × List F) (i : ℕ) : Option (ℕ × List F) := do
  let level ← table[i + logRate]?
  let size := st.1 <<< 1
  if level.length = size >>> 1 then do
    let cs ← (chunks size st.2).mapM fun c => (List.range (size >>> 1)).foldlM (foldableStep level (size >>> 1)) c
    some (size, cs.flatten)
  else none

/-- `evaluate_over_foldable_domain_generic_basecode`, basecode.rs:264-307. -/
def foldableEval (baseLength numCoeffs logRate : ℕ) (base : List (List F)) (table : List (List F)) : Option (List F) := do
  let logk ← log2Strict numCoeffs
  let baseLog ← log2Strict baseLength
  let first ← base.head?
  let st ← (List.range' baseLog (logk - baseLog)).foldlM (foldableLevel table logRate) (first.length, base.flatten)
  some st.2

/-- `get_table_aes`, basecode.rs:310-381, from the field elements `flat` read off the key stream; gives the table with weights and the
table. `batch_multiplicative_inverse` panics on zero. The AES key stream is a parameter. -/
def basecodeTables [DecidableEq F] (flat : ℕ → F) (lgN : ℕ) : Option (List (List (F × F)) × List (List F)) :=
  if lgN = 0 ∨ ∃ i ∈ List.range (2 ^ lgN), 0 - flat i - flat i = 0 then none
  else do
    let rows := (List.range lgN).map fun i => (List.range (2 ^ i)).map fun j => flat (2 ^ i + j)
    let weighted ← rows.mapM fun row => reverseIndexBits (row.map fun x => (x, (0 - x - x)⁻¹))
    some (weighted, rows)

/-- `encode`, basecode.rs:153-170. -/
def basecodeEncode (spec : BasecodeSpec) (table : List (List F)) (coeffs : List F) : Option (List F) :=
  foldableEval (2 ^ spec.basecodeLog) coeffs.length spec.rateLog (getBasecode coeffs (2 ^ spec.rateLog) (2 ^ spec.basecodeLog)) table

/-- `encode_small`, basecode.rs:172-177. -/
def basecodeEncodeSmall (spec : BasecodeSpec) (coeffs : List F) : Option (List F) :=
  match getBasecode coeffs (2 ^ spec.rateLog) coeffs.length with
  | [c] => some c
  | _ => none

/-- `prover_folding_coeffs`, basecode.rs:195-202. -/
def basecodeProverCoeffs (table : List (List (F × F))) (level index : ℕ) : Option (F × F × F) := do
  let row ← table[level]?
  let x ← row[index]?
  some (x.1, -x.1, x.2)

/-- `query_root_table_from_rng_aes`, basecode.rs:383-406: reads the key stream at element `level_offset + reverse_bits(index, level)`. -/
def queryRootTable (flat : ℕ → F) (level index : ℕ) : F :=
  flat ((List.range level).foldl (fun off i => off + 2 ^ i) 1 + reverseBits level index)

/-- `verifier_folding_coeffs`, basecode.rs:204-218. -/
def basecodeVerifierCoeffs [DecidableEq F] (flat : ℕ → F) (level index : ℕ) : Option (F × F × F) :=
  let x0 := queryRootTable flat level index
  if -x0 - x0 = 0 then none else some (x0, -x0, (-x0 - x0)⁻¹)

/-- `Basecode` after `setup(setupLog)` and `trim(maxLog)`, basecode.rs:107-151. -/
def basecodeScheme [DecidableEq F] (spec : BasecodeSpec) (flat : ℕ → F) (setupLog maxLog : ℕ) : Option (CodeScheme F) := do
  let t ← basecodeTables flat (spec.rateLog + setupLog)
  if t.2.length < spec.rateLog + maxLog then none
  else
    some { numQueries := spec.numQueries, rateLog := spec.rateLog, basecodeLog := spec.basecodeLog, maxLog := maxLog, leftRight := true,
           encode := basecodeEncode spec (t.2.take (spec.rateLog + maxLog)), encodeSmall := basecodeEncodeSmall spec,
           proverCoeffs := basecodeProverCoeffs (t.1.take (spec.rateLog + maxLog)), verifierCoeffs := basecodeVerifierCoeffs flat }

end Model
