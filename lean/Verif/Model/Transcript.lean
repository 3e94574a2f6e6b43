import Verif.Model.Tables

/-!
The transcripts, `transcript/src/basic.rs` and `blake.rs`, and what is absorbed before the first layer of a proof is verified (`zkml/src/iop/verifier.rs`, `prover.rs`).

The challenger is `DefaultChallenger` (poseidon/src/challenger.rs:13-42), a wrapper of `p3_challenger::DuplexChallenger` with width 8 and rate 4; the latter is a dependency and
is modelled after its published source: overwrite mode, no padding. The permutation is a parameter. Extension field elements are pairs of base field elements
(ff_ext/src/lib.rs:285-305).
-/

namespace Model

variable {F : Type}

/-! ### The sponge -/

/-- `DuplexChallenger<F, P, 8, 4>`: state, buffered input, buffered output. -/
structure Duplex (F : Type) where
  state : List F
  input : List F
  output : List F

/-- `DuplexChallenger::new`, called at poseidon/src/challenger.rs:37-41. -/
def duplexNew [Zero F] : Duplex F := ⟨List.replicate 8 0, [], []⟩

/-- `duplexing`: the buffered input overwrites the beginning of the state, the permutation is applied, the first four elements are the new output. -/
def duplexing (perm : List F → List F) (s : Duplex F) : Duplex F :=
  let st := perm (s.input ++ s.state.drop s.input.length)
  ⟨st, [], st.take 4⟩

/-- `observe`, poseidon/src/challenger.rs:83-85. -/
def duplexObserve (perm : List F → List F) (s : Duplex F) (x : F) : Duplex F :=
  let s' : Duplex F := ⟨s.state, s.input ++ [x], []⟩
  if s'.input.length = 4 then duplexing perm s' else s'

/-- Whether `sample` permutes first. -/
def needsDuplexing (s : Duplex F) : Bool := !s.input.isEmpty || s.output.isEmpty

/-- `sample`, poseidon/src/challenger.rs:103-105: the output is taken from the back. It cannot be empty here, as the permutation keeps the width; the model gives 0 then. -/
def duplexSample [Zero F] (perm : List F → List F) (s : Duplex F) : F × Duplex F :=
  let s' := if needsDuplexing s then duplexing perm s else s
  (s'.output.getLast?.getD 0, { s' with output := s'.output.dropLast })

/-! ### The basic transcript -/

/-- The value of up to eight bytes, least significant first, ff_ext/src/lib.rs:265-269 (on a little-endian machine). -/
def leValue : List ℕ → ℕ
  | [] => 0
  | b :: bs => b + 256 * leValue bs

/-- `bytes_to_field_elements`, ff_ext/src/lib.rs:262-272: blocks of eight bytes, the last filled with zeros; `ofU64` is `from_canonical_u64`. `fuel` is at least the number
of bytes. -/
def bytesToFieldAux (ofU64 : ℕ → F) : ℕ → List ℕ → List F
  | 0, _ => []
  | fuel + 1, bs => if bs = [] then [] else ofU64 (leValue (bs.take 8)) :: bytesToFieldAux ofU64 fuel (bs.drop 8)

/-- `bytes_to_field_elements`, ff_ext/src/lib.rs:262-272. -/
def bytesToField (ofU64 : ℕ → F) (bs : List ℕ) : List F := bytesToFieldAux ofU64 bs.length bs

/-- A call on a transcript, transcript/src/lib.rs:21-88: `append_field_elements`, `append_field_element_ext`, `append_message`, `read_challenge`,
`get_and_append_challenge`. -/
inductive TranscriptOp (F : Type)
  | base (xs : List F)
  | ext (e : F × F)
  | message (bytes : List ℕ)
  | read
  | challenge (label : List ℕ)

/-- `read_challenge`, transcript/src/basic.rs:31-35: `sample_ext_element` takes two samples. -/
def readChallenge [Zero F] (perm : List F → List F) (s : Duplex F) : (F × F) × Duplex F :=
  let r₁ := duplexSample perm s
  let r₂ := duplexSample perm r₁.2
  ((r₁.1, r₂.1), r₂.2)

/-- One call on a `BasicTranscript`, transcript/src/basic.rs:22-35 and lib.rs:39-78: the new state and the challenge drawn, if any. -/
def basicStep [Zero F] (perm : List F → List F) (ofU64 : ℕ → F) (s : Duplex F) : TranscriptOp F → Duplex F × List (F × F)
  | .base xs => (xs.foldl (duplexObserve perm) s, [])
  | .ext e => ([e.1, e.2].foldl (duplexObserve perm) s, [])
  | .message bs => ((bytesToField ofU64 bs).foldl (duplexObserve perm) s, [])
  | .read => let r := readChallenge perm s; (r.2, [r.1])
  | .challenge label => let r := readChallenge perm ((bytesToField ofU64 label).foldl (duplexObserve perm) s); (r.2, [r.1])

/-- A sequence of calls: the final state and the challenges drawn. -/
def basicRun [Zero F] (perm : List F → List F) (ofU64 : ℕ → F) : Duplex F → List (TranscriptOp F) → Duplex F × List (F × F)
  | s, [] => (s, [])
  | s, op :: ops =>
    let r := basicStep perm ofU64 s op
    let q := basicRun perm ofU64 r.1 ops
    (q.1, r.2 ++ q.2)

/-- `BasicTranscript::new`, transcript/src/basic.rs:14-19. -/
def basicNew [Zero F] (perm : List F → List F) (ofU64 : ℕ → F) (label : List ℕ) : Duplex F := (bytesToField ofU64 label).foldl (duplexObserve perm) duplexNew

/-! ### The BLAKE3 transcript -/

/-- `BigUint::to_bytes_le`, called at transcript/src/blake.rs:29-31: the bytes without leading zeros, one zero byte for zero. `fuel` is at least the number of bytes. -/
def leBytesAux : ℕ → ℕ → List ℕ
  | 0, _ => []
  | fuel + 1, n => if n < 256 then [n] else n % 256 :: leBytesAux fuel (n / 256)

/-- The bytes of a canonical representative, transcript/src/blake.rs:29-31. -/
def leBytes (n : ℕ) : List ℕ := leBytesAux (n + 1) n

/-- The bytes of a label; all labels are ASCII. -/
def labelBytes (s : String) : List ℕ := s.toList.map Char.toNat

/-- The label `field_element`, transcript/src/blake.rs:65. -/
def labelBase : List ℕ := labelBytes "field_element"

/-- The label `field_element_ext`, transcript/src/blake.rs:70. -/
def labelExt : List ℕ := labelBytes "field_element_ext"

/-- One call on a `BlakeTranscript`, transcript/src/blake.rs:62-78 and lib.rs:39-78; field elements are given by their canonical representatives. The hasher is represented
by all the bytes it has been given; `draw` is `read_challenge`: any function of those bytes (it also hashes the label `challenge`, once per attempt). -/
def blakeStep {E : Type} (draw : List ℕ → E × List ℕ) (bytes : List ℕ) : TranscriptOp ℕ → List ℕ × List E
  | .base xs => (bytes ++ xs.flatMap (fun x => labelBase ++ leBytes x), [])
  | .ext e => (bytes ++ (labelExt ++ (leBytes e.1 ++ leBytes e.2)), [])
  | .message bs => (bytes ++ (bytesToField id bs).flatMap (fun x => labelBase ++ leBytes x), [])
  | .read => ((draw bytes).2, [(draw bytes).1])
  | .challenge label =>
    let r := draw (bytes ++ (bytesToField id label).flatMap (fun x => labelBase ++ leBytes x))
    (r.2, [r.1])

/-- A sequence of calls on a `BlakeTranscript`. -/
def blakeRun {E : Type} (draw : List ℕ → E × List ℕ) : List ℕ → List (TranscriptOp ℕ) → List ℕ × List E
  | s, [] => (s, [])
  | s, op :: ops =>
    let r := blakeStep draw s op
    let q := blakeRun draw r.1 ops
    (q.1, r.2 ++ q.2)

/-! ### What is absorbed before the layers -/

/-- `generate_challenge`, lookup/context.rs:464-479. -/
def tableChallengeOp : TableType → List (TranscriptOp F)
  | .gelu .. => [.challenge (labelBytes "GELU")]
  | .relu => [.challenge (labelBytes "Relu")]
  | .range | .error .. => []
  | .clamping _ => [.challenge (labelBytes "Clamping")]
  | .softmax .. => [.challenge (labelBytes "Softmax")]
  | .zero _ => [.challenge (labelBytes "Zero")]
  | .invSqrt .. => [.challenge (labelBytes "InverseSQRT")]

/-- The part of the verifier's `Context` used at the start: the roots of the commitments to the weights and to the table columns (commit/context.rs:44-50), and the tables
(lookup/context.rs:565-567). -/
structure StartCtx (F : Type) where
  modelRoots : List (List F)
  tableRoots : List (List F)
  tables : List TableType

/-- `IO`, iop/verifier.rs:27-42: the public input and output tensors, as flat data. -/
structure PublicIO (F : Type) where
  input : List (List F)
  output : List (List F)

/-- What the verifier's first steps find in the `Proof`: the roots of the commitments to the lookup witnesses and multiplicities, and the rest. -/
structure StartProof (F : Type) where
  witnessRoots : List (List F)
  rest : List F

/-- The calls of `Verifier::verify` on the transcript until the first layer is verified, iop/verifier.rs:73-143: `write_to_transcript` (commit/context.rs:181-193) writes the
roots of the weights, `ChallengeStorage::initialise` (iop/mod.rs:69-90) draws the constant challenge and those of the tables if there are any, and
`compute_model_output_claims` (layers/provable/mod.rs:513-536) draws the point of each output, here in the order of the outputs. -/
def verifierStart (ctx : StartCtx F) (io : PublicIO F) (_proof : StartProof F) : List (TranscriptOp F) :=
  ctx.modelRoots.map (fun r => .base r) ++
  (if ctx.tables = [] then [] else .challenge (labelBytes "table_constant") :: ctx.tables.flatMap tableChallengeOp) ++
  io.output.flatMap fun out => List.replicate (Nat.log2 out.length) .read

/-- The same for `Prover::prove`, iop/prover.rs:400-436: `generate_lookup_witnesses` (lookup/context.rs:631-756) commits to the witness columns and multiplicities and
then draws the challenges of the tables that have lookups, `used`. -/
def proverStart (ctx : StartCtx F) (used : List TableType) (outputs : List (List F)) (_witnessRoots : List (List F)) : List (TranscriptOp F) :=
  ctx.modelRoots.map (fun r => .base r) ++
  (if ctx.tables = [] then [] else .challenge (labelBytes "table_constant") :: used.flatMap tableChallengeOp) ++
  outputs.flatMap fun out => List.replicate (Nat.log2 out.length) .read

end Model
