import Mathlib.Data.List.Basic
import Mathlib.Data.Nat.Log
import Mathlib.Data.Nat.Bitwise

/-!
Model of the Merkle trees of the polynomial commitment, `mpcs/src/util/merkle_tree.rs` and `mpcs/src/util/hash.rs`.

The compression of two digests and the sponge for long inputs are parameters. Panics are `none`. The three copies of `merkelize` (one per
representation of the leaves) run the same loop and are modelled once.
-/

namespace Model

/-- `MerkleHasher`, hash.rs:11-42, with `as_bases` of the extension field; the other methods of the trait are derived below. -/
structure MerkleHasher (B E D : Type) where
  hashBases : List B → D
  hashTwoDigests : D → D → D
  asBases : E → List B

/-- `FieldType`, multilinear_extensions/src/mle.rs: a vector over the base or over the extension field. -/
inductive FieldType (B E : Type) where
  | base : List B → FieldType B E
  | ext : List E → FieldType B E
deriving DecidableEq

variable {B E D : Type}

/-- `FieldType::len`. -/
def FieldType.len : FieldType B E → ℕ
  | .base l => l.length
  | .ext l => l.length

/-- `hash_elems`, hash.rs:17-24. -/
def MerkleHasher.hashElems (H : MerkleHasher B E D) (elems : List E) : D := H.hashBases (elems.flatMap H.asBases)

/-- `hash_two_leaves`, hash.rs:25-28. -/
def MerkleHasher.hashTwoLeaves (H : MerkleHasher B E D) (a b : E) : D := H.hashBases (H.asBases a ++ H.asBases b)

/-- `hash_two_leaves_base`, hash.rs:29-31. -/
def MerkleHasher.hashTwoLeavesBase (H : MerkleHasher B E D) (a b : B) : D := H.hashBases [a, b]

/-- `hash_two_leaves_batch_base`, hash.rs:32-36. -/
def MerkleHasher.hashTwoLeavesBatchBase (H : MerkleHasher B E D) (a b : List B) : D :=
  H.hashTwoDigests (H.hashBases a) (H.hashBases b)

/-- `hash_two_leaves_batch_ext`, hash.rs:37-41. -/
def MerkleHasher.hashTwoLeavesBatchExt (H : MerkleHasher B E D) (a b : List E) : D :=
  H.hashTwoDigests (H.hashElems a) (H.hashElems b)

/-- The hash of a pair of leaves of one polynomial, merkle_tree.rs:430-434. -/
def leafPairHash (H : MerkleHasher B E D) : FieldType B E → Option D
  | .base [a, b] => some (H.hashTwoLeavesBase a b)
  | .ext [a, b] => some (H.hashTwoLeaves a b)
  | _ => none

/-- The hash of a pair of batched leaves, merkle_tree.rs:457-477. -/
def leafPairHashBatch (H : MerkleHasher B E D) : FieldType B E → FieldType B E → Option D
  | .base left, .base right =>
    if 1 < left.length then some (H.hashTwoLeavesBatchBase left right)
    else do some (H.hashTwoLeavesBase (← left[0]?) (← right[0]?))
  | .ext left, .ext right =>
    if 1 < left.length then some (H.hashTwoLeavesBatchExt left right)
    else do some (H.hashTwoLeaves (← left[0]?) (← right[0]?))
  | _, _ => none

/-- `log2_strict` of plonky2: panics unless the argument is a power of two. -/
def log2Strict (n : ℕ) : Option ℕ := if n = 2 ^ Nat.log 2 n then some (Nat.log 2 n) else none

/-- `field_type_index_base`, mpcs/src/util.rs:99-105. -/
def FieldType.indexBase : FieldType B E → ℕ → Option B
  | .base l, i => l[i]?
  | .ext _, _ => none

/-- `field_type_index_ext` (mpcs/src/util.rs:107-113) on a vector over the extension field. Batches are of one kind of field ("TODO:
Support merkelizing mixed-type values"), so the other case does not arise. -/
def FieldType.indexExt : FieldType B E → ℕ → Option E
  | .ext l, i => l[i]?
  | .base _, _ => none

/-- The batched leaf at position `i`: `get_leaf_as_base` or `get_leaf_as_extension`, merkle_tree.rs:123-137. -/
def leafAt (values : List (FieldType B E)) (i : ℕ) : Option (FieldType B E) :=
  match values with
  | .base _ :: _ => do some (.base (← values.mapM (·.indexBase i)))
  | .ext _ :: _ => do some (.ext (← values.mapM (·.indexExt i)))
  | [] => none

/-- The first layer of hashes of `merkelize`, merkle_tree.rs:271-315. The single-polynomial branch and the batched one are those of
`leafPairHashBatch`. -/
def firstLayer (H : MerkleHasher B E D) (values : List (FieldType B E)) (n : ℕ) : Option (List D) :=
  (List.range (n / 2)).mapM fun i => do
    leafPairHashBatch H (← leafAt values (2 * i)) (← leafAt values (2 * i + 1))

/-- One layer above: `par_chunks_exact(2)` and `hash_two_digests`, merkle_tree.rs:319-326. -/
def nextLayer (H : MerkleHasher B E D) : List D → List D
  | a :: b :: rest => H.hashTwoDigests a b :: nextLayer H rest
  | _ => []

/-- `for i in 1..log_v` of `merkelize`: `k` more layers above `layer`. -/
def layersAbove (H : MerkleHasher B E D) : ℕ → List D → List (List D)
  | 0, layer => [layer]
  | k + 1, layer => layer :: layersAbove H k (nextLayer H layer)

/-- `merkelize`, merkle_tree.rs:259-329; panics without a first polynomial or when its length is not a power of two. -/
def merkelize (H : MerkleHasher B E D) (values : List (FieldType B E)) : Option (List (List D)) := do
  let first ← values.head?
  let logV ← log2Strict first.len
  let hashes ← firstLayer H values first.len
  some (layersAbove H (logV - 1) hashes)

/-- `MerkleTree`, merkle_tree.rs:21-29. -/
structure MerkleTree (B E D : Type) where
  inner : List (List D)
  leaves : List (FieldType B E)

/-- `from_batch_leaves` and, for one polynomial, `from_leaves`, merkle_tree.rs:60-75. -/
def MerkleTree.fromBatchLeaves (H : MerkleHasher B E D) (leaves : List (FieldType B E)) : Option (MerkleTree B E D) := do
  some ⟨← merkelize H leaves, leaves⟩

/-- `root`, merkle_tree.rs:48-50, 76-78. -/
def MerkleTree.root (t : MerkleTree B E D) : Option D := do
  let last ← t.inner.getLast?
  last[0]?

/-- `merkle_path_without_leaf_sibling_or_root`, merkle_tree.rs:139-153. -/
def MerkleTree.path (t : MerkleTree B E D) (leafIndex : ℕ) : Option (List D) := do
  let first ← t.leaves.head?
  if leafIndex < first.len then
    ((t.inner.take (t.inner.length - 1)).zipIdx).mapM fun (x : List D × ℕ) => x.1[(leafIndex >>> (x.2 + 1)) ^^^ 1]?
  else none

/-- The loop over the path, merkle_tree.rs:436-445, 479-488. -/
def hashUp (H : MerkleHasher B E D) : List D → ℕ → D → D
  | [], _, hash => hash
  | p :: ps, x, hash => hashUp H ps (x >>> 1) (if x &&& 1 = 0 then H.hashTwoDigests hash p else H.hashTwoDigests p hash)

/-- The inputs of `hash_two_digests` in that loop, in order. -/
def hashUpCalls (H : MerkleHasher B E D) : List D → ℕ → D → List (D × D)
  | [], _, _ => []
  | p :: ps, x, hash => (if x &&& 1 = 0 then (hash, p) else (p, hash)) ::
    hashUpCalls H ps (x >>> 1) (if x &&& 1 = 0 then H.hashTwoDigests hash p else H.hashTwoDigests p hash)

/-- The inputs of `hash_bases` when a pair of batched leaves is hashed. -/
def leafBaseCalls (H : MerkleHasher B E D) : FieldType B E → FieldType B E → List (List B)
  | .base left, .base right => if 1 < left.length then [left, right] else [left ++ right]
  | .ext left, .ext right =>
    if 1 < left.length then [left.flatMap H.asBases, right.flatMap H.asBases] else [left.flatMap H.asBases ++ right.flatMap H.asBases]
  | _, _ => []

/-- The inputs of `hash_two_digests` when a pair of batched leaves is hashed. -/
def leafDigestCalls (H : MerkleHasher B E D) : FieldType B E → FieldType B E → List (D × D)
  | .base left, .base right => if 1 < left.length then [(H.hashBases left, H.hashBases right)] else []
  | .ext left, .ext right => if 1 < left.length then [(H.hashElems left, H.hashElems right)] else []
  | _, _ => []

/-- `authenticate_merkle_path_root`, merkle_tree.rs:422-447: whether the assertion holds; `none` for the other panics. -/
def authenticate [DecidableEq D] (H : MerkleHasher B E D) (path : List D) (leaves : FieldType B E) (index : ℕ) (root : D) : Option Bool := do
  let h ← leafPairHash H leaves
  some (decide (hashUp H path (index >>> 1) h = root))

/-- `authenticate_merkle_path_root_batch`, merkle_tree.rs:449-490. -/
def authenticateBatch [DecidableEq D] (H : MerkleHasher B E D) (path : List D) (left right : FieldType B E) (index : ℕ) (root : D) :
    Option Bool := do
  let h ← leafPairHashBatch H left right
  some (decide (hashUp H path (index >>> 1) h = root))

/-- `PoseidonHasher` (hash.rs:47-65) over a base field whose extension has degree two: inputs of at most four elements are not hashed
but padded with zeros (`hash_or_noop`, poseidon_hash.rs:22-28, `from_partial`, digest.rs:24-33). A digest is the list of its four
elements. The sponge and the compression are parameters. -/
def poseidonHasher (zero : B) (sponge : List B → List B) (compress : List B → List B → List B) : MerkleHasher B (B × B) (List B) where
  hashBases l := if l.length ≤ 4 then l ++ List.replicate (4 - l.length) zero else sponge l
  hashTwoDigests := compress
  asBases e := [e.1, e.2]

end Model
