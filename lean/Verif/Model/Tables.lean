import Verif.Model.Quant
import Verif.Model.Mle

/-!
Model of the lookup tables, zkml/src/lookup/context.rs, and of the table part of the verifier, zkml/src/iop/verifier.rs.

`bl` is `quantization::BIT_LEN`. The outputs that the code computes with `f32` (GELU, softmax, inverse square root) are
an arbitrary function `env` of the table and the input: `table_output`, context.rs:110-120, 140-150 and
layers/activation.rs:583-587.
-/

namespace Model

/-- `TableType`, context.rs:53-73, with `SoftmaxTableData` (77-84), `InverseSQRTTableData` (124-129) and
`GELUQuantData` (layers/activation.rs:565-572) inlined. Floats are represented by their bits. -/
inductive TableType where
  | relu
  | gelu (multiplier min max : ℤ)
  | range
  | clamping (size : ℕ)
  | softmax (temperature size : ℕ) (bkm : ℤ)
  | error (one err : ℤ)
  | zero (bits : ℕ)
  | invSqrt (eps bits : ℕ)
deriving DecidableEq

/-- `Relu::apply`, layers/activation.rs:553-555. -/
def reluApply (e : ℤ) : ℤ := if e < 0 then 0 else e

/-- The iterator `lo..hi` over elements. -/
def irange (lo hi : ℤ) : List ℤ := (List.range (hi - lo).toNat).map fun (i : ℕ) => lo + i

/-- `COLUMN_SEPARATOR`, context.rs:622. -/
def columnSeparator : ℤ := 2 ^ 32

/-- The clamping function of the table, context.rs:211-217, 404-410. -/
def clampTo (bl : ℕ) (i : ℤ) : ℤ := if i < qMin bl then qMin bl else if i > qMax bl then qMax bl else i

/-- The rows of the table, context.rs:158-290: each row lists the entries of the columns. Shifts by a negative amount
(`Clamping(0)`, `ErrorTable` with non-positive error) panic in the code; the model uses truncated subtraction, and
`ceilLog2 0 = none` gives the empty table. -/
def tableRows (env : TableType → ℤ → ℤ) (bl : ℕ) (t : TableType) : List (List ℤ) :=
  match t with
  | .gelu _ mn mx => (irange mn mx).map fun i => [i, env t i]
  | .relu => (irange (qMin bl - 1) (qMax bl + 1)).map fun i => [i, reluApply i]
  | .range => (irange 0 (2 ^ bl)).map fun i => [i]
  | .clamping size => (irange (-(2 ^ (size - 1))) (2 ^ (size - 1))).map fun i => [i, clampTo bl i]
  | .softmax _ size _ => (irange 0 (2 ^ size)).map fun j => [j, env t j]
  | .error one err =>
    match ceilLog2 (2 * err.toNat) with
    | some k => ((irange (one - err) (one + err + 1)).map (fun e => [e]) ++ List.replicate (2 ^ k) [0]).take (2 ^ k)
    | none => []
  | .zero bits => (irange 0 (2 ^ bits)).map fun i => [i, if i ≠ 0 then 0 else 1]
  | .invSqrt _ _ => (irange (-(2 ^ (2 * (bl - 1)))) (2 ^ (2 * (bl - 1)))).map fun i => [i, env t i]

/-- The single-column encoding of a row, `i + out * column_separator`, e.g. context.rs:173, 194, 221. -/
def mergeRow : List ℤ → ℤ
  | [a] => a
  | [a, b] => a + b * columnSeparator
  | _ => 0

/-- First component of `get_merged_table_column`, context.rs:158-290. -/
def mergedColumn (env : TableType → ℤ → ℤ) (bl : ℕ) (t : TableType) : List ℤ := (tableRows env bl t).map mergeRow

/-- Number of columns of the table. -/
def numColumns : TableType → ℕ
  | .range | .error _ _ => 1
  | _ => 2

/-- Second component of `get_merged_table_column`, context.rs:158-290: the columns as field elements. -/
def tableColumns {F : Type} [NatCast F] (p : ℕ) (env : TableType → ℤ → ℤ) (bl : ℕ) (t : TableType) : List (List F) :=
  (List.range (numColumns t)).map fun c => (tableRows env bl t).map fun row => toField p (row.getD c 0)

/-- `multiplicity_poly_vars`, context.rs:482-492; `table_size` of GELU: layers/activation.rs:575-577. -/
def tableVars (bl : ℕ) : TableType → Option ℕ
  | .gelu _ mn mx => ilog2 (mx - mn + 1).toNat
  | .range | .relu => some bl
  | .clamping bits => some bits
  | .softmax _ size _ => some size
  | .error _ err => ceilLog2 (2 * err.toNat)
  | .zero bits => some bits
  | .invSqrt _ _ => some (2 * (bl - 1) + 1)

/-- `point.iter().enumerate().fold(ZERO, |acc, (index, p)| acc + *p * (1 << index))`, e.g. context.rs:337-341. -/
def pointSum {F : Type} [Field F] (point : List F) : F :=
  point.zipIdx.foldl (fun acc pi => acc + pi.1 * ((2 ^ pi.2 : ℕ) : F)) 0

/-- The fold for the second relu column, context.rs:357-362. -/
def reluSecond {F : Type} [Field F] (point : List F) : F :=
  (point.zipIdx.take (point.length - 1)).foldl
    (fun acc pi => acc + pi.1 * ((2 ^ pi.2 : ℕ) : F) * point.getD (point.length - 1) 0) 0

/-- `evaluate_table_columns`, context.rs:323-461. -/
def evaluateTableColumns {F : Type} [Field F] (p bl : ℕ) (t : TableType) (point : List F) : Option (List F) :=
  match t with
  | .range => if point.length = bl then some [pointSum point] else none
  | .relu => if point.length = bl then some [pointSum point - ((2 ^ (bl - 1) : ℕ) : F), reluSecond point] else none
  | .gelu _ mn mx => do
      let size ← ilog2 (mx - mn + 1).toNat
      if point.length = size then some [pointSum point - ((2 ^ (size - 1) : ℕ) : F)] else none
  | .clamping size =>
      if point.length = size then
        let col := (irange (-(2 ^ (size - 1))) (2 ^ (size - 1))).map fun i => (toField p (clampTo bl i) : F)
        match (Mle.ofEvals size col).bind fun m => m.evaluate point with
        | some second => some [pointSum point - ((2 ^ (size - 1) : ℕ) : F), second]
        | none => none
      else none
  | .softmax _ size _ => if point.length = size then some [pointSum point] else none
  | .error _ _ => some []
  | .zero bits =>
      if point.length = bits then
        let r := point.zipIdx.foldl (fun (s : F × F) pi => (s.1 + pi.1 * ((2 ^ pi.2 : ℕ) : F), s.2 * (1 - pi.1))) (0, 1)
        some [r.1, r.2]
      else none
  | .invSqrt _ _ =>
      if point.length = 2 * (bl - 1) + 1 then some [pointSum point - ((2 ^ (2 * (bl - 1)) : ℕ) : F)] else none

/-- `committed_columns`, context.rs:495-543: the column (if any) whose evaluation is checked with a commitment. -/
def committedColumn {F : Type} [NatCast F] (p : ℕ) (env : TableType → ℤ → ℤ) (bl : ℕ) (t : TableType) : Option (List F) :=
  match t with
  | .gelu _ mn mx => some ((irange mn mx).map fun i => toField p (env t i))
  | .softmax _ size _ => some ((irange 0 (2 ^ size)).map fun j => toField p (env t j))
  | .error one err =>
    match ceilLog2 (2 * err.toNat) with
    | some k => some (((irange (one - err) (one + err + 1)).map (toField p) ++ List.replicate (2 ^ k) ((0 : ℕ) : F)).take (2 ^ k))
    | none => none
  | .invSqrt _ _ => some ((irange (-(2 ^ (2 * (bl - 1)))) (2 ^ (2 * (bl - 1)))).map fun i => toField p (env t i))
  | _ => none

/-- Whether `table_claims`, context.rs:546-559, keeps the last claim for a commitment opening. -/
def hasTableClaim : TableType → Bool
  | .softmax _ _ _ | .error _ _ | .invSqrt _ _ | .gelu _ _ _ => true
  | _ => false

/-- `verify_table` after the lookup proof, iop/verifier.rs:341-382. The input are the evaluations claimed by the lookup
proof, all at `point` (`poly_claims[0].point`); the result is the claim about the multiplicity polynomial and the claim
about the committed column. -/
def verifyTableClaims {F : Type} [Field F] [DecidableEq F] (p bl : ℕ) (t : TableType) (point evals : List F) :
    Option (F × Option F) :=
  match evals with
  | [] => none
  | m :: cols =>
    let tableClaim := if hasTableClaim t then evals.getLast? else none
    let extra := if hasTableClaim t then 1 else 0
    match evaluateTableColumns p bl t point with
    | none => none
    | some expected =>
      if expected.length + extra + 1 = evals.length ∧ (cols.zip expected).all (fun ce => ce.1 = ce.2) then
        some (m, tableClaim)
      else none

/-- `generate_challenge`, context.rs:463-479: tables with a single column use the constant 1, the others draw a
challenge. -/
def drawsChallenge : TableType → Bool
  | .range | .error _ _ => false
  | _ => true

end Model
