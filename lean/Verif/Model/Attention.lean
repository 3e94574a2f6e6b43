import Verif.Model.Tensor
import Verif.Model.Mle
import Mathlib.Algebra.Field.Basic
import Mathlib.Algebra.Ring.Int.Defs

/-!
The attention mask and the quantised softmax: `AttentionMask` and `Softmax<Element>` of zkml/src/layers/transformer/softmax.rs, `zeroifier`, `infinitizer` and their evaluations of mha.rs, `tri` and `tril` of
zkml/src/tensor.rs. Integers do not overflow; the shape of a tensor matches its data (`Tensor::new` checks it).
-/

namespace Model

/-! ### Masks -/

/-- One row of `Tensor::tri`, tensor.rs:1536-1544. -/
def triRow {α : Type} (dim : ℕ) (diag : ℤ) (lower upper : α) (i : ℕ) : List α :=
  if (i : ℤ) + diag < 0 then List.replicate dim upper
  else (List.replicate ((i : ℤ) + diag + 1).toNat lower ++ List.replicate dim upper).take dim

/-- `Tensor::tri`, tensor.rs:1526-1550: one matrix, repeated (`cycle` then `take`). -/
def tri {α : Type} (dim num : ℕ) (diag : ℤ) (lower upper : α) : Tensor α :=
  let matrix := (List.range dim).flatMap (triRow dim diag lower upper)
  ⟨[num, dim, dim], (List.range (num * dim * dim)).filterMap fun k => matrix[k % matrix.length]?⟩

/-- `Tensor::tril`, tensor.rs:1516-1518. -/
def tril {α : Type} [Zero α] [One α] (dim num : ℕ) (diag : ℤ) : Tensor α := tri dim num diag 1 0

/-- `zeroifier`, mha.rs:850-865. -/
def zeroifier {α : Type} [Zero α] [One α] (heads q s : ℕ) : Tensor α :=
  ⟨[heads, q, s], (List.range heads).flatMap fun _ => (List.range q).flatMap fun i => (List.range s).map fun e => if i < e then 0 else 1⟩

/-- `infinitizer`, mha.rs:868-888. -/
def infinitizer {α : Type} [Zero α] (heads q s : ℕ) (ninf : α) : Tensor α :=
  ⟨[heads, q, s], (List.range heads).flatMap fun _ => (List.range q).flatMap fun i => (List.range s).map fun e => if i < e then ninf else 0⟩

/-- `eval_zeroifier_mle`, mha.rs:894-901. -/
def evalZeroifier {F : Type} [Field F] (col row : List F) : F :=
  (col.zip row).foldl (fun acc cr => acc * (1 - cr.1 - cr.2 + 2 * cr.1 * cr.2) + (1 - cr.1) * cr.2) 1

/-- `eval_infinitizer_mle`, mha.rs:907-914; `ninf` is given in the field. -/
def evalInfinitizer {F : Type} [Field F] (col row : List F) (ninf : F) : F := ninf * (1 - evalZeroifier col row)

/-- `AttentionMask`, softmax.rs:1590-1598. -/
structure AttentionMask (α : Type) where
  tril : Tensor α
  bias : Tensor α
  ninf : α

variable {α : Type} [CommRing α]

/-- `AttentionMask::new`, softmax.rs:1611-1651. -/
def AttentionMask.new (shape : List ℕ) (ninf : α) : Option (AttentionMask α) :=
  match shape with
  | [a, b] => if a = b then some ⟨Model.tril b 1 0, tri b 1 0 0 ninf, ninf⟩ else none
  | [h, a, b] => if a = b then some ⟨Model.tril b h 0, tri b h 0 0 ninf, ninf⟩ else none
  | _ => none

/-- `AttentionMask::pad`, softmax.rs:1654-1690. -/
def AttentionMask.pad (m : AttentionMask α) : Option (AttentionMask α) :=
  if ((m.tril.shape.zip m.bias.shape).all fun x => x.1 == x.2) then
    if (m.tril.shape.all fun s => nextPow2 s == s) then some m
    else
      match m.bias.shape with
      | [h, _, b] => some ⟨Model.tril (nextPow2 b) (nextPow2 h) 0, tri (nextPow2 b) (nextPow2 h) 0 0 m.ninf, m.ninf⟩
      | _ => none
  else none

/-- `input.mul(&tril).add(&bias)`, softmax.rs:1717, 1733, on the flat data (tensor.rs:889-963). -/
def maskData (data tril bias : List α) : List α := List.zipWith (· + ·) (List.zipWith (· * ·) data tril) bias

/-- `AttentionMask::apply`, softmax.rs:1694-1734. -/
def AttentionMask.apply (m : AttentionMask α) (input : Tensor α) : Option (Tensor α) :=
  match input.shape with
  | [h, a, b] => if (([h, a, b].zip m.tril.shape).all fun x => x.1 == x.2) then some ⟨[h, a, b], maskData input.data m.tril.data m.bias.data⟩ else none
  | [a, b] => if (([1, a, b].zip m.tril.shape).all fun x => x.1 == x.2) then some ⟨[a, b], maskData input.data m.tril.data m.bias.data⟩ else none
  | _ => none

/-! ### Quantised softmax -/

/-- `Softmax<Element>` with its `QuantisedSoftmaxData`, softmax.rs:82-97. The two functions computed with `f32` are parameters: `logSum`, `round(SCALE_FACTOR · T · ln Σ exp(dequantize(d) / T))` for the
differences `d` of a row's entries from their maximum (291-304), and `table`, `SoftmaxTableData::table_output` (lookup/context.rs:110-121). -/
structure QuantSoftmax where
  scalar : ℤ
  bkm : ℤ
  zeroChunks : ℕ
  zeroVars : ℕ
  logSum : List ℤ → ℤ
  table : ℤ → ℤ

/-- The value standing for minus infinity, softmax.rs:267, 1536: `-((bkm >> 16) + 1) << 16`. -/
def QuantSoftmax.ninf (q : QuantSoftmax) : ℤ := -(q.bkm / 2 ^ 16 + 1) * 2 ^ 16

/-- The number of variables of the exponential table, softmax.rs:196, 507: `ceil_log2(bkm as usize >> 16)`. -/
def QuantSoftmax.tableVars (q : QuantSoftmax) : Option ℕ := ceilLog2 (q.bkm / 2 ^ 16).toNat

/-- The shift of row `i`, softmax.rs:284-304; `second` is the second to last dimension. -/
def QuantSoftmax.rowShift (q : QuantSoftmax) (second i : ℕ) (row : List ℤ) : Option ℤ :=
  if i % second = 0 then row[0]?.map fun x => -x * q.scalar
  else do
    let m ← (row.take (i % second + 1)).max?
    some (-(q.logSum ((row.take (i % second + 1)).map fun x => x - m)) - m * q.scalar)

/-- The shifts of all rows, `calculate_shift_data`, softmax.rs:250-317. -/
def QuantSoftmax.shifts (q : QuantSoftmax) (second final : ℕ) (data : List ℤ) : Option (List ℤ) :=
  (chunks final data).zipIdx.mapM fun ri => q.rowShift second ri.2 ri.1

/-- The scaled and shifted input, softmax.rs:488-498. -/
def QuantSoftmax.shifted (q : QuantSoftmax) (final : ℕ) (data shifts : List ℤ) : List ℤ :=
  ((chunks final data).zip shifts).flatMap fun rs => rs.1.map fun e => e * q.scalar + rs.2

/-- What is computed for one entry, softmax.rs:519-545. -/
structure SoftmaxEntry where
  low : ℕ
  high : ℕ
  expIn : ℕ
  expOut : ℤ
  zeroIn : List ℕ
  zeroOut : List ℤ
  out : ℤ
deriving DecidableEq

/-- The loop body for one entry, softmax.rs:519-545; `tv` is the number of variables of the table. -/
def QuantSoftmax.entry (q : QuantSoftmax) (tv : ℕ) (x : ℤ) : SoftmaxEntry :=
  let a := x.natAbs
  let expIn : ℕ := a / 2 ^ 16 % 2 ^ tv
  let expOut := q.table expIn
  let zeroIn := (List.range q.zeroChunks).map fun k => a / 2 ^ 16 / 2 ^ tv / (2 ^ q.zeroVars) ^ k % 2 ^ q.zeroVars
  let zeroOut := zeroIn.map fun c => if c ≠ 0 then 0 else 1
  ⟨a % 2 ^ 8, a / 2 ^ 8 % 2 ^ 8, expIn, expOut, zeroIn, zeroOut, zeroOut.foldl (· * ·) expOut⟩

/-- `SoftmaxData`, softmax.rs:419-438, and the output. -/
structure SoftmaxRun where
  shift : List ℤ
  shifted : List ℤ
  masked : List ℤ
  entries : List SoftmaxEntry
  output : Tensor ℤ

/-- `Softmax::<Element>::evaluate`, softmax.rs:456-571; `chunks(0)` panics. -/
def QuantSoftmax.evaluate (q : QuantSoftmax) (input : Tensor ℤ) : Option SoftmaxRun := do
  let final ← input.shape.getLast?
  let second ← input.shape.dropLast.getLast?
  if 0 < final then do
    let shift ← q.shifts second final input.data
    let mask ← AttentionMask.new input.shape q.ninf
    let shifted := q.shifted final input.data shift
    let masked ← mask.apply ⟨input.shape, shifted⟩
    let tv ← q.tableVars
    let entries := masked.data.map (q.entry tv)
    some ⟨shift, shifted, masked.data, entries, ⟨input.shape, entries.map SoftmaxEntry.out⟩⟩
  else none

/-- The number of zero-table chunks and the number of variables of the zero table, softmax.rs:173-212, from the smallest input (`min_softmax_input`, computed with `f32`, 170) and the size of the
exponential table. Dividing by an exponential table of no variables panics. -/
def zeroChunkParams (minInput : ℤ) (tv : ℕ) : Option (ℕ × ℕ) := do
  let minBits ← ceilLog2 (minInput / 2 ^ 16).natAbs
  if tv < minBits then
    if tv = 0 then none
    else
      let remaining := minBits - tv
      let number := (remaining - 1) / tv + 1
      some (number, if number = 1 then remaining else tv)
  else some (0, 0)

end Model
