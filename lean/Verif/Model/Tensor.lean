import Verif.Model.Slices
import Mathlib.Algebra.BigOperators.Group.List.Defs
import Mathlib.Algebra.Ring.Defs
import Mathlib.Order.Defs.LinearOrder

/-!
Tensors, zkml/src/tensor.rs.

Simplifications in the whole file: `og_shape`, which only the FFT convolution uses, is left out; integers do not overflow
(the element type is an arbitrary semiring, or an arbitrary linear order where only comparisons are used); parallel
iterators are sequential, each closure writes only its own output element. A failed assertion, an index out of range
and an underflow of `usize` are `none`.
-/

namespace Model

/-- tensor.rs:371-376. -/
structure Tensor (α : Type) where
  shape : List ℕ
  data : List α
  deriving DecidableEq

variable {α : Type}

/-- `Tensor::new`, tensor.rs:654-668; `Shape::product`, 2213. -/
def Tensor.new (shape : List ℕ) (data : List α) : Option (Tensor α) :=
  if shape.prod = data.length then some ⟨shape, data⟩ else none

/-! ### Indices -/

/-- The scan in `Shape::strides`, tensor.rs:2126-2134, over the reversed dimensions. -/
def stridesRev : ℕ → List ℕ → List ℕ
  | _, [] => []
  | s, d :: ds => s :: stridesRev (s * d) ds

/-- `Shape::strides`, tensor.rs:2124-2139. -/
def strides (shape : List ℕ) : List ℕ := (stridesRev 1 shape.reverse).reverse

/-- The loop of `Tensor::get_idx`, tensor.rs:1589-1601, over the reversed accessors and dimensions. -/
def getIdxLoop : ℕ → ℕ → List (ℕ × ℕ) → Option ℕ
  | flat, _, [] => some flat
  | flat, mult, (a, s) :: rest => if a < s then getIdxLoop (flat + a * mult) (mult * s) rest else none

/-- `Tensor::get_idx`, tensor.rs:1585-1603. -/
def getIdx (shape acc : List ℕ) : Option ℕ :=
  if shape.length = acc.length then
    match acc.reverse, shape.reverse with
    | a :: as, s :: ss => getIdxLoop a s (as.zip ss)
    | _, _ => none
  else none

/-- `Tensor::get`, tensor.rs:1607-1610. -/
def Tensor.get (t : Tensor α) (acc : List ℕ) : Option α := do
  let i ← getIdx t.shape acc
  t.data[i]?

/-- `Tensor::get4d`, tensor.rs:1561-1573. -/
def get4d (shape : List ℕ) : ℕ × ℕ × ℕ × ℕ :=
  if shape.length = 3 then (1, shape.getD 0 1, shape.getD 1 1, shape.getD 2 1)
  else (shape.getD 0 1, shape.getD 1 1, shape.getD 2 1, shape.getD 3 1)

/-- `Tensor::get_at_4d`, tensor.rs:1576-1584. -/
def Tensor.getAt4d (t : Tensor α) (n c h w : ℕ) : Option α :=
  if t.shape.length ≤ 4 then
    let (N, C, H, W) := get4d t.shape
    if n < N then t.data[n * (C * H * W) + c * (H * W) + h * W + w]? else none
  else none

/-! ### Rearranging -/

/-- `Tensor::transpose`, tensor.rs:1257-1273. -/
def Tensor.transpose (t : Tensor α) : Option (Tensor α) :=
  match t.shape with
  | [m, n] => do
    let data ← (List.range (n * m)).mapM fun idx => t.data[idx % m * n + idx / m]?
    some ⟨[n, m], data⟩
  | _ => none

/-- `reshape`, tensor.rs:843-855. -/
def Tensor.reshape (t : Tensor α) (shape : List ℕ) : Option (Tensor α) :=
  if t.shape.prod = shape.prod then some ⟨shape, t.data⟩ else none

/-- The index triples of three nested loops. -/
def triples (a b c : ℕ) : List (ℕ × ℕ × ℕ) :=
  (List.range a).flatMap fun i => (List.range b).flatMap fun j => (List.range c).map fun k => (i, j, k)

/-- The body of the loops of `permute3d`, tensor.rs:1780-1793; `dims` are the new dimensions. -/
def permuteStep (old : List α) (a b c o0 o1 o2 na nb nc : ℕ) (data : List α) (p : ℕ × ℕ × ℕ) : Option (List α) := do
  let pos := [p.1, p.2.1, p.2.2]
  let ni ← pos[o0]?
  let nj ← pos[o1]?
  let nk ← pos[o2]?
  let loc := ni * nb * nc + nj * nc + nk
  if loc < na * nb * nc then
    let x ← old[p.1 * b * c + p.2.1 * c + p.2.2]?
    set? data loc x
  else none

/-- `Tensor::permute3d`, tensor.rs:1769-1801. -/
def Tensor.permute3d [Zero α] (t : Tensor α) (order : List ℕ) : Option (Tensor α) :=
  match t.shape, order with
  | [a, b, c], [o0, o1, o2] => do
    let na ← t.shape[o0]?
    let nb ← t.shape[o1]?
    let nc ← t.shape[o2]?
    let data ← (triples a b c).foldlM (permuteStep t.data a b c o0 o1 o2 na nb nc) (List.replicate (a * b * c) 0)
    some ⟨[na, nb, nc], data⟩
  | _, _ => none

/-! ### Products -/

/-- Sum of products of entries, as in the closures of `matmul` and `matvec`. -/
def dot? [Semiring α] (n : ℕ) (x y : List α) (f g : ℕ → ℕ) : Option α := do
  let terms ← (List.range n).mapM fun k => do
    let a ← x[f k]?
    let b ← y[g k]?
    some (a * b)
  some terms.sum

/-- `Tensor::matmul`, tensor.rs:1122-1152. -/
def Tensor.matmul [Semiring α] (x y : Tensor α) : Option (Tensor α) :=
  match x.shape, y.shape with
  | [m, n], [n2, p] =>
    if n = n2 then do
      let data ← (List.range (m * p)).mapM fun idx =>
        dot? n x.data y.data (fun k => idx / p * n + k) (fun k => k * p + idx % p)
      some ⟨[m, p], data⟩
    else none
  | _, _ => none

/-- `Tensor::is_vector`, tensor.rs:684-686. -/
def Tensor.isVector (t : Tensor α) : Bool :=
  match t.shape with
  | [_] => true
  | [1, _] => true
  | _ => false

/-- `Tensor::matvec`, tensor.rs:1155-1174. -/
def Tensor.matvec [Semiring α] (x v : Tensor α) : Option (Tensor α) :=
  match x.shape with
  | [m, n] =>
    if v.isVector ∧ v.shape.head? = some n then do
      let data ← (List.range m).mapM fun i => dot? n x.data v.data (fun j => i * n + j) fun j => j
      some ⟨[m], data⟩
    else none
  | _ => none

/-- `Tensor::add`, tensor.rs:889-906. -/
def Tensor.add [Add α] (x y : Tensor α) : Option (Tensor α) :=
  if x.shape.prod = y.shape.prod then do
    let data ← (List.range x.data.length).mapM fun i => do
      let a ← x.data[i]?
      let b ← y.data[i]?
      some (a + b)
    some ⟨x.shape, data⟩
  else none

/-! ### Padding -/

/-- `recursive_pad`, tensor.rs:1017-1043. `Vec::resize` is `resize`, `chain(repeat).take` of the one-dimensional case has the
same result. -/
def recursivePad (pad : α) : List ℕ → List α → Option (List α)
  | [], _ => none
  | [d], data => some (resize (nextPow2 d) pad data)
  | d :: d2 :: ds, data =>
    if (d2 :: ds).prod = 0 then none
    else do
      let parts ← (chunks (d2 :: ds).prod data).mapM (recursivePad pad (d2 :: ds))
      let first ← parts[0]?
      some (resize (nextPow2 d) (List.replicate first.length pad) parts).flatten

/-- `generic_pad_next_power_of_two`, tensor.rs:1001-1016. `get_shape` panics on tensors without dimensions. -/
def Tensor.padNextPow2 (t : Tensor α) (pad : α) : Option (Tensor α) :=
  if t.shape = [] then none
  else if t.shape.all (fun d => nextPow2 d == d) then some t
  else do
    let data ← recursivePad pad t.shape t.data
    Tensor.new (t.shape.map nextPow2) data

/-- The inner loop of `pad_to_shape`, tensor.rs:1107-1117: `coord` with its dimensions and distances, all reversed. -/
def padDecr : List (ℕ × ℕ × ℕ) → ℕ → Option (List (ℕ × ℕ × ℕ) × ℕ)
  | [], target => some ([], target)
  | (el, d, dist) :: rest, target =>
    if el = 0 then do
      let d1 ← checkedSub d 1
      let target ← checkedSub target dist
      let (rest', target) ← padDecr rest target
      some ((d1, d, dist) :: rest', target)
    else do
      let target ← checkedSub target 1
      some ((el - 1, d, dist) :: rest, target)

/-- The main loop of `pad_to_shape`, tensor.rs:1098-1118; the argument is the value of `original` before the decrement. -/
def padLoop : ℕ → List (ℕ × ℕ × ℕ) → ℕ → List α → Option (List α)
  | 0, _, _, _ => none
  | original + 1, coord, target, data => do
    let data ← swap? data original target
    if original = 0 then some data
    else do
      let (coord, target) ← padDecr coord target
      padLoop original coord target data

/-- `Tensor::pad_to_shape`, tensor.rs:1054-1119. -/
def Tensor.padToShape [Zero α] (t : Tensor α) (target : List ℕ) : Option (Tensor α) :=
  if target.length = t.shape.length then do
    let distance ← (t.shape.zip target).mapM fun on => checkedSub on.2 on.1
    let data := resize target.prod 0 t.data
    let coord ← t.shape.mapM fun v => checkedSub v 1
    let str := strides target
    let start := ((coord.zip str).map fun cs => cs.1 * cs.2).sum
    let dist := (distance.zip str).map fun ds => ds.1 * ds.2
    let data ← padLoop t.shape.prod (coord.zip (t.shape.zip dist)).reverse start data
    some ⟨target, data⟩
  else none

/-- `Tensor::pad_1d`, tensor.rs:985-993. -/
def Tensor.pad1d [Zero α] (t : Tensor α) (n : ℕ) : Option (Tensor α) :=
  match t.shape with
  | [_] => some ⟨[n], resize n 0 t.data⟩
  | _ => none

/-- `Tensor::reshape_to_fit_inplace_2d`, tensor.rs:1302-1334. -/
def Tensor.reshapeToFit2d [Zero α] (t : Tensor α) (shape : List ℕ) : Option (Tensor α) :=
  match t.shape, shape with
  | [rows, cols], [rows', cols'] =>
    if rows ≤ rows' ∧ cols ≤ cols' then do
      let data ← (List.range (rows' * cols')).mapM fun idx =>
        if idx / cols' < rows ∧ idx % cols' < cols then t.data[idx / cols' * cols + idx % cols']? else some 0
      some ⟨shape, data⟩
    else none
  | _, _ => none

/-- One entry of `pad_matrix_to_ignore_garbage`, tensor.rs:1650-1675. Division by zero, which panics, cannot occur for an
index in range unless a dimension of `conv_shape_pad` is zero; `Nat` division returns 0 then. -/
def garbageEntry [Zero α] (t : List α) (rows cols c h w cp hp wp colsP loc : ℕ) : Option α :=
  let row := loc / colsP
  let channel := loc / (hp * wp) % cp
  let hIn := loc / wp % hp
  let wIn := loc % wp
  if row < rows ∧ channel < c ∧ hIn < h ∧ wIn < w then t[channel * h * w + hIn * w + wIn + row * cols]? else some 0

/-- `pad_matrix_to_ignore_garbage`, tensor.rs:1627-1675. -/
def Tensor.padIgnoreGarbage [Zero α] (t : Tensor α) (convOg convPad matPad : List ℕ) : Option (Tensor α) :=
  match convOg, convPad, matPad, t.shape with
  | [c, h, w], [cp, hp, wp], [rowsP, colsP], [rows, cols] => do
    let data ← (List.range (rowsP * colsP)).mapM (garbageEntry t.data rows cols c h w cp hp wp colsP)
    some ⟨[rowsP, colsP], data⟩
  | _, _, _, _ => none

/-! ### Comparisons -/

/-- One window of `maxpool2d`, tensor.rs:1363-1376. `cmp_max` is the maximum. -/
def poolWindow [LinearOrder α] (data : List α) (base w stride kernel i j : ℕ) : Option α := do
  let first ← data[base + i * stride * w + j * stride]?
  let vals ← ((List.range kernel).flatMap fun ki => (List.range kernel).map fun kj => (ki, kj)).mapM
    fun k => data[base + (i * stride + k.1) * w + (j * stride + k.2)]?
  some (vals.foldl max first)

/-- `Tensor::maxpool2d`, tensor.rs:1335-1383. The subtraction `w - kernel_size` panics when the kernel is wider than the
input (with overflow checks); division by a zero stride panics. -/
def Tensor.maxpool2d [LinearOrder α] (t : Tensor α) (kernel stride : ℕ) : Option (Tensor α) :=
  match t.shape.reverse with
  | w :: h :: outer =>
    if kernel ≤ h ∧ kernel ≤ w ∧ 0 < stride then do
      let oh := (h - kernel) / stride + 1
      let ow := (w - kernel) / stride + 1
      let data ← (List.range (outer.reverse.prod * oh * ow)).mapM fun idx =>
        poolWindow t.data (idx / (oh * ow) * (h * w)) w stride kernel (idx / ow % oh) (idx % ow)
      some ⟨(ow :: oh :: outer).reverse, data⟩
    else none
  | _ => none

/-- `Tensor::argmax`, tensor.rs:861-871; `lo` is `T::MIN`. -/
def tensorArgmax [LinearOrder α] (lo : α) (data : List α) : ℕ :=
  (data.zipIdx.foldl (fun acc x => if acc.2 < x.1 then (x.2, x.1) else acc) (0, lo)).1

/-- `argmax`, zkml/src/lib.rs:159-176. -/
def argmax [LinearOrder α] (v : List α) : Option ℕ :=
  match v with
  | [] => none
  | x :: _ => some ((v.zipIdx.drop 1).foldl (fun acc y => if acc.2 < y.1 then (y.2, y.1) else acc) (0, x)).1

/-! ### Slices and broadcasting -/

/-- `Tensor::slice_3d`, tensor.rs:1911-1923. -/
def Tensor.slice3d (t : Tensor α) (start stop : ℕ) : Option (Tensor α) :=
  match t.shape with
  | [a, b, c] =>
    if start < a ∧ stop ≤ a ∧ start ≤ stop ∧ b * c * stop ≤ t.data.length then
      some ⟨[stop - start, b, c], (t.data.take (b * c * stop)).drop (b * c * start)⟩
    else none
  | _ => none

/-- `Tensor::slice_2d`, tensor.rs:1928-1938. -/
def Tensor.slice2d (t : Tensor α) (start stop : ℕ) : Option (Tensor α) :=
  match t.shape with
  | [_, b] =>
    if start ≤ stop ∧ stop * b ≤ t.data.length then
      some ⟨[stop - start, b], (t.data.take (stop * b)).drop (start * b)⟩
    else none
  | _ => none

/-- `Tensor::slice_on_dim`, tensor.rs:1957-1972: the slices and their shape. `chunks(0)` panics. -/
def Tensor.sliceOnDim (t : Tensor α) (dim : ℕ) : Option (List (List α) × List ℕ) :=
  if dim < t.shape.length then
    let sh := if dim < t.shape.length - 1 then t.shape.drop (dim + 1) else t.shape
    if sh.prod = 0 then none else some (chunks sh.prod t.data, sh)
  else none

/-- `Tensor::concat`, tensor.rs:1979-2000. -/
def Tensor.concat (t other : Tensor α) : Option (Tensor α) :=
  match t.shape with
  | [] => none
  | d :: ds =>
    let common := min t.shape.length other.shape.length
    if common < t.shape.length then
      if (((t.shape.reverse.zip other.shape.reverse).take common).all fun ab => ab.1 == ab.2) ∧ common + 1 = t.shape.length
      then some ⟨(d + 1) :: ds, t.data ++ other.data⟩
      else none
    else match other.shape with
      | [] => none
      | o :: _ => some ⟨(d + o) :: ds, t.data ++ other.data⟩

/-- `Tensor::stack_all`, tensor.rs:2007-2016. -/
def stackAll (ts : List (Tensor α)) : Option (Tensor α) :=
  match ts with
  | [] => none
  | t :: rest => rest.foldlM Tensor.concat t

/-- The check of `Tensor::expand` on one dimension, tensor.rs:1826-1841. -/
def expandOk (new old : ℕ) : Bool := new ≠ 0 && (old == 1 || old == new)

/-- The fold of `Tensor::expand`, tensor.rs:1843-1866, over the reversed pairs of dimensions. -/
def expandLoop : List (ℕ × ℕ) → List α → ℕ → List α
  | [], data, _ => data
  | (new, old) :: rest, data, chunk =>
    if old = new then expandLoop rest data (chunk * new)
    else expandLoop rest ((chunks chunk data).flatMap fun c => (List.replicate new c).flatten) (chunk * new)

/-- `Tensor::expand`, tensor.rs:1805-1866. -/
def Tensor.expand (t : Tensor α) (shape : List ℕ) : Option (Tensor α) :=
  if shape.length < t.shape.length then none
  else
    let padded := List.replicate (shape.length - t.shape.length) 1 ++ t.shape
    if (shape.zip padded).all fun nd => expandOk nd.1 nd.2 then
      Tensor.new shape (expandLoop (shape.zip padded).reverse t.data 1)
    else none

/-- The closure `compatibility` of `get_broadcasted_shape`, tensor.rs:2290-2302. -/
def compatible (a b : ℕ) : Option ℕ := if a = 1 then some b else if b = 1 then some a else if a = b then some a else none

/-- `get_broadcasted_shape`, tensor.rs:2285-2345. -/
def broadcastShape (a b : List ℕ) : Option (List ℕ) :=
  if a.length ≤ b.length then (b.zip (List.replicate (b.length - a.length) 1 ++ a)).mapM fun ba => compatible ba.2 ba.1
  else (a.zip (List.replicate (a.length - b.length) 1 ++ b)).mapM fun ab => compatible ab.1 ab.2

end Model
