import Verif.Model.Tensor
import Verif.Model.Quant
import Mathlib.Algebra.Field.Defs

/-!
The Fourier transform and the convolutions of zkml/src/tensor.rs and zkml/src/layers/convolution.rs.

Simplifications: parallel iterators are sequential, each closure writes only its own output. Sizes do not overflow.
-/

namespace Model

variable {F : Type} [Field F]

/-- `get_root_of_unity`, tensor.rs:220-231: the two-adic generator `g`, squared `32 - n` times. The constant 32, the
two-adicity of the field, is the parameter `adicity`. -/
def rootOfUnity (adicity : ℕ) (g : F) (n : ℕ) : Option F := do
  let k ← checkedSub adicity n
  some ((fun r => r * r)^[k] g)

/-- The table `rev`, tensor.rs:264-271. -/
def revTable (logn n : ℕ) : List ℕ :=
  (List.range' 1 (n - 1)).foldl (fun rev i => rev ++ [(rev.getD (i >>> 1) 0 >>> 1) ||| ((i &&& 1) <<< (logn - 1))]) [0]

/-- The table `w`, tensor.rs:272-284: `w[0] = 1`, `w[1]` is the root and `w[i] = w[i - 1] * w[1]`. -/
def twiddles (w1 : F) (n : ℕ) : List F := List.iterate (· * w1) 1 n

/-- The swaps, tensor.rs:286-296. -/
def bitReversal {α : Type} (rev : List ℕ) (v : List α) : Option (List α) :=
  ((List.range v.length).filter fun i => rev.getD i 0 < i).foldlM (fun v i => swap? v i (rev.getD i 0)) v

/-- The body of the inner loop, tensor.rs:304-308; `step` is `n / i`. -/
def butterflyStep (w : List F) (step half : ℕ) (chunk : List F) (k : ℕ) : Option (List F) := do
  let u ← chunk[k]?
  let x ← chunk[k + half]?
  let t ← w[step * k]?
  let chunk ← set? chunk k (u + x * t)
  set? chunk (k + half) (u - x * t)

/-- The loop over one chunk, tensor.rs:302-309. -/
def butterfly (w : List F) (step half : ℕ) (chunk : List F) : Option (List F) :=
  (List.range half).foldlM (butterflyStep w step half) chunk

/-- One pass of the main loop, tensor.rs:300-310, with chunks of length `i`. -/
def fftStage (w : List F) (n : ℕ) (v : List F) (i : ℕ) : Option (List F) := do
  let cs ← (chunks i v).mapM (butterfly w (n / i) (i >>> 1))
  some cs.flatten

/-- `fft`, tensor.rs:261-323. `ark_std::log2` rounds up. The main loop runs for `i = 2, 4, ...` up to `n`. The writes to `rev[0]`
and `w[1]` panic when the vector has less than two elements. -/
def fft (adicity : ℕ) (g : F) (inverse : Bool) (v : List F) : Option (List F) :=
  if v.length < 2 then none
  else do
    let n := v.length
    let rou ← rootOfUnity adicity g (Nat.clog 2 n)
    let w := twiddles (if inverse then rou⁻¹ else rou) n
    let v ← bitReversal (revTable (Nat.clog 2 n) n) v
    let v ← ((List.range (Nat.log 2 n)).map fun s => 2 ^ (s + 1)).foldlM (fftStage w n) v
    some (if inverse then v.map (· * (n : F)⁻¹) else v)

/-- A filter prepared for the FFT: `shape` and `og_shape` of the tensor, tensor.rs:371-376, 409-431. -/
structure FftFilter where
  shape : List ℕ
  ogShape : List ℕ
  data : List ℤ
  deriving DecidableEq

/-- `into_fft_conv`, tensor.rs:409-428. -/
def intoFftConv (t : Tensor ℤ) (inputShape : List ℕ) : Option FftFilter :=
  match t.shape with
  | [kw, kx, k, _] =>
    if t.shape.prod = t.data.length ∧ nextPow2 k = k then do
      let n ← inputShape[1]?
      let d ← checkedSub n k
      let nw := nextPow2 (d + 1)
      some ⟨[kw, kx, nw, nw], t.shape, t.data⟩
    else none
  | _ => none

/-- `index_w`, tensor.rs:236-252. -/
def indexW (toF : ℤ → F) (w : List ℤ) (nReal n outputLen : ℕ) : Option (List F) :=
  (List.range outputLen).mapM fun idx =>
    if idx / n < nReal ∧ idx % n < nReal then do
      let x ← w[idx / n * nReal + idx % n]?
      some (toF x)
    else some 0

/-- `index_u`, tensor.rs:256-259. -/
def indexU (u : List F) (n : ℕ) : Option (List F) :=
  (List.range (u.length / 2)).mapM fun i => do
    let k ← checkedSub (n * n) 1
    let k ← checkedSub k i
    u[k]?

/-- The accumulation `out[i][k] += x_vec[j][k] * w_fft_temp[k]`, tensor.rs:502-504. -/
def accumulate (out x w : List F) : Option (List F) :=
  (List.range out.length).mapM fun k => do
    let o ← out[k]?
    let a ← x[k]?
    let b ← w[k]?
    some (o + a * b)

/-- One chunk of the input, tensor.rs:470-481. -/
def fftInput (adicity : ℕ) (g : F) (newN : ℕ) (chunk : List F) : Option (List F) :=
  fft adicity g false (resize newN 0 chunk.reverse)

/-- `&v[a..b]`. -/
def slice? {α : Type} (v : List α) (a b : ℕ) : Option (List α) :=
  if a ≤ b ∧ b ≤ v.length then some ((v.take b).drop a) else none

/-- The loop body over the input channels, tensor.rs:488-505. -/
def convStep (adicity : ℕ) (g : F) (toF : ℤ → F) (f : FftFilter) (xvec : List (List F)) (kx nw realNw i : ℕ) (out : List F) (j : ℕ) :
    Option (List F) := do
  let ws ← slice? f.data (i * kx * realNw * realNw + j * realNw * realNw) (i * kx * realNw * realNw + (j + 1) * realNw * realNw)
  let w ← indexW toF ws realNw nw (2 * nw * nw)
  let wf ← fft adicity g false w
  let x ← xvec[j]?
  accumulate out x wf

/-- `fft_conv` up to the conversion back to integers, tensor.rs:458-510: one vector per output channel. `toF` is `to_field`. -/
def fftConvField (adicity : ℕ) (g : F) (toF : ℤ → F) (f : FftFilter) (x : Tensor ℤ) : Option (ℕ × List (List F)) := do
  let x1 ← x.shape[1]?
  let nx := nextPow2 x1
  let xvec ← (chunks (nx * nx) (x.data.map toF)).mapM (fftInput adicity g (2 * nx * nx))
  let kw ← f.shape[0]?
  let kx ← f.shape[1]?
  let nw ← f.shape[2]?
  let realNw ← f.ogShape[2]?
  let out ← (List.range kw).mapM fun i => do
    let o ← (List.range kx).foldlM (convStep adicity g toF f xvec kx nw realNw i) (List.replicate (2 * nw * nw) 0)
    fft adicity g true o
  some (nx, out)

/-- `fft_conv`, tensor.rs:458-520, with `ConvData::new`, 343-366; `toE` is `to_element`. -/
def fftConv (adicity : ℕ) (g : F) (toF : ℤ → F) (toE : F → ℤ) (f : FftFilter) (x : Tensor ℤ) : Option (Tensor ℤ) := do
  let (nx, out) ← fftConvField adicity g toF f x
  let us ← out.mapM fun u => indexU u nx
  let kw ← f.shape[0]?
  Tensor.new [kw, nx, nx] (us.flatten.map toE)

/-- One entry of `conv2d`, tensor.rs:1466-1488. -/
def conv2dEntry {R : Type} [Semiring R] (x k : Tensor R) (bias : List R) (c kh kw stride n o oh ow : ℕ) : Option R := do
  let terms ← (triples c kh kw).mapM fun p => do
    let a ← x.getAt4d n p.1 (oh * stride + p.2.1) (ow * stride + p.2.2)
    let b ← k.getAt4d o p.1 p.2.1 p.2.2
    some (a * b)
  let b ← bias[o]?
  some (terms.sum + b)

/-- `conv2d`, tensor.rs:1434-1495. The assertions inside `get_at_4d` that compare the other indices with the shape are part of
`getAt4d` only as far as the code has them. -/
def conv2d {R : Type} [Semiring R] (x k bias : Tensor R) (stride : ℕ) : Option (Tensor R) :=
  let (n, c, h, w) := get4d x.shape
  let (kn, kc, kh, kw) := get4d k.shape
  if x.shape.length ≤ 4 ∧ k.shape.length ≤ 4 ∧ c = kc ∧ bias.shape = [kn] ∧ kh ≤ h ∧ kw ≤ w ∧ 0 < stride then do
    let oh := (h - kh) / stride + 1
    let ow := (w - kw) / stride + 1
    let data ← (List.range (n * kn * oh * ow)).mapM fun idx =>
      conv2dEntry x k bias.data c kh kw stride (idx / (kn * oh * ow)) (idx % (kn * oh * ow) / (oh * ow))
        (idx % (kn * oh * ow) % (oh * ow) / ow) (idx % (kn * oh * ow) % (oh * ow) % ow)
    some ⟨[n, kn, oh, ow], data⟩
  else none

/-- `add_bias`, convolution.rs:152-161: the accumulations hit each entry once. -/
def addBias (bias : List ℤ) (t : Tensor ℤ) : Option (Tensor ℤ) :=
  match t.shape with
  | [kw, _, n2] =>
    if t.data.length = kw * (n2 * n2) then do
      let data ← (List.range (kw * (n2 * n2))).mapM fun idx => do
        let a ← t.data[idx]?
        let b ← bias[idx / (n2 * n2)]?
        some (a + b)
      some ⟨t.shape, data⟩
    else none
  | _ => none

/-- `conv2d_shape`, convolution.rs:1565-1578; stride 1, no padding. -/
def conv2dShape (input filter : List ℕ) : Option (List ℕ) := do
  let h ← if input.length = 3 then input[1]? else input[2]?
  let k ← filter[2]?
  let k1 ← checkedSub k 1
  let d ← checkedSub h k1
  let d ← checkedSub d 1
  let kn ← filter[0]?
  some [kn, d + 1, d + 1]

/-- `clear_garbage`, convolution.rs:1484-1506, for three-dimensional shapes: the loop sets the entries outside to zero. -/
def clearGarbage (t : Tensor ℤ) (og : List ℕ) : Option (Tensor ℤ) :=
  match t.shape, og with
  | [a, b, c], [a', b', c'] => do
    let data ← (List.range (a * b * c)).mapM fun idx => do
      let x ← t.data[idx]?
      some (if idx / (b * c) < a' ∧ idx / c % b < b' ∧ idx % c < c' then x else 0)
    some ⟨t.shape, data⟩
  | _, _ => none

/-- A convolution layer, convolution.rs:52-60. -/
structure Conv where
  filter : FftFilter
  bias : List ℤ
  unpadded : List ℕ

/-- `into_padded_and_ffted`, convolution.rs:309-318. -/
def intoPaddedAndFfted (filter bias : Tensor ℤ) (unpaddedInput : List ℕ) : Option Conv := do
  let f ← filter.padNextPow2 0
  let b ← bias.padNextPow2 0
  let f ← intoFftConv f (unpaddedInput.map nextPow2)
  some ⟨f, b.data, filter.shape⟩

/-- `Convolution::op`, convolution.rs:320-349. -/
def Conv.op (adicity : ℕ) (g : F) (toF : ℤ → F) (toE : F → ℤ) (c : Conv) (x : Tensor ℤ) (unpaddedInput : List ℕ) :
    Option (Tensor ℤ) := do
  let o ← fftConv adicity g toF toE c.filter x
  let o ← addBias c.bias o
  let s ← conv2dShape unpaddedInput c.unpadded
  clearGarbage o s

/-- `pad_conv`, padding.rs:207-249, on unpadded and padded input shapes; returns the layer and the new shapes. The unpadded shape is
replaced by that of the output before it is passed to `into_padded_and_ffted`. -/
def padConv (filter bias : Tensor ℤ) (og padded : List ℕ) : Option (Conv × List ℕ × List ℕ) := do
  if filter.shape.length = 4 ∧ filter.shape[2]? = filter.shape[3]? ∧ og.length = 3 ∧ og[1]? = og[2]? ∧
      filter.shape[0]? = bias.shape[0]? ∧ padded.length = 3 ∧ padded.all (fun d => nextPow2 d == d) ∧ padded[1]? = padded[2]? ∧
      nextPow2 (filter.shape.getD 2 0) ≤ padded.getD 1 0 ∧ nextPow2 (filter.shape.getD 3 0) ≤ padded.getD 2 0
  then
    let og ← conv2dShape og filter.shape
    let c ← intoPaddedAndFfted filter bias og
    let out ← conv2dShape padded (filter.shape.map nextPow2)
    some (c, og, out.map nextPow2)
  else none

end Model
