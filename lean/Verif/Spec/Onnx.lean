import Verif.Model.Onnx
import Verif.Spec.Tensor
import Mathlib.Algebra.BigOperators.Intervals
import Mathlib.Order.Bounds.Basic

/-!
What the operations of an ONNX graph mean, entry by entry, and what it means that tensors are the values of the nodes of a graph. Nothing here mentions the layers the
loader makes.
-/

namespace Spec

open Model Finset

variable {R : Type} [CommRing R] [LinearOrder R]

/-- The entry of a tensor at a coordinate. -/
def entry (t : Tensor R) (c : List ℕ) : R := t.data.getD (flat t.shape c) 0

/-- `y` is the product of the vector `x` (all its entries) with the matrix `w`: the entry `j` is the sum of `x i * w(i, j)`, where the matrix has one row per input
(`inFirst`) or one row per output; the dimension of the inputs may be split into several, and may be missing for one output. -/
def IsProduct (inFirst : Bool) (x w y : Tensor R) : Prop :=
  ∃ o, (y.shape = [o] ∨ y.shape = [1, o]) ∧
    (if inFirst then ∃ dims, w.shape = dims ++ [o] ∧ dims.prod = x.data.length
      else (∃ dims, w.shape = o :: dims ∧ dims.prod = x.data.length) ∨ (w.shape = [x.data.length] ∧ o = 1)) ∧
    ∀ j, j < o → y.data.getD j 0 = ∑ i ∈ range x.data.length, x.data.getD i 0 * w.data.getD (if inFirst then i * o + j else j * x.data.length + i) 0

/-- The padding before and after, for the two dimensions; `none` when it is not given by numbers. -/
def padsOf : OnnxPadding → Option ((ℕ × ℕ) × (ℕ × ℕ))
  | .explicit b a => some ((b.getD 0 0, b.getD 1 0), (a.getD 0 0, a.getD 1 0))
  | .explicitOnnxPool b a _ => some ((b.getD 0 0, b.getD 1 0), (a.getD 0 0, a.getD 1 0))
  | .valid => some ((0, 0), (0, 0))
  | .other => none

/-- Whether the last window may reach over the end. -/
def ceilOf : OnnxPadding → Bool
  | .explicitOnnxPool _ _ c => c
  | _ => false

/-- The number of positions of a window of `k` entries with steps `d` between them, moved by `s` over `n` entries. -/
def positions (n k s d : ℕ) (ceil : Bool) : ℕ := (n - (d * (k - 1) + 1) + if ceil then s - 1 else 0) / s + 1

/-- The entry in row `r` and column `s` of a padded image: zero outside. -/
def padded (p : ℕ × ℕ) (h w : ℕ) (x : ℕ → ℕ → R) (r s : ℕ) : R :=
  if p.1 ≤ r ∧ r - p.1 < h ∧ p.2 ≤ s ∧ s - p.2 < w then x (r - p.1) (s - p.2) else 0

/-- `y` is the convolution of the images `x` with the kernels `f` and the bias `b`, which may be one number. Missing strides and dilations are 1. -/
def IsConvolution (spec : OnnxPool) (groups : ℕ) (x f b y : Tensor R) : Prop :=
  let s := spec.strides.getD [1, 1]
  let d := spec.dilations.getD [1, 1]
  ∀ p, padsOf spec.padding = some p →
    ∃ n c h w o cg kh kw, x.shape = [n, c, h, w] ∧ f.shape = [o, cg, kh, kw] ∧ spec.kernel = [kh, kw] ∧ c = groups * cg ∧ s.length = 2 ∧ d.length = 2 ∧
      (b.shape = [o] ∨ b.shape = []) ∧
      y.shape = [n, o, positions (h + p.1.1 + p.2.1) kh (s.getD 0 1) (d.getD 0 1) false, positions (w + p.1.2 + p.2.2) kw (s.getD 1 1) (d.getD 1 1) false] ∧
      ∀ m u r t, InRange y.shape [m, u, r, t] → entry y [m, u, r, t] =
        ∑ j ∈ range cg, ∑ a ∈ range kh, ∑ e ∈ range kw,
          padded p.1 h w (fun r t => entry x [m, u / (o / groups) * cg + j, r, t]) (r * s.getD 0 1 + a * d.getD 0 1) (t * s.getD 1 1 + e * d.getD 1 1) *
            entry f [u, j, a, e] + b.data.getD (if b.shape = [] then 0 else u) 0

/-- `y` is the max pooling of `x` over its last two dimensions: each entry is the greatest among the entries of its window inside the image. Missing strides and
dilations are 1. -/
def IsMaxPool (spec : OnnxPool) (x y : Tensor R) : Prop :=
  let s := spec.strides.getD [1, 1]
  let d := spec.dilations.getD [1, 1]
  ∀ p, padsOf spec.padding = some p →
    ∃ outer h w kh kw, x.shape = outer ++ [h, w] ∧ spec.kernel = [kh, kw] ∧ s.length = 2 ∧ d.length = 2 ∧
      y.shape = outer ++ [positions (h + p.1.1 + p.2.1) kh (s.getD 0 1) (d.getD 0 1) (ceilOf spec.padding),
        positions (w + p.1.2 + p.2.2) kw (s.getD 1 1) (d.getD 1 1) (ceilOf spec.padding)] ∧
      ∀ q i j, q.length = outer.length → InRange y.shape (q ++ [i, j]) →
        IsGreatest {v | ∃ a b r t, a < kh ∧ b < kw ∧ r + p.1.1 = i * s.getD 0 1 + a * d.getD 0 1 ∧ t + p.1.2 = j * s.getD 1 1 + b * d.getD 1 1 ∧ r < h ∧ t < w ∧
          v = entry x (q ++ [r, t])} (entry y (q ++ [i, j]))

/-- `z` is the operation applied to the entries of `x` and `y`, dimensions of size one being repeated. -/
def IsBinary (f : R → R → R) (x y z : Tensor R) : Prop :=
  x.shape.length = y.shape.length ∧ z.shape = List.zipWith (fun d e => if d = 1 then e else d) x.shape y.shape ∧
    ∀ c, InRange z.shape c → entry z c = f (entry x (broadcastCoord x.shape c)) (entry y (broadcastCoord y.shape c))

/-- `y` has the entries of `x` in the same order, the dimensions `current` from the position `start` on being replaced by `new`. -/
def IsReshape (start : ℕ) (current new : List ℕ) (x y : Tensor R) : Prop :=
  ∃ pre post, pre.length = start ∧ x.shape = pre ++ current ++ post ∧ y.shape = pre ++ new ++ post ∧ y.data = x.data

/-- The function of a binary operation. -/
def binFun : OnnxBin → R → R → R
  | .add => (· + ·)
  | .max => max
  | .mul => (· * ·)

/-- `y` is the result of the operation on the tensors `xs`. -/
def Means (op : OnnxOp R) (xs : List (Tensor R)) (y : Tensor R) : Prop :=
  match op, xs with
  | .source _, _ => False
  | .const t, _ => y = t
  | .einsum k inFirst, [x, w] => if k = 1 then IsProduct inFirst x w y else IsProduct inFirst w x y
  | .conv spec groups, [x, f, b] => IsConvolution spec groups x f b y
  | .maxPool spec, [x] => IsMaxPool spec x y
  | .binary op, [x, z] => IsBinary (binFun op) x z y
  | .reshape start current new, [x] => IsReshape start current new x y
  | .other f, xs => y = f xs
  | _, _ => False

/-- `val` gives the values of the nodes of the graph when its source is `x`: every node has the result of its operation on the values of the nodes it takes. The shapes are
those recorded in the graph. -/
structure OnnxValues (m : OnnxGraph R) (x : Tensor R) (val : ℕ → Tensor R) : Prop where
  source : ∀ src ids, m.order = src :: ids → val src = x
  input : ∀ id n shape, m.nodes[id]? = some n → n.op = .source shape → (val id).shape = shape
  node : ∀ id n, m.nodes[id]? = some n → (∀ shape, n.op ≠ .source shape) → Means n.op (n.inputs.map fun i => val i.1) (val id)
  shapes : ∀ id n, m.nodes[id]? = some n → n.shapes = [(val id).shape]
  full : ∀ id, (val id).data.length = (val id).shape.prod

/-- The same numbers in the same order, and the same dimensions but for a first dimension of one (the batch) which the second tensor may lack. -/
def SameButBatch (t t' : Tensor R) : Prop := t.data = t'.data ∧ (t.shape = t'.shape ∨ t.shape = 1 :: t'.shape)

/-- What the loader takes for granted about a node of the graph, without a check: a node whose name contains `Relu` is the maximum with a constant zero; a node whose name
contains `Flatten` merges all dimensions (but for the batch), as does a reshaping; a max pooling has strides and rounds down; the matrix of a product has two dimensions if it
has a row per input, and is not square then; the bias of a convolution is zero if it is one number. -/
def TakenForGranted (m : OnnxGraph R) (n : OnnxNode R) : Prop :=
  (['R', 'e', 'l', 'u'] <:+: n.name → n.op = .binary .max ∧ ∃ i j k t, (n.inputs = [i, (k, j)] ∨ n.inputs = [(k, j), i]) ∧ m.isConst i.1 = some false ∧
    (m.nodes[k]?).map (·.op) = some (.const t) ∧ (∀ d ∈ t.shape, d = 1) ∧ t.data = [0]) ∧
  (['F', 'l', 'a', 't', 't', 'e', 'n'] <:+: n.name → ∃ start current new, n.op = .reshape start current new ∧ new.length = 1) ∧
  (∀ start current new, n.op = .reshape start current new → ∀ i, n.inputs = [i] → ∃ xn pre, m.nodes[i.1]? = some xn ∧ xn.shapes = [pre ++ current] ∧
    pre.length = start ∧ (pre = [] ∨ pre = [1])) ∧
  (∀ spec, n.op = .maxPool spec → spec.strides ≠ none ∧ ceilOf spec.padding = false) ∧
  (∀ k, n.op = .einsum k true → ∀ i j, n.inputs = [i, j] → ∃ wn a b, m.nodes[if k = 1 then j.1 else i.1]? = some wn ∧ wn.shapes = [[a, b]] ∧ a ≠ b) ∧
  (∀ k inFirst, n.op = .einsum k inFirst → ∀ i j, n.inputs = [i, j] → k < 2 ∧ m.isConst (if k = 1 then j.1 else i.1) = some true ∧
    m.isConst (if k = 1 then i.1 else j.1) = some false) ∧
  (∀ spec groups, n.op = .conv spec groups → ∀ x f b, n.inputs = [x, f, b] → ∀ t, (m.nodes[b.1]?).map (·.op) = some (.const t) → t.shape = [] → t.data = [0])

/-- The graph has one source, in the place of the first node, which the next node takes; every other input of that node is a constant. -/
def StartsAtSource (m : OnnxGraph R) : Prop :=
  ∀ src first ids, m.order = src :: first :: ids → ∃ n, m.nodes[first]? = some n ∧ (src, 0) ∈ n.inputs ∧ ∀ i ∈ n.inputs, i = (src, 0) ∨ m.isConst i.1 = some true

end Spec
