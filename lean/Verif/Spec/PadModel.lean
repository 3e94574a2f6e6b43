import Verif.Model.PadModel
import Verif.Spec.Tensor
import Verif.Spec.Conv
import Verif.Spec.GraphRun

/-!
What it means that padding a model keeps its results: the inference without padding, and when a tensor of the padded model holds the entries of a tensor.
-/

namespace Spec

open Model

/-- The layers without padding, on integers: convolutions are computed directly (as `Evaluate<f32>` of convolution.rs:237-254 does), not by FFT; the leading dimension of size one which that adds is dropped. The other layers
are evaluated as they are. -/
def unpaddedEval (bl : ℕ) : PadLayer (Tensor ℤ × Tensor ℤ) → List (Tensor ℤ) → Option (List (Tensor ℤ))
  | .conv c, [x] => (conv2d x c.1 c.2 1).map fun y => [⟨y.shape.drop 1, y.data⟩]
  | .dense d, [x] => (d.evaluate x).map fun y => [y]
  | .relu, [x] => some [⟨x.shape, x.data.map fun v => max v 0⟩]
  | .requant r, [x] => (r.op bl x.data).map fun d => [⟨x.shape, d⟩]
  | .pooling, [x] => (x.maxpool2d 2 2).map fun y => [y]
  | .flatten, [x] => some [⟨[x.data.length], x.data⟩]
  | _, _ => none

/-- The tensor `x'` holds the entries of `x` at the same coordinates. Its shape is the padded one, and that of `x` the original one, unless both have been flattened; whatever `x'` holds elsewhere is left open. -/
structure Padded (sd : PadShape) (x x' : Tensor ℤ) : Prop where
  larger : List.Forall₂ (· ≤ ·) sd.og sd.padded
  size : x.data.length = sd.og.prod
  size' : x'.data.length = sd.padded.prod
  shapes : (sd.garbage = none ∧ x.shape = sd.og ∧ x'.shape = sd.padded) ∨
    (sd.garbage = some (.conv sd.og sd.padded) ∧ x.shape = [sd.og.prod] ∧ x'.shape = [sd.padded.prod])
  entries : ∀ q, InRange sd.og q → x'.data.getD (flat sd.padded q) 0 = x.data.getD (flat sd.og q) 0

/-- The tensors of a layer have as many entries as their shapes say, and a filter is not empty. -/
def LayerOk : PadLayer (Tensor ℤ × Tensor ℤ) → Prop
  | .conv c => c.1.data.length = c.1.shape.prod ∧ c.2.data.length = c.2.shape.prod ∧ 0 ∉ c.1.shape
  | .dense d => ∃ m n w b, d = ⟨⟨[m, n], w⟩, ⟨[m], b⟩, [m, n]⟩ ∧ w.length = m * n ∧ b.length = m
  | _ => True

/-- What padding relies on, for a layer applied to `x`, which has the shapes `sd`. A convolution: its input is not flattened and padded to the next powers of two, the side of the output is padded to the same power of two as that of the input
(else the layer panics, see C65), the padded filter is smaller, the length of the transforms divides `2 ^ A`, and the results are below half the field size. A dense layer: its input has one dimension or has been flattened, and at least
four entries after padding (see C85). -/
def LayerFits (p A : ℕ) (l : PadLayer (Tensor ℤ × Tensor ℤ)) (sd : PadShape) (x : Tensor ℤ) : Prop :=
  match l with
  | .conv c => sd.garbage = none ∧ sd.padded = sd.og.map nextPow2 ∧ ∀ o ch k h, c.1.shape = [o, ch, k, k] → sd.og = [ch, h, h] →
      nextPow2 (h - k + 1) = nextPow2 h ∧ (nextPow2 k = 1 ∨ nextPow2 k < nextPow2 h) ∧ 2 * (nextPow2 h * nextPow2 h) ≤ 2 ^ A ∧
      (∀ e ∈ x.data, e.natAbs ≤ p) ∧ (∀ e ∈ c.1.data, e.natAbs ≤ p) ∧
      ∀ i r s, i < o → r + k ≤ h → s + k ≤ h → 2 * (convSum ch k k 1 (fun o' j a b => c.1.data.getD (flat [o, ch, k, k] [o', j, a, b]) 0)
        (fun j a b => x.data.getD (flat [ch, h, h] [j, a, b]) 0) i r s).natAbs < p
  | .dense _ => (sd.garbage = none → sd.og.length = 1) ∧ 4 ≤ sd.padded.prod
  | _ => True

/-- The layer sets the entries outside the original shape to zero. -/
def Clears {C : Type} : PadLayer C → Prop
  | .conv _ => True
  | .dense _ => True
  | _ => False

end Spec
