import Verif.Spec.WholeProof
import Verif.Spec.LogUp
import Verif.Model.Network
import Mathlib.RingTheory.RootsOfUnity.PrimitiveRoots

/-!
Feed-forward networks: which inputs the layers can be proved on, what is true of the polynomials behind the claims, and when the challenges of a proof are good.
-/

namespace Spec

open Model

variable {F C : Type} [Field F]

/-- The layer of node `id` can be proved on these inputs. `p` is the characteristic and `bl` the bit length of quantised values. A dense layer has a matrix of `2^m` rows and `2^n` columns;
the inputs of ReLU and pooling are quantised values and at least four outputs are computed; what a requantisation rounds to fits its clamping table; a convolution has `2^a` filters over
`2^c` channels with kernels of `2^k×2^k` entries, prepared for frames of `2^m×2^m` entries, at least 2×2, with kernels of one entry or smaller than the frame, and the field has the roots of
unity for its transforms (`adicity`). -/
def NetFits (adicity p bl id : ℕ) : NetLayer → List (Tensor ℤ) → Prop
  | .dense id' m n W b, [x] => id' = id ∧ W.length = 2 ^ (n + m) ∧ b.length = 2 ^ m ∧ x.data.length = 2 ^ n ∧ (x.shape.length = 1 → x.shape = [2 ^ n]) ∧
      (∀ v ∈ W, v.natAbs ≤ p) ∧ ∀ v ∈ b, v.natAbs ≤ p
  | .relu n, [x] => 2 ≤ n ∧ x.data.length = 2 ^ n ∧ ∀ v ∈ x.data, -(2 ^ (bl - 1)) ≤ v ∧ v < 2 ^ (bl - 1)
  | .requant r, [x] => (∃ n, 2 ≤ n ∧ x.data.length = 2 ^ n) ∧ 1 ≤ r.shift ∧ bl ∣ r.shift ∧ 0 < r.fpm ∧ r.fpm < p ∧
      ∃ size, r.clampingSize = some size ∧ 1 ≤ size ∧ size ≤ 31 ∧ 2 ^ size ≤ p ∧
        ∀ v ∈ x.data, -(2 ^ (size - 1)) ≤ (v * r.fpm + 2 ^ (r.shift - 1)) / 2 ^ r.shift ∧ (v * r.fpm + 2 ^ (r.shift - 1)) / 2 ^ r.shift < 2 ^ (size - 1)
  | .pooling n, [x] => 2 ≤ n ∧ (∃ a b g, a + b + g = n ∧ x.shape = [2 ^ a, 2 ^ (b + 1), 2 ^ (g + 1)]) ∧ x.data.length = x.shape.prod ∧
      ∀ v ∈ x.data, -(2 ^ (bl - 1)) ≤ v ∧ v < 2 ^ (bl - 1)
  | .flatten, _ => True
  | .conv id' layer _, [x] => id' = id ∧ ∃ a c k m, 1 ≤ m ∧ 2 * m + 1 ≤ adicity ∧ (k = 0 ∨ k < m) ∧ layer.filter.shape = [2 ^ a, 2 ^ c, 2 ^ m, 2 ^ m] ∧
      layer.filter.ogShape = [2 ^ a, 2 ^ c, 2 ^ k, 2 ^ k] ∧ layer.filter.data.length = 2 ^ a * 2 ^ c * 2 ^ k * 2 ^ k ∧ layer.bias.length = 2 ^ a ∧
      x.shape = [2 ^ c, 2 ^ m, 2 ^ m] ∧ x.data.length = 2 ^ c * (2 ^ m * 2 ^ m) ∧ ∀ v ∈ layer.bias, 2 * v.natAbs ≤ p
  | _, _ => False

/-- The claim is true of the polynomial with these values on the hypercube. -/
def PolyClaim (f : List F) (c : Claim F) : Prop := f.length = 2 ^ c.point.length ∧ mle f c.point = c.eval

/-- The polynomials of the model that claims are made about: matrix and bias of the dense layers, filter and bias of the convolutions. -/
def ModelPoly (p : ℕ) (g : Graph NetLayer) (id : ℕ) (name : String) (f : List F) : Prop :=
  (∃ n i layer u, (id, n) ∈ g ∧ n.op = .conv i layer u ∧
    ((name = "ConvFilter" ∧ f = layer.filter.data.map (toField p)) ∨ (name = "ConvBias" ∧ f = layer.bias.map (toField p)))) ∨
  ∃ n i k l W b, (id, n) ∈ g ∧ n.op = .dense i k l W b ∧ ((name = "DenseWeight" ∧ f = W.map (toField p)) ∨ (name = "DenseBias" ∧ f = b.map (toField p)))

/-- The sumcheck proofs in the proof of a layer. -/
def layerSumchecks : NetProof F C → List (IOPProof F)
  | .dense p => [p.sumcheck]
  | .activation p => p.ioAccumulation.sumcheck :: p.lookup.sumcheckProofs
  | .requant p => p.ioAccumulation :: (p.clampingLookup.sumcheckProofs ++ p.shiftedLookup.sumcheckProofs)
  | .pooling p => p.sumcheck :: p.lookup.sumcheckProofs
  | .conv p => [p.clearing.sumcheck, p.fftProof, p.fftProofWeights, p.ifftProof, p.hadamardProof] ++ p.fftDelegation ++ p.fftDelegationWeights ++ p.ifftDelegation

/-- The conversion of field elements to integers inverts that of integers, gives numbers of at most half the characteristic, and `root` is a root of unity of the highest order (C18, C31). -/
def ConvField {C CP : Type} {T : Transcript F} (e : NetEnv F C CP T) : Prop :=
  IsPrimitiveRoot e.root (2 ^ e.adicity) ∧ (∀ z : ℤ, ((e.toE (z : F) : ℤ) : F) = z) ∧ ∀ f, 2 * (e.toE f).natAbs ≤ e.p

/-- The prover of the layer has to divide by zero: the layer is a convolution and the last challenge of the sumcheck for the transform of its input is 1. -/
def ConvDivides {CP : Type} [DecidableEq F] {T : Transcript F} (e : NetEnv F C CP T) (trace : ℕ → List (Tensor ℤ) × List (Tensor ℤ)) (l : NetLayer) (id : ℕ) (claims : List (Claim F))
    (s : NetState T.State F C) : Prop :=
  ∃ i layer u x y last r, l = .conv i layer u ∧ trace id = ([x], [y]) ∧ claims = [last] ∧ netConvProof e layer u x y last s.ts = some r ∧ r.1.fftProof.point.getLast? = some 1

/-- None of the challenges of a sumcheck is a point its prover evaluates at. -/
def GoodPoint (sp : IOPProof F) : Prop := ∀ y ∈ sp.point, ∀ k : ℕ, k ≤ 5 → y ≠ (k : F)

/-- No row of the table has fingerprint `-c`. -/
def NoPole (p bl : ℕ) (contents : TableType → ℤ → ℤ) (c csc : F) (t : TableType) : Prop :=
  ∀ r ∈ tableRows contents bl t, c + fingerprint csc (r.map (toField p)) ≠ 0

end Spec
