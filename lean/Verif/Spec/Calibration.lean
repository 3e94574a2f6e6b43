import Verif.Model.Quant

/-!
What it means that a scaling factor was chosen well for a set of values.
-/

namespace Spec

open Model

/-- The factor `s` with `bl` bits fits the values `vs`: none of them is outside its range and each of them comes back from its quantised value with an error of at most half
a step, so none of them is clamped; and the range is not larger than needed, the value of largest magnitude gets the largest quantised magnitude (if it is not zero). -/
structure Fits (bl : ℕ) (s : ScalingFactor) (vs : Set ℚ) : Prop where
  inside : ∀ v ∈ vs, s.min ≤ v ∧ v ≤ s.max
  bounds : ∀ v, -(2 ^ (bl - 1) - 1) ≤ s.quantize v ∧ s.quantize v ≤ 2 ^ (bl - 1) - 1
  accurate : ∀ v ∈ vs, |s.dequantize (s.quantize v) - v| ≤ s.scale / 2
  tight : ∃ v ∈ vs, v = 0 ∧ s.max = 0 ∨ |s.quantize v| = 2 ^ (bl - 1) - 1 ∧ |v| = s.max

end Spec
