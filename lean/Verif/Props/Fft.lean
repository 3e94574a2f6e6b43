import Verif.Lemmas.FftConv
import Mathlib.Algebra.Field.ZMod
import Mathlib.Tactic.IntervalCases

instance fact17 : Fact (Nat.Prime 17) := ⟨by decide⟩

/-!
C31: the FFT is the discrete Fourier transform. `w` is the root of unity the code derives from the two-adic generator `g` of the
field (order `2^A`, for Goldilocks `A = 32`).
-/

namespace Props

open Spec Model Lemmas

variable {F : Type} [Field F]

/-- C31: the root used for length `2^k` has order exactly `2^k`. -/
theorem C31_root (A : ℕ) (g : F) (hg : IsPrimitiveRoot g (2 ^ A)) (k : ℕ) (hk : k ≤ A) :
    ∃ w, rootOfUnity A g k = some w ∧ IsPrimitiveRoot w (2 ^ k) :=
  primitive_of_square A g hg k hk

/-- C31: for every length `2^k` with `1 ≤ k ≤ A` and every input the transform is `∑_j w^(i j) x_j`. -/
theorem C31_forward (A : ℕ) (g : F) (hg : IsPrimitiveRoot g (2 ^ A)) (k : ℕ) (hk : 1 ≤ k) (hkA : k ≤ A) (w : F)
    (hw : rootOfUnity A g k = some w) (x : List F) (hx : x.length = 2 ^ k) :
    ∃ out, fft A g false x = some out ∧ out.length = 2 ^ k ∧
      ∀ i, i < 2 ^ k → out.getD i 0 = ∑ j ∈ Finset.range (2 ^ k), w ^ (i * j) * x.getD j 0 := by
  obtain ⟨L, rfl⟩ : ∃ L, k = L + 1 := ⟨k - 1, by omega⟩
  exact fft_forward A g hg L hkA w hw x hx

/-- C31: the inverse transform undoes the transform, and the other way round. -/
theorem C31_inverse (A : ℕ) (g : F) (hg : IsPrimitiveRoot g (2 ^ A)) (k : ℕ) (hk : 1 ≤ k) (hkA : k ≤ A)
    (x : List F) (hx : x.length = 2 ^ k) :
    (fft A g false x).bind (fft A g true) = some x ∧ (fft A g true x).bind (fft A g false) = some x := by
  obtain ⟨L, rfl⟩ : ∃ L, k = L + 1 := ⟨k - 1, by omega⟩
  obtain ⟨w, hw, hp⟩ := primitive_of_square A g hg (L + 1) hkA
  have hn := natCast_pow_ne_zero w L hp
  have hw0 : w ≠ 0 := hp.ne_zero (by positivity)
  have hext : ∀ out : List F, out.length = 2 ^ (L + 1) → (∀ t, t < 2 ^ (L + 1) → out.getD t 0 = x.getD t 0) → out = x := by
    intro out hl h
    apply List.ext_getElem (by omega)
    intro t h1 h2
    have := h t (by omega)
    rwa [List.getD_eq_getElem _ _ h1, List.getD_eq_getElem _ _ h2] at this
  constructor
  · obtain ⟨y, y1, y2, y3⟩ := fft_forward A g hg L hkA w hw x hx
    obtain ⟨out, o1, o2, o3⟩ := fft_inverse A g hg L hkA w hw y y2
    rw [y1, Option.bind_some, o1]
    congr 1
    apply hext out o2
    intro t ht
    rw [o3 t ht]
    have hstep : ∀ k ∈ Finset.range (2 ^ (L + 1)), w⁻¹ ^ (t * k) * y.getD k 0
        = ∑ j ∈ Finset.range (2 ^ (L + 1)), x.getD j 0 * (w⁻¹ ^ (t * k) * w ^ (k * j)) := by
      intro k hk
      rw [y3 k (Finset.mem_range.1 hk), Finset.mul_sum]
      exact Finset.sum_congr rfl fun j _ => by ring
    rw [Finset.sum_congr rfl hstep, Finset.sum_comm]
    simp only [← Finset.mul_sum]
    rw [Finset.sum_congr rfl (g := fun j => if t = j then x.getD t 0 * ((2 ^ (L + 1) : ℕ) : F) else 0), Finset.sum_ite_eq,
      if_pos (Finset.mem_range.2 ht), mul_assoc, mul_inv_cancel₀ hn, mul_one]
    intro j hj
    rw [sum_root w _ hp t j ht (Finset.mem_range.1 hj)]
    split
    · rename_i h; rw [h]
    · rw [mul_zero]
  · obtain ⟨y, y1, y2, y3⟩ := fft_inverse A g hg L hkA w hw x hx
    obtain ⟨out, o1, o2, o3⟩ := fft_forward A g hg L hkA w hw y y2
    rw [y1, Option.bind_some, o1]
    congr 1
    apply hext out o2
    intro t ht
    rw [o3 t ht]
    have hstep : ∀ k ∈ Finset.range (2 ^ (L + 1)), w ^ (t * k) * y.getD k 0
        = ∑ j ∈ Finset.range (2 ^ (L + 1)), x.getD j 0 * ((2 ^ (L + 1) : ℕ) : F)⁻¹ * (w⁻¹ ^ (j * k) * w ^ (k * t)) := by
      intro k hk
      rw [y3 k (Finset.mem_range.1 hk), Finset.sum_mul, Finset.mul_sum]
      exact Finset.sum_congr rfl fun j _ => by rw [mul_comm t k, mul_comm j k]; ring
    rw [Finset.sum_congr rfl hstep, Finset.sum_comm]
    simp only [← Finset.mul_sum]
    rw [Finset.sum_congr rfl (g := fun j => if j = t then x.getD t 0 else 0), Finset.sum_ite_eq', if_pos (Finset.mem_range.2 ht)]
    intro j hj
    rw [sum_root w _ hp j t (Finset.mem_range.1 hj) ht]
    split
    · rename_i h; rw [h, mul_assoc, inv_mul_cancel₀ hn, mul_one]
    · rw [mul_zero]

/-- C31: the inverse transform of the pointwise product of two transforms is the cyclic convolution. -/
theorem C31_convolution (A : ℕ) (g : F) (hg : IsPrimitiveRoot g (2 ^ A)) (k : ℕ) (hk : 1 ≤ k) (hkA : k ≤ A)
    (x y : List F) (hx : x.length = 2 ^ k) (hy : y.length = 2 ^ k) :
    ∃ X Y out, fft A g false x = some X ∧ fft A g false y = some Y ∧ fft A g true (List.zipWith (· * ·) X Y) = some out ∧
      out.length = 2 ^ k ∧
      ∀ t, t < 2 ^ k → out.getD t 0 = ∑ a ∈ Finset.range (2 ^ k), x.getD a 0 * y.getD ((t + 2 ^ k - a) % 2 ^ k) 0 := by
  obtain ⟨L, rfl⟩ : ∃ L, k = L + 1 := ⟨k - 1, by omega⟩
  obtain ⟨X, Y, hX, hY, h⟩ := fft_conv_channels A g hg L hkA 1 (fun _ => x) (fun _ => y) (fun _ _ => hx) (fun _ _ => hy)
  obtain ⟨hX1, hX2⟩ := hX 0 (by omega)
  obtain ⟨hY1, hY2⟩ := hY 0 (by omega)
  obtain ⟨out, o1, o2, o3⟩ := h (List.zipWith (· * ·) (X 0) (Y 0)) (by simp [hX2, hY2]) (by
    intro k hk
    rw [List.getD_eq_getElem _ _ (by simp [hX2, hY2, hk]), List.getElem_zipWith, Finset.sum_range_one,
      List.getD_eq_getElem _ _ (by omega), List.getD_eq_getElem _ _ (by omega)])
  refine ⟨X 0, Y 0, out, hX1, hY1, o1, o2, ?_⟩
  intro t ht
  rw [o3 t ht, Finset.sum_range_one]

/-- C31, boundary: the transform of a vector with less than two elements, or longer than the two-adicity of the field allows,
panics. -/
theorem C31_lengths (A : ℕ) (g : F) (inverse : Bool) (x : List F) (hx : x.length < 2 ∨ 2 ^ A < x.length) :
    fft A g inverse x = none := by
  unfold fft
  by_cases h : x.length < 2
  · rw [if_pos h]
  · rw [if_neg h]
    have h1 : ¬ Nat.clog 2 x.length ≤ A := by
      intro hle
      have := Nat.le_pow_clog (b := 2) (by omega) x.length
      have h2 : 2 ^ Nat.clog 2 x.length ≤ 2 ^ A := Nat.pow_le_pow_right (by omega) hle
      omega
    simp [rootOfUnity, checkedSub, h1]

/-- A concrete case: the field with 17 elements, where 3 has order 16. -/
example : IsPrimitiveRoot (3 : ZMod 17) (2 ^ 4) ∧ fft 4 (3 : ZMod 17) false [1, 2, 3, 4] ≠ none ∧
    (fft 4 (3 : ZMod 17) false [1, 2, 3, 4]).bind (fft 4 3 true) = some [1, 2, 3, 4] := by
  refine ⟨?_, ?_, ?_⟩
  · rw [IsPrimitiveRoot.iff (by norm_num)]
    refine ⟨by decide +kernel, ?_⟩
    intro l h0 h1
    interval_cases l <;> decide +kernel
  · decide +kernel
  · decide +kernel

end Props
