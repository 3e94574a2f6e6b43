import Verif.Lemmas.ConvWeights
import Verif.Lemmas.TokenLayers

/-!
The two ends of the convolution proof: the output with the bias, and the claims about input and filter.
-/

namespace Lemmas

open Spec Model

variable {F : Type} [Field F]

theorem getD_map_cast {α β : Type} (f : α → β) (l : List α) (i : ℕ) (z : α) (z' : β) (h : i < l.length) : (l.map f).getD i z' = f (l.getD i z) := by
  rw [List.getD_eq_getElem _ _ (by simpa using h), List.getElem_map, List.getD_eq_getElem _ _ h]

/-- The last coordinate, on a table whose upper half is zero. -/
theorem mle_lower (t p : List F) (x : F) (hz : ∀ b, 2 ^ p.length ≤ b → b < 2 ^ (p.length + 1) → t.getD b 0 = 0) :
    mle t (p ++ [x]) = (1 - x) * ∑ b ∈ Finset.range (2 ^ p.length), t.getD b 0 * chi p b := by
  rw [mle_append_sum]
  simp only [List.length_singleton, pow_one]
  rw [Finset.sum_range_succ, Finset.sum_range_one, chi_singleton, chi_singleton, if_neg (show ¬ (0 : ℕ) % 2 = 1 by omega), if_pos (show 1 % 2 = 1 by omega)]
  have h1 : ∑ j ∈ Finset.range (2 ^ p.length), t.getD (1 * 2 ^ p.length + j) 0 * chi p j = 0 := by
    apply Finset.sum_eq_zero
    intro j hj
    have := Finset.mem_range.mp hj
    rw [hz _ (by omega) (by rw [pow_succ]; omega), zero_mul]
  rw [h1]
  simp only [zero_mul, zero_add, add_zero]
  ring

/-- The last coordinate zero. -/
theorem mle_snoc_zero (t p : List F) : mle t (p ++ [0]) = ∑ b ∈ Finset.range (2 ^ p.length), t.getD b 0 * chi p b := by
  rw [mle_append_sum]
  simp only [List.length_singleton, pow_one]
  rw [Finset.sum_range_succ, Finset.sum_range_one, chi_singleton, chi_singleton, if_neg (show ¬ (0 : ℕ) % 2 = 1 by omega), if_pos (show 1 % 2 = 1 by omega)]
  simp

theorem output_eval (L a : ℕ) (O bias : List F) (output : List (List F)) (p q : List F) (hp : p.length = L) (hq : q.length = a)
    (hO : ∀ i < 2 ^ a, ∀ y < 2 ^ L, O.getD (i * 2 ^ L + y) 0 = (output.getD i []).getD (2 ^ L - 1 - y) 0 + bias.getD i 0) :
    mle O (p ++ q) - mle bias q = ∑ i ∈ Finset.range (2 ^ a), chi q i * mle (output.getD i []) ((p.map fun x => 1 - x) ++ [0]) := by
  rw [mle_append_sum, sub_eq_iff_eq_add]
  conv_rhs => rhs; unfold mle
  rw [hq, ← Finset.sum_add_distrib]
  apply Finset.sum_congr rfl
  intro i hi
  have hi' := Finset.mem_range.mp hi
  rw [mle_snoc_zero, List.length_map, ← sum_flip]
  have : ∀ y ∈ Finset.range (2 ^ p.length), O.getD (i * 2 ^ p.length + y) 0 * chi p y
      = (output.getD i []).getD (2 ^ p.length - 1 - y) 0 * chi p y + bias.getD i 0 * chi p y := by
    intro y hy
    rw [hp] at hy ⊢
    rw [hO i hi' y (Finset.mem_range.mp hy)]
    ring
  rw [Finset.sum_congr rfl this, Finset.sum_add_distrib, ← Finset.mul_sum, sum_chi]
  ring

theorem sum_grid (K : ℕ) (f : ℕ × ℕ → F) :
    (((List.range K).flatMap fun i => (List.range K).map fun j => (i, j)).map f).sum
      = ∑ i ∈ Finset.range K, ∑ j ∈ Finset.range K, f (i, j) := by
  rw [List.map_flatMap, List.flatMap_def, List.sum_flatten, List.map_map]
  rw [show (List.sum ∘ fun a => ((List.range K).map fun j => (a, j)).map f) = fun i => ∑ j ∈ Finset.range K, f (i, j) from by
    funext i
    simp only [Function.comp_apply, List.map_map]
    rw [sum_map_range]
    rfl]
  rw [sum_map_range]

theorem identity_bits [DecidableEq F] (p : List F) (b : ℕ) (h : b < 2 ^ p.length) : identityEval (toBits b p.length) p = chi p b := by
  have : (toBits b p.length : List F) = bitsPoint p.length b := rfl
  rw [this, identityEval_eq' _ _ (bitsPoint_length _ _), eqPoly_comm', eqPoly_bitsPoint, Nat.mod_eq_of_lt h]

theorem yWeights_eq [DecidableEq F] (ctx : ConvVerifyCtx) (m : ℕ) (hn : ctx.nw = 2 ^ m) (hK : ctx.realNw ≤ 2 ^ m) (p pe : List F) (hp : p.length = 2 * m)
    (hpe : pe.length = ctx.realNw * ctx.realNw) :
    yWeights ctx m p pe = some (∑ i ∈ Finset.range ctx.realNw, ∑ j ∈ Finset.range ctx.realNw, pe.getD (i * ctx.realNw + j) 0 * chi p (i * 2 ^ m + j)) := by
  unfold yWeights
  rw [mapM_some' _ (fun ij : ℕ × ℕ => pe.getD (ij.1 * ctx.realNw + ij.2) 0 * chi p (ij.1 * 2 ^ m + ij.2))]
  · simp only [Option.bind_eq_bind, Option.bind_some]
    rw [← List.sum_eq_foldl, sum_grid]
  · rintro ⟨i, j⟩ hij
    simp only [List.mem_flatMap, List.mem_range, List.mem_map, Prod.mk.injEq] at hij
    obtain ⟨i', hi, j', hj, rfl, rfl⟩ := hij
    simp only
    rw [getElem?_of_lt pe _ 0 (by rw [hpe]; exact mul_add_lt hi hj), Option.map_some, hn, mul_comm m 2, ← hp, identity_bits]
    rw [hp, two_mul, pow_add]
    exact mul_add_lt (by omega) (by omega)

/-- The transformed weights are those of the frame. -/
theorem weights_lower (m K : ℕ) (hK : K ≤ 2 ^ m) (p pe wl : List F) (hp : p.length = 2 * m)
    (hwl : ∀ b < 2 ^ (2 * m + 1), wl.getD b 0 = if b / 2 ^ m < K ∧ b % 2 ^ m < K then pe.getD (b / 2 ^ m * K + b % 2 ^ m) 0 else 0) (x : F) :
    mle wl (p ++ [x]) = (1 - x) * ∑ i ∈ Finset.range K, ∑ j ∈ Finset.range K, pe.getD (i * K + j) 0 * chi p (i * 2 ^ m + j) := by
  have hnn : 2 ^ (2 * m) = 2 ^ m * 2 ^ m := by rw [two_mul, pow_add]
  have hpos := Nat.two_pow_pos m
  rw [mle_lower wl p x]
  · congr 1
    rw [hp, Finset.sum_congr rfl (fun b hb => by rw [hwl b (by have := Finset.mem_range.mp hb; rw [pow_succ]; omega)]), hnn, sum_range_mul']
    have h1 : ∀ i ∈ Finset.range (2 ^ m), ∑ j ∈ Finset.range (2 ^ m),
        (if (i * 2 ^ m + j) / 2 ^ m < K ∧ (i * 2 ^ m + j) % 2 ^ m < K then pe.getD ((i * 2 ^ m + j) / 2 ^ m * K + (i * 2 ^ m + j) % 2 ^ m) 0 else 0) * chi p (i * 2 ^ m + j)
        = if i < K then ∑ j ∈ Finset.range K, pe.getD (i * K + j) 0 * chi p (i * 2 ^ m + j) else 0 := by
      intro i _
      have h2 : ∀ j ∈ Finset.range (2 ^ m),
          (if (i * 2 ^ m + j) / 2 ^ m < K ∧ (i * 2 ^ m + j) % 2 ^ m < K then pe.getD ((i * 2 ^ m + j) / 2 ^ m * K + (i * 2 ^ m + j) % 2 ^ m) 0 else 0) * chi p (i * 2 ^ m + j)
          = if j < K then (if i < K then pe.getD (i * K + j) 0 * chi p (i * 2 ^ m + j) else 0) else 0 := by
        intro j hj
        have hj' := Finset.mem_range.mp hj
        rw [mul_add_div' hj', mul_add_mod' hj']
        by_cases h3 : i < K <;> by_cases h4 : j < K <;> simp [h3, h4]
      rw [Finset.sum_congr rfl h2, ← Finset.sum_filter]
      have h5 : (Finset.range (2 ^ m)).filter (fun j => j < K) = Finset.range K := by
        ext j; simp; omega
      rw [h5]
      by_cases h3 : i < K <;> simp [h3]
    rw [Finset.sum_congr rfl h1, ← Finset.sum_filter]
    have h5 : (Finset.range (2 ^ m)).filter (fun j => j < K) = Finset.range K := by
      ext j; simp; omega
    rw [h5]
  · intro b hb hb2
    rw [hp] at hb hb2
    rw [hwl b hb2, if_neg]
    rintro ⟨h, _⟩
    have : 2 ^ m ≤ b / 2 ^ m := (Nat.le_div_iff_mul_le hpos).2 (by omega)
    omega

theorem filter_eval (toF : ℤ → F) (data : List ℤ) (K k a c : ℕ) (hK : K * K = 2 ^ k) (hd : data.length = 2 ^ a * 2 ^ c * (K * K)) (s vq pe : List F)
    (hs : s.length = k) (hvq : vq.length = c + a) (hpl : pe.length = K * K)
    (hpe : ∀ k < K * K, pe.getD k 0 = ∑ t ∈ Finset.range (2 ^ a * 2 ^ c), chi vq t * toF (data.getD (t * (K * K) + k) 0)) :
    mle pe s = mle (data.map toF) (s ++ vq) := by
  rw [mle_append_sum, hs, hvq]
  unfold mle
  rw [hs, ← hK, Finset.sum_congr rfl (fun i hi => by rw [hpe i (Finset.mem_range.mp hi), Finset.sum_mul]), Finset.sum_comm,
    show 2 ^ (c + a) = 2 ^ a * 2 ^ c by rw [pow_add, mul_comm]]
  apply Finset.sum_congr rfl
  intro t ht
  rw [Finset.sum_mul]
  apply Finset.sum_congr rfl
  intro j hj
  rw [getD_map_cast toF data _ 0 0 (by rw [hd]; exact mul_add_lt (Finset.mem_range.mp ht) (Finset.mem_range.mp hj))]
  ring

theorem input_eval (toF : ℤ → F) (xdata : List ℤ) (L c : ℕ) (hx : xdata.length = 2 ^ c * 2 ^ L) (input : List (List F))
    (hin : ∀ j < 2 ^ c, (input.getD j []).length = 2 ^ L ∧
      ∀ b < 2 ^ L, (input.getD j []).getD b 0 = toF (xdata.getD (j * 2 ^ L + (2 ^ L - 1 - b)) 0))
    (p v : List F) (z : F) (hp : p.length = L) (hv : v.length = c) (hz : 1 - z ≠ 0) :
    (∑ j ∈ Finset.range (2 ^ c), chi v j * mle (resize (2 ^ (L + 1)) 0 (input.getD j [])) (p ++ [z])) * (1 - z)⁻¹
      = mle (xdata.map toF) ((p.map fun x => 1 - x) ++ v) := by
  rw [mle_append_sum, hv, List.length_map, Finset.sum_mul]
  apply Finset.sum_congr rfl
  intro j hj
  have hj' := Finset.mem_range.mp hj
  obtain ⟨h1, h2⟩ := hin j hj'
  have hle : 2 ^ L ≤ 2 ^ (L + 1) := Nat.pow_le_pow_right (by omega) (by omega)
  rw [mle_lower _ p z (by
    intro b hb _
    rw [hp] at hb
    rw [getD_resize]
    split
    · rw [List.getD_eq_default]; omega
    · rfl), ← sum_flip]
  have h3 : ∑ b ∈ Finset.range (2 ^ p.length), (resize (2 ^ (L + 1)) 0 (input.getD j [])).getD b 0 * chi p b
      = ∑ y ∈ Finset.range (2 ^ p.length), (xdata.map toF).getD (j * 2 ^ p.length + (2 ^ p.length - 1 - y)) 0 * chi p y := by
    apply Finset.sum_congr rfl
    intro b hb
    rw [hp] at hb ⊢
    have hb' := Finset.mem_range.mp hb
    rw [getD_resize, if_pos (by omega), h2 b hb', getD_map_cast toF xdata _ 0 0 (by rw [hx]; exact mul_add_lt hj' (by omega))]
  rw [h3, mul_assoc, mul_assoc, mul_comm _ (1 - z)⁻¹, ← mul_assoc (1 - z), mul_inv_cancel₀ hz, one_mul, mul_comm]

end Lemmas
