import Verif.Model.LayerNorm
import Verif.Spec.LayerNorm
import Verif.Lemmas.Attention
import Verif.Lemmas.Quant
import Mathlib.Algebra.Order.BigOperators.Ring.Finset
import Mathlib.Algebra.Order.Chebyshev
import Mathlib.Tactic.FieldSimp

/-!
Lemmas on the quantised layer normalisation.
-/

namespace Lemmas
open Spec Model

theorem sum_list_range {M : Type} [AddCommMonoid M] (n : ℕ) (f : ℕ → M) : ((List.range n).map f).sum = ∑ j ∈ Finset.range n, f j := by
  induction n with
  | zero => simp
  | succ n ih => rw [List.range_succ, List.map_append, List.sum_append, ih, Finset.sum_range_succ]; simp

/-- The numbers `N Σ x² - (Σ x)²` and `N x - Σ x` of the first `n` columns of a row. -/
theorem layerNorm_evaluate (q : QuantLayerNorm) (pre : List ℕ) (R n : ℕ) (hn : 0 < n) (hR : pre.prod = R) (data : List ℤ) (hd : data.length = R * n) (hg : q.gamma.length = n) (hb : q.beta.length = n)
    (S V : ℕ → ℤ) (hS : ∀ i, S i = ∑ j ∈ Finset.range n, data.getD (i * n + j) 0)
    (hV : ∀ i, V i = (q.dimSize : ℤ) * q.multiplier * (∑ j ∈ Finset.range n, data.getD (i * n + j) 0 * data.getD (i * n + j) 0) - q.multiplier * S i * S i) :
    ∃ run, q.evaluate ⟨pre ++ [n], data⟩ = some run ∧ run.output.shape = pre ++ [n] ∧ run.output.data.length = R * n ∧
      run.lookupInput = (List.range R).map (fun i => V i / 2 ^ q.rangeBits) ∧ run.lookupOutput = (List.range R).map (fun i => q.table (V i / 2 ^ q.rangeBits)) ∧
      run.rangeCheck = (List.range R).map (fun i => V i % 2 ^ q.rangeBits) ∧
      ∀ i j, i < R → j < n → run.output.data[i * n + j]?
        = some (q.gamma.getD j 0 * ((q.dimSize : ℤ) * data.getD (i * n + j) 0 - S i) * q.table (V i / 2 ^ q.rangeBits) + q.beta.getD j 0) := by
  have hrow : ∀ i, i < R → (data.drop (n * i)).take n = (List.range n).map fun j => data.getD (i * n + j) 0 := by
    intro i hi
    apply take_drop_getD
    rw [hd]
    calc n * i + n = (i + 1) * n := by ring
      _ ≤ R * n := Nat.mul_le_mul_right _ hi
  have hchunks : chunks n data = (List.range R).map fun i => (List.range n).map fun j => data.getD (i * n + j) 0 := by
    rw [chunks_eq n R hn data (by rw [hd, mul_comm])]
    apply List.map_congr_left
    intro i hi
    exact hrow i (List.mem_range.1 hi)
  have hsum : ∀ i, ((List.range n).map fun j => data.getD (i * n + j) 0).sum = S i := by intro i; rw [sum_list_range, hS]
  have hfull : ∀ i, q.fullValue ((List.range n).map fun j => data.getD (i * n + j) 0) = V i := by
    intro i
    unfold QuantLayerNorm.fullValue
    rw [hsum, List.map_map, sum_list_range, hV]
    rfl
  have hout : ∀ i d, q.outRow ((List.range n).map fun j => data.getD (i * n + j) 0) d
      = (List.range n).map fun j => q.gamma.getD j 0 * ((q.dimSize : ℤ) * data.getD (i * n + j) 0 - S i) * d + q.beta.getD j 0 := by
    intro i d
    unfold QuantLayerNorm.outRow
    rw [hsum]
    apply List.ext_getElem
    · simp [hg, hb]
    · intro j h1 h2
      have hj : j < n := by simpa using h2
      simp only [List.getElem_map, List.getElem_zip, List.getElem_range]
      rw [List.getD_eq_getElem q.gamma 0 (by omega), List.getD_eq_getElem q.beta 0 (by omega)]
  have hz : ((List.range R).map fun i => (List.range n).map fun j => data.getD (i * n + j) 0).zip ((List.range R).map fun i => q.table (V i / 2 ^ q.rangeBits))
      = (List.range R).map fun i => ((List.range n).map fun j => data.getD (i * n + j) 0, q.table (V i / 2 ^ q.rangeBits)) := by
    apply List.ext_getElem (by simp)
    intro i h1 h2
    simp
  have hdata : (((List.range R).map fun i => (List.range n).map fun j => data.getD (i * n + j) 0).zip ((List.range R).map fun i => q.table (V i / 2 ^ q.rangeBits))).flatMap
        (fun rd => q.outRow rd.1 rd.2)
      = (List.range (R * n)).map fun k => q.gamma.getD (k % n) 0 * ((q.dimSize : ℤ) * data.getD (k / n * n + k % n) 0 - S (k / n)) * q.table (V (k / n) / 2 ^ q.rangeBits) + q.beta.getD (k % n) 0 := by
    rw [hz, List.flatMap_map]
    simp only [hout]
    rw [flatMap_range_map R n fun i j => q.gamma.getD j 0 * ((q.dimSize : ℤ) * data.getD (i * n + j) 0 - S i) * q.table (V i / 2 ^ q.rangeBits) + q.beta.getD j 0]
  refine ⟨⟨(List.range R).map (fun i => V i / 2 ^ q.rangeBits), (List.range R).map (fun i => q.table (V i / 2 ^ q.rangeBits)), (List.range R).map (fun i => V i % 2 ^ q.rangeBits),
    ⟨pre ++ [n], (List.range (R * n)).map fun k => q.gamma.getD (k % n) 0 * ((q.dimSize : ℤ) * data.getD (k / n * n + k % n) 0 - S (k / n)) * q.table (V (k / n) / 2 ^ q.rangeBits)
      + q.beta.getD (k % n) 0⟩⟩, ?_, rfl, ?_, rfl, rfl, rfl, ?_⟩
  · unfold QuantLayerNorm.evaluate
    simp only [List.getLast?_append, List.getLast?_singleton, Option.some_or, Option.bind_eq_bind, Option.bind_some]
    rw [if_neg (by omega), hchunks]
    have hA : (List.range R |>.map fun i => (List.range n).map fun j => data.getD (i * n + j) 0).map (fun row => q.fullValue row / 2 ^ q.rangeBits) = (List.range R).map fun i => V i / 2 ^ q.rangeBits := by
      rw [List.map_map]; apply List.map_congr_left; intro i _; simp only [Function.comp_apply, hfull]
    have hB : (List.range R |>.map fun i => (List.range n).map fun j => data.getD (i * n + j) 0).map (fun row => q.fullValue row % 2 ^ q.rangeBits) = (List.range R).map fun i => V i % 2 ^ q.rangeBits := by
      rw [List.map_map]; apply List.map_congr_left; intro i _; simp only [Function.comp_apply, hfull]
    have hC : ((List.range R).map fun i => V i / 2 ^ q.rangeBits).map q.table = (List.range R).map fun i => q.table (V i / 2 ^ q.rangeBits) := by
      rw [List.map_map]; rfl
    rw [hA, hB, hC, hdata]
    unfold Tensor.new
    rw [if_pos (by simp [hR]), Option.bind_some]
  · simp
  · intro i j hi hj
    have hlt : i * n + j < R * n := by
      calc i * n + j < i * n + n := by omega
        _ = (i + 1) * n := by ring
        _ ≤ R * n := Nat.mul_le_mul_right _ hi
    simp only
    rw [List.getElem?_map, List.getElem?_range hlt, Option.map_some, mul_add_div' hj, mul_add_mod' hj]

/-- The value under the root is `N²` times the variance. -/
theorem variance_eq (n : ℕ) (hn : 0 < n) (x : ℕ → ℚ) : (n : ℚ) * (∑ j ∈ Finset.range n, x j * x j) - (∑ j ∈ Finset.range n, x j) * (∑ j ∈ Finset.range n, x j) = (n : ℚ) ^ 2 * variance n x := by
  have hn' : (n : ℚ) ≠ 0 := by positivity
  unfold variance
  have h : ∀ j, (x j - mean n x) ^ 2 = x j * x j - 2 * mean n x * x j + mean n x * mean n x := by intro j; ring
  simp only [h]
  rw [Finset.sum_add_distrib, Finset.sum_sub_distrib, ← Finset.mul_sum, Finset.sum_const, Finset.card_range, nsmul_eq_mul]
  have hm : ∑ j ∈ Finset.range n, x j = n * mean n x := by unfold mean; field_simp
  rw [hm]
  field_simp
  ring

theorem mean_mul (n : ℕ) (hn : 0 < n) (x : ℕ → ℚ) : (n : ℚ) * mean n x = ∑ j ∈ Finset.range n, x j := by
  have hn' : (n : ℚ) ≠ 0 := by positivity
  unfold mean
  field_simp

end Lemmas
