import Verif.Model.LayerPad
import Verif.Spec.LayerPad
import Verif.Lemmas.Qkv
import Verif.Lemmas.Mha
import Verif.Props.Tensor

/-!
Lemmas about the evaluation and the padding of dense and matrix multiplication layers.
-/

namespace Lemmas

open Model Spec Props

theorem padMinimum_size (n : ℕ) : PadSize n (padMinimum n) := by
  unfold padMinimum
  simp only
  have h := le_nextPow2 n
  by_cases h4 : nextPow2 n < 4
  · rw [if_pos h4]
    exact ⟨2, le_rfl, rfl, by omega, Or.inl rfl⟩
  · rw [if_neg h4]
    have h5 : 2 ≤ Nat.clog 2 n := by
      by_contra h6
      have : nextPow2 n ≤ 2 ^ 1 := Nat.pow_le_pow_right (n := 2) (by omega) (by omega)
      omega
    refine ⟨Nat.clog 2 n, h5, rfl, h, ?_⟩
    right
    by_contra h7
    have := Nat.clog_le_of_le_pow (Nat.not_lt.1 h7)
    omega

theorem padMinimum_pow (k : ℕ) (hk : 2 ≤ k) : padMinimum (2 ^ k) = 2 ^ k := by
  unfold padMinimum
  simp only
  rw [nextPow2_pow]
  have : 2 ^ 2 ≤ 2 ^ k := Nat.pow_le_pow_right (by omega) hk
  rw [if_neg (by omega)]

theorem fitMatrix_spec {α : Type} [Zero α] (m n m' n' : ℕ) (d : List α) (hm0 : 0 < m) (hn0 : 0 < n) (hlen : d.length = m * n) (hm : m ≤ m') (hn : n ≤ n') :
    ∃ out, (⟨[m, n], d⟩ : Tensor α).fitMatrix [m', n'] = some ⟨[m', n'], out⟩ ∧ out.length = m' * n' ∧ ∀ i j, i < m' → j < n' →
      out.getD (i * n' + j) 0 = if i < m ∧ j < n then d.getD (i * n + j) 0 else 0 := by
  obtain ⟨out, h1, h2, h3⟩ := fit_entries ⟨[m, n], d⟩ m n m' n' rfl hlen hm hn
  refine ⟨out, ?_, h2, h3⟩
  unfold Tensor.fitMatrix Tensor.nrows2d Tensor.ncols2d
  simp only [show m ≠ 0 by omega, show n ≠ 0 by omega, if_false]
  exact h1

theorem fitMatrix_shrink {α : Type} [Zero α] (m n m' n' : ℕ) (d : List α) (h : m' < m ∨ n' < n) : (⟨[m, n], d⟩ : Tensor α).fitMatrix [m', n'] = none := by
  have : (⟨[m, n], d⟩ : Tensor α).reshapeToFit2d [m', n'] = none := by
    unfold Tensor.reshapeToFit2d
    simp only
    rw [if_neg (by omega)]
  unfold Tensor.fitMatrix
  rw [this]
  cases (⟨[m, n], d⟩ : Tensor α).nrows2d <;> cases (⟨[m, n], d⟩ : Tensor α).ncols2d <;> rfl

theorem addVec_spec {α : Type} [AddZeroClass α] (k : ℕ) (a c : List α) (ha : a.length = k) (hc : c.length = k) :
    (⟨[k], a⟩ : Tensor α).add ⟨[k], c⟩ = some ⟨[k], (List.range k).map fun i => a.getD i 0 + c.getD i 0⟩ := by
  unfold Tensor.add
  rw [if_pos rfl]
  simp only
  rw [mapM_some' _ fun i => a.getD i 0 + c.getD i 0, ha]
  · rfl
  · intro i hi
    rw [List.mem_range] at hi
    rw [getElem?_of_lt a i 0 (by omega), getElem?_of_lt c i 0 (by omega)]
    rfl

/-- The evaluation of a dense layer on an input of any shape. -/
theorem denseEval_spec {α : Type} [Semiring α] (m n : ℕ) (hn : 0 < n) (w b x : List α) (u s : List ℕ) (hw : w.length = m * n) (hb : b.length = m) (hx : x.length = n)
    (hs : s.length = 1 → s = [n]) :
    ∃ y, (DenseLayer.mk (⟨[m, n], w⟩ : Tensor α) ⟨[m], b⟩ u).evaluate ⟨s, x⟩ = some ⟨[m], y⟩ ∧ y.length = m ∧
      ∀ i < m, y.getD i 0 = ∑ j ∈ Finset.range n, w.getD (i * n + j) 0 * x.getD j 0 + b.getD i 0 := by
  obtain ⟨z, h1, h2, h3⟩ := matvec_spec (⟨[m, n], w⟩ : Tensor α) ⟨[n], x⟩ m n rfl rfl hw hx
  refine ⟨(List.range m).map fun i => z.getD i 0 + b.getD i 0, ?_, by simp, ?_⟩
  · unfold DenseLayer.evaluate
    simp only
    by_cases h : s.length = 1
    · rw [if_neg (not_not.2 h), hs h, h1, Option.bind_eq_bind, Option.bind_some, addVec_spec m z b h2 hb]
    · rw [if_pos h]
      have hc : (⟨[m, n], w⟩ : Tensor α).ncols2d = some n := by
        unfold Tensor.ncols2d
        simp only [show n ≠ 0 by omega, if_false]
      rw [hc, Option.bind_eq_bind, Option.bind_some, if_pos hx, hx, h1, Option.bind_eq_bind, Option.bind_some, addVec_spec m z b h2 hb]
  · intro i hi
    rw [getD_map_range' _ _ _ _ hi, h3 i hi]

/-- A padded dense layer whose matrix has rows with the same products. -/
theorem densePadded {α : Type} [Semiring α] (m n m' n' : ℕ) (hn : 0 < n) (hn' : 0 < n') (w b x w' x' : List α) (u u' s s' : List ℕ) (hw : w.length = m * n) (hb : b.length = m) (hx : x.length = n)
    (hs : s.length = 1 → s = [n]) (hw' : w'.length = m' * n') (hx' : x'.length = n') (hs' : s'.length = 1 → s' = [n'])
    (hsum : ∀ i < m', ∑ j ∈ Finset.range n', w'.getD (i * n' + j) 0 * x'.getD j 0 = if i < m then ∑ j ∈ Finset.range n, w.getD (i * n + j) 0 * x.getD j 0 else 0) :
    ∃ y y', (DenseLayer.mk (⟨[m, n], w⟩ : Tensor α) ⟨[m], b⟩ u).evaluate ⟨s, x⟩ = some ⟨[m], y⟩ ∧ y.length = m ∧
      (DenseLayer.mk (⟨[m', n'], w'⟩ : Tensor α) ⟨[m'], resize m' 0 b⟩ u').evaluate ⟨s', x'⟩ = some ⟨[m'], y'⟩ ∧ y'.length = m' ∧
      (∀ i < m, y.getD i 0 = ∑ j ∈ Finset.range n, cell n w i j * x.getD j 0 + b.getD i 0) ∧
      ∀ i < m', y'.getD i 0 = if i < m then y.getD i 0 else 0 := by
  obtain ⟨y, h1, h2, h3⟩ := denseEval_spec m n hn w b x u s hw hb hx hs
  obtain ⟨y', h4, h5, h6⟩ := denseEval_spec m' n' hn' w' (resize m' 0 b) x' u' s' hw' (length_resize _ _ _) hx' hs'
  refine ⟨y, y', h1, h2, h4, h5, h3, ?_⟩
  intro i hi
  rw [h6 i hi, hsum i hi, getD_resize, if_pos hi]
  by_cases him : i < m
  · rw [if_pos him, if_pos him, h3 i him]
  · rw [if_neg him, if_neg him, List.getD_eq_default b _ (by omega), add_zero]

/-- `pad_dense` once the matrix is padded. -/
theorem padDense_of {α : Type} [Zero α] (m n n' : ℕ) (hm : 0 < m) (hn : 0 < n) (hnn : n ≤ n') (w b : List α) (hb : b.length = m) (u og P : List ℕ) (g : Option Garbage)
    (hP : ∀ d ∈ P, nextPow2 d = d) (hPn : P.prod = n') (m2 : Tensor α) (hpad : padWeight g (⟨[m, n], w⟩ : Tensor α) [padMinimum m, padMinimum n'] = some m2) :
    padDense (DenseLayer.mk (⟨[m, n], w⟩ : Tensor α) ⟨[m], b⟩ u) [⟨og, P, g⟩] =
      some (⟨m2, ⟨[padMinimum m], resize (padMinimum m) 0 b⟩, u⟩, [⟨[m], [padMinimum m], none⟩]) := by
  have hin : padDenseInput P = some n' := by
    unfold padDenseInput
    split
    · rw [hPn]
    · rename_i h
      obtain ⟨a, rfl⟩ := List.length_eq_one_iff.1 (not_not.1 h)
      simpa using hPn
  have hc : (⟨[m, n], w⟩ : Tensor α).ncols2d = some n := by
    unfold Tensor.ncols2d
    simp only [show n ≠ 0 by omega, if_false]
  have hr : (⟨[m, n], w⟩ : Tensor α).nrows2d = some m := by
    unfold Tensor.nrows2d
    simp only [show m ≠ 0 by omega, if_false]
  unfold padDense
  simp only
  rw [if_pos ⟨hb, hP⟩, hin, hc, hr]
  simp only [Option.bind_eq_bind, Option.bind_some]
  rw [if_pos hnn, hpad]
  rfl

/-! ### Matrix multiplication -/

theorem transposeIf_spec {α : Type} [Zero α] (tr : Bool) (k p : ℕ) (d : List α) (hd : d.length = k * p) :
    ∃ out, transposeIf tr (⟨if tr then [p, k] else [k, p], d⟩ : Tensor α) = some ⟨[k, p], out⟩ ∧ out.length = k * p ∧
      ∀ l j, l < k → j < p → out.getD (l * p + j) 0 = cellOf tr k p d l j := by
  cases tr
  · exact ⟨d, rfl, hd, fun _ _ _ _ => rfl⟩
  · obtain ⟨out, h1, h2, h3⟩ := transpose_spec (⟨[p, k], d⟩ : Tensor α) p k rfl (by rw [hd, mul_comm]) 0
    exact ⟨out, h1, h2, fun l j hl hj => h3 j l hj hl⟩

/-- The evaluation of a matrix multiplication layer. -/
theorem matmulOp_spec {α : Type} [Semiring α] (m k p : ℕ) (hk : 0 < k) (hp : 0 < p) (L : MatMulLayer α) (inputs : List (Tensor α)) (x y : List α) (bias : Option (List α))
    (hf : L.factors inputs = some (⟨[m, k], x⟩, ⟨if L.transposed then [p, k] else [k, p], y⟩)) (hx : x.length = m * k) (hy : y.length = k * p)
    (hb : L.bias = bias.map fun b => ⟨[p], b⟩) (hbl : ∀ b ∈ bias, b.length = p) :
    ∃ z, L.op inputs = some ⟨[m, p], z⟩ ∧ z.length = m * p ∧
      ∀ i j, i < m → j < p → cell p z i j = ∑ l ∈ Finset.range k, cell k x i l * cellOf L.transposed k p y l j + biasAt bias j := by
  obtain ⟨y1, t1, t2, t3⟩ := transposeIf_spec L.transposed k p y hy
  obtain ⟨z, h1, h2, h3⟩ := matmul_spec (⟨[m, k], x⟩ : Tensor α) ⟨[k, p], y1⟩ m k p rfl rfl hx t2
  have hr : (⟨[k, p], y1⟩ : Tensor α).nrows2d = some k := by
    unfold Tensor.nrows2d
    simp only [show k ≠ 0 by omega, if_false]
  have hc : (⟨[m, k], x⟩ : Tensor α).ncols2d = some k := by
    unfold Tensor.ncols2d
    simp only [show k ≠ 0 by omega, if_false]
  have hop : L.op inputs = matmulBias ⟨[m, p], z⟩ L.bias := by
    unfold MatMulLayer.op
    rw [hf]
    simp only [Option.bind_eq_bind, Option.bind_some]
    rw [t1, Option.bind_some, hr, Option.bind_some, hc, Option.bind_some, if_pos rfl, h1]
    rfl
  have hz : ∀ i j, i < m → j < p → z.getD (i * p + j) 0 = ∑ l ∈ Finset.range k, cell k x i l * cellOf L.transposed k p y l j := by
    intro i j hi hj
    rw [h3 i j hi hj]
    refine Finset.sum_congr rfl fun l hl => ?_
    show _ * y1.getD (l * p + j) 0 = _
    rw [t3 l j (Finset.mem_range.1 hl) hj]
    rfl
  rw [hop, hb]
  cases bias with
  | none =>
    refine ⟨z, rfl, h2, ?_⟩
    intro i j hi hj
    rw [cell, hz i j hi hj]
    simp [biasAt]
  | some b =>
    obtain ⟨o, g1, g2, g3⟩ := addDim2_spec (⟨[m, p], z⟩ : Tensor α) ⟨[p], b⟩ m p hp rfl h2 rfl (hbl b rfl)
    refine ⟨o, ?_, g2, ?_⟩
    · show matmulBias _ (some ⟨[p], b⟩) = _
      unfold matmulBias
      simp only
      rw [if_pos (show ([m, p] : List ℕ)[1]? = [p][0]? from rfl), g1]
    · intro i j hi hj
      rw [cell, g3 i j hi hj]
      show z.getD (i * p + j) 0 + _ = _
      rw [hz i j hi hj]
      rfl

theorem padMatmulBias_spec {α : Type} [Zero α] (r p p' : ℕ) (hp : 0 < p) (hpp : p ≤ p') (bias : Option (List α)) (hbl : ∀ b ∈ bias, b.length = p) :
    ∃ bias' : Option (List α), padMatmulBias [r, p'] (bias.map fun b => (⟨[p], b⟩ : Tensor α)) = some (bias'.map fun b => ⟨[p'], b⟩) ∧
      (∀ b ∈ bias', b.length = p') ∧ ∀ j < p', biasAt bias' j = if j < p then biasAt bias j else 0 := by
  cases bias with
  | none => exact ⟨none, rfl, by simp, fun j _ => by simp [biasAt]⟩
  | some b =>
    obtain ⟨out, h1, h2, h3, h4⟩ := padToShape_spec (⟨[p], b⟩ : Tensor α) [p'] (by simpa using hbl b rfl) (.cons ⟨hp, hpp⟩ .nil)
    refine ⟨some out, ?_, ?_, ?_⟩
    · show (Tensor.padToShape _ [p']).map some = _
      rw [h1]
      rfl
    · intro c hc
      cases hc
      simpa using h2
    · intro j hj
      show out.getD j 0 = _
      by_cases h : j < p
      · rw [if_pos h]
        have := h3 [j] (.cons h .nil)
        simpa [flat, biasAt] using this
      · rw [if_neg h]
        have := h4 [j] (.cons hj .nil) (by intro h'; cases h' with | cons a _ => exact h a)
        simpa [flat] using this

theorem padMatmul_of {α : Type} [Zero α] (L : MatMulLayer α) (shapes : List PadShape) (u v og padded ls rs : List ℕ) (left right : Operand α) (bias' : Option (Tensor α))
    (hrank : ∀ s ∈ shapes, s.og.length = 2 ∧ s.padded.length = 2) (hu : L.unpaddedShapes shapes = some (u, v)) (hog : matmulShape u v L.transposed = some og)
    (hop : padOperands L shapes = some (left, right, ls, rs, false)) (hpad : matmulShape ls rs L.transposed = some padded)
    (hb : padMatmulBias (if L.transposed then rs.reverse else rs) L.bias = some bias') :
    padMatmul L shapes = some (⟨left, right, bias', L.transposed⟩, [⟨og, padded, none⟩]) := by
  unfold padMatmul
  rw [if_pos hrank, hu]
  simp only [Option.bind_eq_bind, Option.bind_some, hog, hop, hpad]
  rw [if_neg (by decide)]
  simp only [hb, Option.bind_some]

theorem matmulShape_eq (tr : Bool) (m k p : ℕ) : matmulShape [m, k] (if tr then [p, k] else [k, p]) tr = some [m, p] := by
  cases tr <;> simp [matmulShape]

end Lemmas
