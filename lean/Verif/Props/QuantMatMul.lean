import Verif.Model.QuantMatMul
import Verif.Props.QuantLayers
import Verif.Lemmas.Conv

/-!
C91 for matrix multiplications: the factor a quantised layer announces for its output is the factor of its values, except for the bias.
-/

namespace Props

open Model Spec Lemmas

/-- The error of one requantised value. -/
theorem requant_value_error (bl : ℕ) (hbl : 2 ≤ bl) (sl sr so : ScalingFactor) (hl : 0 < sl.scale) (hr : 0 < sr.scale) (ho : 0 < so.scale) (hmul : sl.m sr so < 2) (ibs : ℕ) (r : Requant)
    (hreq : Requant.fromMultiplier bl ((sl.m sr so : ℚ) : ℝ) ibs = some r) (z y : List ℤ) (hy : r.op bl z = some y) (i : ℕ) (hi : i < z.length) (hyi : |y.getD i 0| < 2 ^ (bl - 1) - 1) :
    y.length = z.length ∧ |so.dequantize (y.getD i 0) - (z.getD i 0 : ℚ) * (sl.scale * sr.scale)| ≤ so.scale / 2 + so.scale * |(z.getD i 0 : ℚ)| / 2 ^ (r.shift + 1) := by
  have hyl : y.length = z.length := by rw [C20_op bl r z y hy, List.length_map]
  refine ⟨hyl, ?_⟩
  have hmpos : 0 < sl.m sr so := by unfold ScalingFactor.m; positivity
  have hone : r.op bl [z.getD i 0] = some [y.getD i 0] := by
    have hf := (mapM_forall₂ _ _ _).1 hy
    have := (List.forall₂_iff_get.1 hf).2 i (by omega) (by omega)
    unfold Requant.op
    simp only [List.get_eq_getElem] at this
    rw [List.mapM_cons, List.getD_eq_getElem _ _ (by omega), List.getD_eq_getElem _ _ (by omega)]
    simp only [this, List.mapM_nil, Option.bind_eq_bind, Option.bind_some, Option.pure_def]
  have hyi' := abs_lt.1 hyi
  have hacc := C20_accuracy bl r (z.getD i 0) (y.getD i 0) (sl.m sr so) hone (by omega) (by omega)
  have hfp : |(r.fpm : ℚ) / 2 ^ r.shift - sl.m sr so| ≤ 1 / 2 ^ (r.shift + 1) := by
    have := (C20_from_multiplier_partial bl (by omega) ((sl.m sr so : ℚ) : ℝ) (by exact_mod_cast hmpos) (by exact_mod_cast hmul) ibs r hreq).1
    rw [← Rat.cast_le (K := ℝ)]
    push_cast
    push_cast at this
    exact this
  have hsplit : so.dequantize (y.getD i 0) - (z.getD i 0 : ℚ) * (sl.scale * sr.scale) = so.scale * ((y.getD i 0 : ℚ) - (z.getD i 0 : ℚ) * sl.m sr so) := by
    unfold ScalingFactor.m ScalingFactor.dequantize
    field_simp
  rw [hsplit, abs_mul, abs_of_pos ho]
  calc so.scale * |(y.getD i 0 : ℚ) - (z.getD i 0 : ℚ) * sl.m sr so|
      ≤ so.scale * (1 / 2 + |(z.getD i 0 : ℚ)| * (1 / 2 ^ (r.shift + 1))) := by
        apply mul_le_mul_of_nonneg_left _ ho.le
        exact hacc.trans (add_le_add le_rfl (mul_le_mul_of_nonneg_left hfp (abs_nonneg _)))
    _ = _ := by ring

theorem cell_map {α β : Type} [Zero α] [Zero β] (f : α → β) (m n : ℕ) (l : List α) (hl : l.length = m * n) {i j : ℕ} (hi : i < m) (hj : j < n) : cell n (l.map f) i j = f (cell n l i j) := by
  unfold cell
  exact getD_map_of_lt f l _ 0 0 (by rw [hl]; exact mul_add_lt hi hj)

theorem cellOf_map {α β : Type} [Zero α] [Zero β] (f : α → β) (t : Bool) (m n : ℕ) (l : List α) (hl : l.length = m * n) {i j : ℕ} (hi : i < m) (hj : j < n) :
    cellOf t m n (l.map f) i j = f (cellOf t m n l i j) := by
  unfold cellOf
  split
  · exact cell_map f n m l (by rw [hl, mul_comm]) hj hi
  · exact cell_map f m n l hl hi hj

theorem cell_mem {α : Type} [Zero α] (m n : ℕ) (l : List α) (hl : l.length = m * n) {i j : ℕ} (hi : i < m) (hj : j < n) : cell n l i j ∈ l := by
  unfold cell
  have : i * n + j < l.length := by rw [hl]; exact mul_add_lt hi hj
  rw [List.getD_eq_getElem _ _ this]
  exact List.getElem_mem _

theorem cellOf_mem {α : Type} [Zero α] (t : Bool) (m n : ℕ) (l : List α) (hl : l.length = m * n) {i j : ℕ} (hi : i < m) (hj : j < n) : cellOf t m n l i j ∈ l := by
  unfold cellOf
  split
  · exact cell_mem n m l (by rw [hl, mul_comm]) hj hi
  · exact cell_mem m n l hl hi hj

/-- Quantising with the factor of a bound of the entries costs at most half a step. -/
theorem quantize_bound_error (bl : ℕ) (hbl : 2 ≤ bl) (A v : ℚ) (hle : |v| ≤ A) : |((ScalingFactor.fromAbsoluteMax bl A none).quantize v : ℚ) * (ScalingFactor.fromAbsoluteMax bl A none).scale - v|
    ≤ (ScalingFactor.fromAbsoluteMax bl A none).scale / 2 := by
  have hA : 0 ≤ A := (abs_nonneg v).trans hle
  exact (fromAbsoluteMax_fits bl hbl A {u | |u| ≤ A} (fun _ h => h) ⟨A, by simp [abs_of_nonneg hA]⟩).accurate v hle

/-- Quantising with the factor of the largest entry costs at most half a step. -/
theorem quantize_max_error (bl : ℕ) (hbl : 2 ≤ bl) (w : List ℚ) : ∀ v ∈ w, |((ScalingFactor.fromAbsoluteMax bl (maxAbsOutput w) none).quantize v : ℚ) * (ScalingFactor.fromAbsoluteMax bl (maxAbsOutput w) none).scale - v|
    ≤ (ScalingFactor.fromAbsoluteMax bl (maxAbsOutput w) none).scale / 2 := fun v hv => quantize_bound_error bl hbl _ v ((maxAbsOutput_spec w).2 v hv)

/-- What a quantised product computes, compared with the float product. -/
theorem matmul_value_error (bl : ℕ) (hbl : 2 ≤ bl) (sl sr so : ScalingFactor) (hl : 0 < sl.scale) (hr : 0 < sr.scale) (ho : 0 < so.scale) (hmul : sl.m sr so < 2) (ibs : ℕ) (r : Requant)
    (hreq : Requant.fromMultiplier bl ((sl.m sr so : ℚ) : ℝ) ibs = some r) (m k p : ℕ) (hk : 0 < k) (hp : 0 < p) (L : MatMulLayer ℚ) (Lq : MatMulLayer ℤ) (ht : Lq.transposed = L.transposed)
    (X : List (Tensor ℚ)) (Xq : List (Tensor ℤ)) (x y : List ℚ) (xq yq : List ℤ) (b : Option (List ℚ)) (bq : Option (List ℤ))
    (hf : L.factors X = some (⟨[m, k], x⟩, ⟨if L.transposed then [p, k] else [k, p], y⟩)) (hx : x.length = m * k) (hy : y.length = k * p)
    (hb : L.bias = b.map fun b => ⟨[p], b⟩) (hbl' : ∀ b' ∈ b, b'.length = p)
    (hfq : Lq.factors Xq = some (⟨[m, k], xq⟩, ⟨if L.transposed then [p, k] else [k, p], yq⟩)) (hxq : xq.length = m * k) (hyq : yq.length = k * p)
    (hbq : Lq.bias = bq.map fun b => ⟨[p], b⟩) (hbql : ∀ b' ∈ bq, b'.length = p) :
    ∃ z f, Lq.op Xq = some ⟨[m, p], z⟩ ∧ L.op X = some ⟨[m, p], f⟩ ∧ ∀ o, r.op bl z = some o → ∀ i j, i < m → j < p → |cell p o i j| < 2 ^ (bl - 1) - 1 →
      |so.dequantize (cell p o i j) - (cell p f i j - biasAt b j + ((biasAt bq j : ℤ) : ℚ) * (sl.scale * sr.scale))| ≤ so.scale / 2 + so.scale * |((cell p z i j : ℤ) : ℚ)| / 2 ^ (r.shift + 1)
        + |∑ l ∈ Finset.range k, (((cell k xq i l : ℤ) : ℚ) * sl.scale * (((cellOf L.transposed k p yq l j : ℤ) : ℚ) * sr.scale) - cell k x i l * cellOf L.transposed k p y l j)| := by
  obtain ⟨f, f1, f2, f3⟩ := matmulOp_spec m k p hk hp L X x y b hf hx hy hb hbl'
  obtain ⟨z, z1, z2, z3⟩ := matmulOp_spec m k p hk hp Lq Xq xq yq bq (by rw [ht]; exact hfq) hxq hyq hbq hbql
  refine ⟨z, f, z1, f1, ?_⟩
  intro o hop i j hi hj hoi
  obtain ⟨-, herr⟩ := requant_value_error bl hbl sl sr so hl hr ho hmul ibs r hreq z o hop (i * p + j) (by rw [z2]; exact mul_add_lt hi hj) hoi
  have hz := z3 i j hi hj
  have hf' := f3 i j hi hj
  rw [ht] at hz
  have hzq : ((cell p z i j : ℤ) : ℚ) * (sl.scale * sr.scale) = ∑ l ∈ Finset.range k, ((cell k xq i l : ℤ) : ℚ) * sl.scale * (((cellOf L.transposed k p yq l j : ℤ) : ℚ) * sr.scale) + ((biasAt bq j : ℤ) : ℚ) * (sl.scale * sr.scale) := by
    rw [hz]
    push_cast
    rw [add_mul, Finset.sum_mul]
    congr 1
    apply Finset.sum_congr rfl
    intro l _
    ring
  have hsplit : so.dequantize (cell p o i j) - (cell p f i j - biasAt b j + ((biasAt bq j : ℤ) : ℚ) * (sl.scale * sr.scale)) = (so.dequantize (cell p o i j) - ((cell p z i j : ℤ) : ℚ) * (sl.scale * sr.scale))
      + ∑ l ∈ Finset.range k, (((cell k xq i l : ℤ) : ℚ) * sl.scale * (((cellOf L.transposed k p yq l j : ℤ) : ℚ) * sr.scale) - cell k x i l * cellOf L.transposed k p y l j) := by
    rw [hzq, hf', Finset.sum_sub_distrib]
    ring
  rw [hsplit]
  exact (abs_add_le _ _).trans (add_le_add herr le_rfl)

/-- C91 for a product of an input with a constant right matrix, without bias: the quantised layer and its requantisation, read with the announced factor, compute what the float layer computes from the values the input stands for, up to
half a step of the output, half a step of the weights for each input and the error of the fixed point multiplier. Missing: multipliers of two or more (C20), outputs at the edge of the range, and a bias, for which it is false, see
`C91_matmul_bias_false`. -/
theorem C91_matmul_right_partial (bl : ℕ) (hbl : 2 ≤ bl) (input output : ScalingFactor) (hi : 0 < input.scale) (ho : 0 < output.scale) (m k p : ℕ) (hk : 0 < k) (hp : 0 < p) (t : Bool) (w : List ℚ) (hw : w.length = k * p) (u : List ℕ)
    (l : MatMulLayer ℚ) (hl : l = ⟨.input, .weight ⟨if t then [p, k] else [k, p], w⟩ u, none, t⟩) (sw : ScalingFactor) (hsw : sw = ScalingFactor.fromAbsoluteMax bl (maxAbsOutput w) none) (hpos : 0 < sw.scale)
    (hmul : input.m sw output < 2) (ibs : ℕ) (r : Requant) (hr : l.requant bl [input] output ibs = some r) (x : List ℤ) (hx : x.length = m * k) :
    ∃ lq z f, l.quantize bl [input] output = some lq ∧ lq.op [⟨[m, k], x⟩] = some ⟨[m, p], z⟩ ∧ l.op [(⟨[m, k], x⟩ : Tensor ℤ).dequantizeBy input] = some ⟨[m, p], f⟩ ∧
      ∀ o, r.op bl z = some o → ∀ i j, i < m → j < p → |cell p o i j| < 2 ^ (bl - 1) - 1 →
        |output.dequantize (cell p o i j) - cell p f i j| ≤ output.scale / 2 + output.scale * |((cell p z i j : ℤ) : ℚ)| / 2 ^ (r.shift + 1) + sw.scale / 2 * ∑ c ∈ Finset.range k, |input.dequantize (cell k x i c)| := by
  subst hl
  have hreq : Requant.fromMultiplier bl ((input.m sw output : ℚ) : ℝ) ibs = some r := by rw [hsw]; exact hr
  refine ⟨⟨.input, .weight ⟨if t then [p, k] else [k, p], w.map sw.quantize⟩ u, none, t⟩, ?_⟩
  obtain ⟨z, f, h1, h2, h3⟩ := matmul_value_error bl hbl input sw output hi hpos ho hmul ibs r hreq m k p hk hp ⟨.input, .weight ⟨if t then [p, k] else [k, p], w⟩ u, none, t⟩
    ⟨.input, .weight ⟨if t then [p, k] else [k, p], w.map sw.quantize⟩ u, none, t⟩ rfl [(⟨[m, k], x⟩ : Tensor ℤ).dequantizeBy input] [⟨[m, k], x⟩] (x.map input.dequantize) w x (w.map sw.quantize) none none
    rfl (by simpa using hx) hw rfl (by simp) rfl hx (by simpa using hw) rfl (by simp)
  refine ⟨z, f, by rw [hsw]; rfl, h1, h2, ?_⟩
  intro o hop i j hi' hj hoi
  have := h3 o hop i j hi' hj hoi
  simp only [biasAt, sub_zero, Int.cast_zero, zero_mul, add_zero] at this
  refine this.trans (add_le_add le_rfl ?_)
  rw [Finset.mul_sum]
  refine (Finset.abs_sum_le_sum_abs _ _).trans (Finset.sum_le_sum fun c hc => ?_)
  have hc := Finset.mem_range.1 hc
  rw [cell_map _ m k x hx hi' hc, cellOf_map _ t k p w hw hc hj]
  have he : ((cell k x i c : ℤ) : ℚ) * input.scale * ((sw.quantize (cellOf t k p w c j) : ℚ) * sw.scale) - input.dequantize (cell k x i c) * cellOf t k p w c j
      = ((sw.quantize (cellOf t k p w c j) : ℚ) * sw.scale - cellOf t k p w c j) * input.dequantize (cell k x i c) := by
    unfold ScalingFactor.dequantize
    ring
  rw [he, abs_mul]
  apply mul_le_mul_of_nonneg_right _ (abs_nonneg _)
  rw [hsw]
  exact quantize_max_error bl hbl w _ (cellOf_mem t k p w hw hc hj)

/-- C91 for a product of a constant left matrix with an input, without bias, as `C91_matmul_right_partial`. -/
theorem C91_matmul_left_partial (bl : ℕ) (hbl : 2 ≤ bl) (input output : ScalingFactor) (hi : 0 < input.scale) (ho : 0 < output.scale) (m k p : ℕ) (hk : 0 < k) (hp : 0 < p) (t : Bool) (w : List ℚ) (hw : w.length = m * k) (u : List ℕ)
    (l : MatMulLayer ℚ) (hl : l = ⟨.weight ⟨[m, k], w⟩ u, .input, none, t⟩) (sw : ScalingFactor) (hsw : sw = ScalingFactor.fromAbsoluteMax bl (maxAbsOutput w) none) (hpos : 0 < sw.scale)
    (hmul : sw.m input output < 2) (ibs : ℕ) (r : Requant) (hr : l.requant bl [input] output ibs = some r) (shape : List ℕ) (hs : shape = if t then [p, k] else [k, p]) (x : List ℤ) (hx : x.length = k * p) :
    ∃ lq z f, l.quantize bl [input] output = some lq ∧ lq.op [⟨shape, x⟩] = some ⟨[m, p], z⟩ ∧ l.op [(⟨shape, x⟩ : Tensor ℤ).dequantizeBy input] = some ⟨[m, p], f⟩ ∧
      ∀ o, r.op bl z = some o → ∀ i j, i < m → j < p → |cell p o i j| < 2 ^ (bl - 1) - 1 →
        |output.dequantize (cell p o i j) - cell p f i j| ≤ output.scale / 2 + output.scale * |((cell p z i j : ℤ) : ℚ)| / 2 ^ (r.shift + 1) + sw.scale / 2 * ∑ c ∈ Finset.range k, |input.dequantize (cellOf t k p x c j)| := by
  subst hl hs
  have hreq : Requant.fromMultiplier bl ((sw.m input output : ℚ) : ℝ) ibs = some r := by rw [hsw]; exact hr
  refine ⟨⟨.weight ⟨[m, k], w.map sw.quantize⟩ u, .input, none, t⟩, ?_⟩
  obtain ⟨z, f, h1, h2, h3⟩ := matmul_value_error bl hbl sw input output hpos hi ho hmul ibs r hreq m k p hk hp ⟨.weight ⟨[m, k], w⟩ u, .input, none, t⟩
    ⟨.weight ⟨[m, k], w.map sw.quantize⟩ u, .input, none, t⟩ rfl [(⟨if t then [p, k] else [k, p], x⟩ : Tensor ℤ).dequantizeBy input] [⟨if t then [p, k] else [k, p], x⟩] w (x.map input.dequantize) (w.map sw.quantize) x none none
    rfl hw (by simpa using hx) rfl (by simp) rfl (by simpa using hw) hx rfl (by simp)
  refine ⟨z, f, by rw [hsw]; rfl, h1, h2, ?_⟩
  intro o hop i j hi' hj hoi
  have := h3 o hop i j hi' hj hoi
  simp only [biasAt, sub_zero, Int.cast_zero, zero_mul, add_zero] at this
  refine this.trans (add_le_add le_rfl ?_)
  rw [Finset.mul_sum]
  refine (Finset.abs_sum_le_sum_abs _ _).trans (Finset.sum_le_sum fun c hc => ?_)
  have hc := Finset.mem_range.1 hc
  rw [cell_map _ m k w hw hi' hc, cellOf_map _ t k p x hx hc hj]
  have he : (sw.quantize (cell k w i c) : ℚ) * sw.scale * (((cellOf t k p x c j : ℤ) : ℚ) * input.scale) - cell k w i c * input.dequantize (cellOf t k p x c j)
      = ((sw.quantize (cell k w i c) : ℚ) * sw.scale - cell k w i c) * input.dequantize (cellOf t k p x c j) := by
    unfold ScalingFactor.dequantize
    ring
  rw [he, abs_mul]
  apply mul_le_mul_of_nonneg_right _ (abs_nonneg _)
  rw [hsw]
  exact quantize_max_error bl hbl w _ (cell_mem m k w hw hi' hc)

/-- C91 for a product of two inputs, without bias: only the requantisation is inexact. Missing as in `C91_matmul_right_partial`. -/
theorem C91_matmul_inputs_partial (bl : ℕ) (hbl : 2 ≤ bl) (left right output : ScalingFactor) (hl : 0 < left.scale) (hr : 0 < right.scale) (ho : 0 < output.scale) (m k p : ℕ) (hk : 0 < k) (hp : 0 < p) (t : Bool)
    (hmul : left.m right output < 2) (ibs : ℕ) (r : Requant) (hreq : (⟨.input, .input, none, t⟩ : MatMulLayer ℚ).requant bl [left, right] output ibs = some r) (shape : List ℕ) (hs : shape = if t then [p, k] else [k, p])
    (x y : List ℤ) (hx : x.length = m * k) (hy : y.length = k * p) :
    ∃ lq z f, (⟨.input, .input, none, t⟩ : MatMulLayer ℚ).quantize bl [left, right] output = some lq ∧ lq.op [⟨[m, k], x⟩, ⟨shape, y⟩] = some ⟨[m, p], z⟩ ∧
      (⟨.input, .input, none, t⟩ : MatMulLayer ℚ).op [(⟨[m, k], x⟩ : Tensor ℤ).dequantizeBy left, (⟨shape, y⟩ : Tensor ℤ).dequantizeBy right] = some ⟨[m, p], f⟩ ∧
      ∀ o, r.op bl z = some o → ∀ i j, i < m → j < p → |cell p o i j| < 2 ^ (bl - 1) - 1 →
        |output.dequantize (cell p o i j) - cell p f i j| ≤ output.scale / 2 + output.scale * |((cell p z i j : ℤ) : ℚ)| / 2 ^ (r.shift + 1) := by
  subst hs
  refine ⟨⟨.input, .input, none, t⟩, ?_⟩
  obtain ⟨z, f, h1, h2, h3⟩ := matmul_value_error bl hbl left right output hl hr ho hmul ibs r hreq m k p hk hp ⟨.input, .input, none, t⟩ ⟨.input, .input, none, t⟩ rfl
    [(⟨[m, k], x⟩ : Tensor ℤ).dequantizeBy left, (⟨if t then [p, k] else [k, p], y⟩ : Tensor ℤ).dequantizeBy right] [⟨[m, k], x⟩, ⟨if t then [p, k] else [k, p], y⟩] (x.map left.dequantize) (y.map right.dequantize) x y none none
    rfl (by simpa using hx) (by simpa using hy) rfl (by simp) rfl hx hy rfl (by simp)
  refine ⟨z, f, rfl, h1, h2, ?_⟩
  intro o hop i j hi' hj hoi
  have := h3 o hop i j hi' hj hoi
  simp only [biasAt, sub_zero, Int.cast_zero, zero_mul, add_zero] at this
  have hz : ∑ c ∈ Finset.range k, (((cell k x i c : ℤ) : ℚ) * left.scale * (((cellOf t k p y c j : ℤ) : ℚ) * right.scale) - cell k (x.map left.dequantize) i c * cellOf t k p (y.map right.dequantize) c j) = 0 := by
    apply Finset.sum_eq_zero
    intro c hc
    have hc := Finset.mem_range.1 hc
    rw [cell_map _ m k x hx hi' hc, cellOf_map _ t k p y hy hc hj]
    unfold ScalingFactor.dequantize
    ring
  rw [hz, abs_zero, add_zero] at this
  exact this

/-- C91 is false of a product with a bias: the bias is quantised with the factor of the output in place of that of the weights, and so it is multiplied by the quotient of the factor of the weights and that of the output. Up to the
errors in `C91_matmul_right_partial` and half a step of the bias, the output read with the announced factor is the float output plus the bias times this quotient less one, and so it is off by at
least the size of that. -/
theorem C91_matmul_bias_false (bl : ℕ) (hbl : 2 ≤ bl) (input output : ScalingFactor) (hi : 0 < input.scale) (ho : 0 < output.scale) (m k p : ℕ) (hk : 0 < k) (hp : 0 < p) (t : Bool) (w b : List ℚ) (hw : w.length = k * p) (hb : b.length = p)
    (u : List ℕ) (l : MatMulLayer ℚ) (hl : l = ⟨.input, .weight ⟨if t then [p, k] else [k, p], w⟩ u, some ⟨[p], b⟩, t⟩) (sw : ScalingFactor) (hsw : sw = ScalingFactor.fromAbsoluteMax bl (maxAbsOutput w) none) (hpos : 0 < sw.scale)
    (hmul : input.m sw output < 2) (ibs : ℕ) (r : Requant) (hr : l.requant bl [input] output ibs = some r) (x : List ℤ) (hx : x.length = m * k) :
    ∃ lq z f, l.quantize bl [input] output = some lq ∧ lq.op [⟨[m, k], x⟩] = some ⟨[m, p], z⟩ ∧ l.op [(⟨[m, k], x⟩ : Tensor ℤ).dequantizeBy input] = some ⟨[m, p], f⟩ ∧
      ∀ o, r.op bl z = some o → ∀ i j, i < m → j < p → |b.getD j 0| ≤ (2 ^ (2 * bl - 1) - 1) * (input.scale * output.scale) → |cell p o i j| < 2 ^ (bl - 1) - 1 →
        let error := output.scale / 2 + output.scale * |((cell p z i j : ℤ) : ℚ)| / 2 ^ (r.shift + 1) + sw.scale / 2 * ∑ c ∈ Finset.range k, |input.dequantize (cell k x i c)| + input.scale * sw.scale / 2
        |output.dequantize (cell p o i j) - (cell p f i j + b.getD j 0 * (sw.scale / output.scale - 1))| ≤ error ∧
          |b.getD j 0| * |sw.scale / output.scale - 1| - error ≤ |output.dequantize (cell p o i j) - cell p f i j| := by
  subst hl
  obtain ⟨sb, hsb⟩ : ∃ sb, sb = biasScalingMatmul bl input output := ⟨_, rfl⟩
  have hsbs : sb.scale = input.scale * output.scale := by rw [hsb]; rfl
  have hsbd : sb.domain = (-(2 ^ (2 * bl - 1)) + 1, 2 ^ (2 * bl - 1) - 1) := by rw [hsb]; rfl
  have hreq : Requant.fromMultiplier bl ((input.m sw output : ℚ) : ℝ) ibs = some r := by rw [hsw]; exact hr
  refine ⟨⟨.input, .weight ⟨if t then [p, k] else [k, p], w.map sw.quantize⟩ u, some ⟨[p], b.map sb.quantize⟩, t⟩, ?_⟩
  obtain ⟨z, f, h1, h2, h3⟩ := matmul_value_error bl hbl input sw output hi hpos ho hmul ibs r hreq m k p hk hp ⟨.input, .weight ⟨if t then [p, k] else [k, p], w⟩ u, some ⟨[p], b⟩, t⟩
    ⟨.input, .weight ⟨if t then [p, k] else [k, p], w.map sw.quantize⟩ u, some ⟨[p], b.map sb.quantize⟩, t⟩ rfl [(⟨[m, k], x⟩ : Tensor ℤ).dequantizeBy input] [⟨[m, k], x⟩] (x.map input.dequantize) w x (w.map sw.quantize)
    (some b) (some (b.map sb.quantize)) rfl (by simpa using hx) hw rfl (by simpa using hb) rfl hx (by simpa using hw) rfl (by simpa using hb)
  refine ⟨z, f, by rw [hsw, hsb]; rfl, h1, h2, ?_⟩
  intro o hop i j hi' hj hbj hoi error
  suffices hmain : |output.dequantize (cell p o i j) - (cell p f i j + b.getD j 0 * (sw.scale / output.scale - 1))| ≤ error by
    refine ⟨hmain, ?_⟩
    have h4 : |b.getD j 0 * (sw.scale / output.scale - 1)|
        ≤ |output.dequantize (cell p o i j) - (cell p f i j + b.getD j 0 * (sw.scale / output.scale - 1))| + |output.dequantize (cell p o i j) - cell p f i j| := by
      have e : b.getD j 0 * (sw.scale / output.scale - 1) = -(output.dequantize (cell p o i j) - (cell p f i j + b.getD j 0 * (sw.scale / output.scale - 1))) + (output.dequantize (cell p o i j) - cell p f i j) := by ring
      calc |b.getD j 0 * (sw.scale / output.scale - 1)| = _ := congrArg abs e
        _ ≤ _ := (abs_add_le _ _).trans (by rw [abs_neg])
    rw [abs_mul] at h4
    linarith
  have := h3 o hop i j hi' hj hoi
  simp only [biasAt] at this
  have hsum : |∑ c ∈ Finset.range k, (((cell k x i c : ℤ) : ℚ) * input.scale * (((cellOf t k p (w.map sw.quantize) c j : ℤ) : ℚ) * sw.scale) - cell k (x.map input.dequantize) i c * cellOf t k p w c j)|
      ≤ sw.scale / 2 * ∑ c ∈ Finset.range k, |input.dequantize (cell k x i c)| := by
    rw [Finset.mul_sum]
    refine (Finset.abs_sum_le_sum_abs _ _).trans (Finset.sum_le_sum fun c hc => ?_)
    have hc := Finset.mem_range.1 hc
    rw [cell_map _ m k x hx hi' hc, cellOf_map _ t k p w hw hc hj]
    have he : ((cell k x i c : ℤ) : ℚ) * input.scale * ((sw.quantize (cellOf t k p w c j) : ℚ) * sw.scale) - input.dequantize (cell k x i c) * cellOf t k p w c j
        = ((sw.quantize (cellOf t k p w c j) : ℚ) * sw.scale - cellOf t k p w c j) * input.dequantize (cell k x i c) := by
      unfold ScalingFactor.dequantize
      ring
    rw [he, abs_mul]
    apply mul_le_mul_of_nonneg_right _ (abs_nonneg _)
    rw [hsw]
    exact quantize_max_error bl hbl w _ (cellOf_mem t k p w hw hc hj)
  have hbias : |(sb.quantize (b.getD j 0) : ℚ) * (input.scale * output.scale) - b.getD j 0| ≤ input.scale * output.scale / 2 := by
    have hbp : 0 < sb.scale := by rw [hsbs]; positivity
    have hab := abs_le.1 hbj
    have := C19_accuracy sb hbp (b.getD j 0) (by rw [hsbd, hsbs]; push_cast; linarith) (by rw [hsbd, hsbs]; push_cast; linarith)
    unfold ScalingFactor.dequantize at this
    rw [hsbs] at this
    exact this
  have hsplit : output.dequantize (cell p o i j) - (cell p f i j + b.getD j 0 * (sw.scale / output.scale - 1))
      = (output.dequantize (cell p o i j) - (cell p f i j - b.getD j 0 + (((b.map sb.quantize).getD j 0 : ℤ) : ℚ) * (input.scale * sw.scale)))
        + ((sb.quantize (b.getD j 0) : ℚ) * (input.scale * output.scale) - b.getD j 0) * (sw.scale / output.scale) := by
    rw [getD_map_of_lt _ _ _ 0 _ (by omega)]
    field_simp
    ring
  rw [hsplit]
  refine (abs_add_le _ _).trans (add_le_add (this.trans (add_le_add le_rfl hsum)) ?_)
  rw [abs_mul, abs_of_pos (div_pos hpos ho)]
  calc _ ≤ input.scale * output.scale / 2 * (sw.scale / output.scale) := mul_le_mul_of_nonneg_right hbias (div_pos hpos ho).le
    _ = _ := by field_simp

theorem flat4_lt {a b c d i j k l : ℕ} (hi : i < a) (hj : j < b) (hk : k < c) (hl : l < d) : flat [a, b, c, d] [i, j, k, l] < a * (b * (c * d)) := by
  have := flat_lt (shape := [a, b, c, d]) (c := [i, j, k, l]) (by
    simp only [inRange_cons_cons, inRange_nil, and_true]
    exact ⟨hi, hj, hk, hl⟩)
  simpa using this

/-- C91 for convolutions: the direct convolution of the quantised input with the quantised filter and bias, after requantisation and read with the announced factor, is what the float layer computes from the values the input stands for,
up to half a step of the output, half a step of the filter for each input in the window, half a step of the bias, and the error of the fixed point multiplier. That the quantised layer computes the direct convolution is C32. Missing:
multipliers of two or more (C20), outputs at the edge of the range, and biases that do not fit the range of `2 * bl` bits at the factor of the product, which are clamped. -/
theorem C91_conv_partial (bl : ℕ) (hbl : 2 ≤ bl) (input output : ScalingFactor) (hi : 0 < input.scale) (ho : 0 < output.scale) (c h w kn kh kw : ℕ) (hkh : kh ≤ h) (hkw : kw ≤ w)
    (f b : List ℚ) (hf : f.length = kn * (c * (kh * kw))) (hb : b.length = kn) (sw : ScalingFactor) (hsw : sw = ScalingFactor.fromAbsoluteMax bl (max (maxAbsOutput f) (maxAbsOutput b)) none) (hpos : 0 < sw.scale) (hmul : input.m sw output < 2)
    (ibs : ℕ) (r : Requant) (hr : convRequant bl input output ⟨[kn, c, kh, kw], f⟩ ⟨[kn], b⟩ ibs = some r) (x : List ℤ) (hx : x.length = c * (h * w)) :
    let q := convQuantize bl input ⟨[kn, c, kh, kw], f⟩ ⟨[kn], b⟩
    let shape := [1, kn, h - kh + 1, w - kw + 1]
    ∃ z y, conv2d ⟨[c, h, w], x⟩ q.1 q.2 1 = some ⟨shape, z⟩ ∧ conv2d ((⟨[c, h, w], x⟩ : Tensor ℤ).dequantizeBy input) ⟨[kn, c, kh, kw], f⟩ ⟨[kn], b⟩ 1 = some ⟨shape, y⟩ ∧
      ∀ o, r.op bl z = some o → ∀ i u v, i < kn → u < h - kh + 1 → v < w - kw + 1 → |b.getD i 0| ≤ (2 ^ (2 * bl - 1) - 1) * (input.scale * sw.scale) → |o.getD (flat shape [0, i, u, v]) 0| < 2 ^ (bl - 1) - 1 →
        |output.dequantize (o.getD (flat shape [0, i, u, v]) 0) - y.getD (flat shape [0, i, u, v]) 0| ≤ output.scale / 2 + output.scale * |((z.getD (flat shape [0, i, u, v]) 0 : ℤ) : ℚ)| / 2 ^ (r.shift + 1)
          + sw.scale / 2 * (∑ j ∈ Finset.range c, ∑ a ∈ Finset.range kh, ∑ e ∈ Finset.range kw, |input.dequantize (x.getD (flat [c, h, w] [j, u + a, v + e]) 0)|) + input.scale * sw.scale / 2 := by
  intro q shape
  obtain ⟨sb, hsb⟩ : ∃ sb, sb = (convScales bl input (max (maxAbsOutput f) (maxAbsOutput b))).2 := ⟨_, rfl⟩
  have hsbs : sb.scale = input.scale * sw.scale := by rw [hsb, hsw]; rfl
  have hsbd : sb.domain = (-(2 ^ (2 * bl - 1)) + 1, 2 ^ (2 * bl - 1) - 1) := by rw [hsb]; rfl
  have hreq : Requant.fromMultiplier bl ((input.m sw output : ℚ) : ℝ) ibs = some r := by rw [hsw]; exact hr
  have hq : q = (⟨[kn, c, kh, kw], f.map sw.quantize⟩, ⟨[kn], b.map sb.quantize⟩) := by rw [hsw, hsb]; rfl
  obtain ⟨z, z1, z2, z3⟩ := conv2d_spec (⟨[c, h, w], x⟩ : Tensor ℤ) ⟨[kn, c, kh, kw], f.map sw.quantize⟩ ⟨[kn], b.map sb.quantize⟩ 1 c h w kn kh kw 1 rfl (by simp) (by simp [hx]) rfl (by simpa using hf) rfl (by simpa using hb) hkh hkw one_pos
  obtain ⟨y, y1, y2, y3⟩ := conv2d_spec ((⟨[c, h, w], x⟩ : Tensor ℤ).dequantizeBy input) ⟨[kn, c, kh, kw], f⟩ ⟨[kn], b⟩ 1 c h w kn kh kw 1 rfl (by simp [Tensor.dequantizeBy]) (by simp [Tensor.dequantizeBy, hx]) rfl hf rfl hb hkh hkw one_pos
  simp only [Nat.div_one] at z1 z2 z3 y1 y2 y3
  refine ⟨z, y, by rw [hq]; exact z1, y1, ?_⟩
  intro o hop i u v hi' hu hv hbi hoi
  have hzi := z3 0 i u v one_pos hi' hu hv
  have hyi := y3 0 i u v one_pos hi' hu hv
  have hlt : flat shape [0, i, u, v] < z.length := by
    rw [z2]
    have := flat4_lt (a := 1) (b := kn) (c := h - kh + 1) (d := w - kw + 1) one_pos hi' hu hv
    calc _ < _ := this
      _ = _ := by ring
  obtain ⟨-, herr⟩ := requant_value_error bl hbl input sw output hi hpos ho hmul ibs r hreq z o hop _ hlt hoi
  obtain ⟨K, hK⟩ : ∃ K : ℕ → ℕ → ℕ → ℚ, K = fun j a e => f.getD (flat [kn, c, kh, kw] [i, j, a, e]) 0 := ⟨_, rfl⟩
  obtain ⟨X, hX⟩ : ∃ X : ℕ → ℕ → ℕ → ℤ, X = fun j a e => x.getD (flat [c, h, w] [j, u + a, v + e]) 0 := ⟨_, rfl⟩
  have hflat : ∀ j a e, flat [1, c, h, w] [0, j, a, e] = flat [c, h, w] [j, a, e] := by intro j a e; simp [flat]
  have hz' : z.getD (flat shape [0, i, u, v]) 0 = ∑ j ∈ Finset.range c, ∑ a ∈ Finset.range kh, ∑ e ∈ Finset.range kw, X j a e * sw.quantize (K j a e) + sb.quantize (b.getD i 0) := by
    rw [hzi]
    congr 1
    · unfold convSum
      refine Finset.sum_congr rfl fun j hj => Finset.sum_congr rfl fun a ha => Finset.sum_congr rfl fun e he => ?_
      rw [hX, hK, mul_one, mul_one]
      dsimp only
      rw [hflat, getD_map_of_lt sw.quantize f _ 0 0 (by rw [hf]; exact flat4_lt hi' (Finset.mem_range.1 hj) (Finset.mem_range.1 ha) (Finset.mem_range.1 he))]
    · exact getD_map_of_lt _ _ _ 0 _ (by omega)
  have hy' : y.getD (flat shape [0, i, u, v]) 0 = ∑ j ∈ Finset.range c, ∑ a ∈ Finset.range kh, ∑ e ∈ Finset.range kw, input.dequantize (X j a e) * K j a e + b.getD i 0 := by
    rw [hyi]
    congr 1
    unfold convSum
    refine Finset.sum_congr rfl fun j hj => Finset.sum_congr rfl fun a ha => Finset.sum_congr rfl fun e he => ?_
    have hj := Finset.mem_range.1 hj
    have ha := Finset.mem_range.1 ha
    have he := Finset.mem_range.1 he
    rw [hX, hK, mul_one, mul_one]
    dsimp only [Tensor.dequantizeBy]
    rw [getD_map_of_lt input.dequantize x _ 0 0 (by
      have := flat4_lt (a := 1) (b := c) (c := h) (d := w) one_pos hj (show u + a < h by omega) (show v + e < w by omega)
      rw [hx]
      simpa using this), hflat]
  have hbias : |(sb.quantize (b.getD i 0) : ℚ) * (input.scale * sw.scale) - b.getD i 0| ≤ input.scale * sw.scale / 2 := by
    have hbp : 0 < sb.scale := by rw [hsbs]; positivity
    have hab := abs_le.1 hbi
    have := C19_accuracy sb hbp (b.getD i 0) (by rw [hsbd, hsbs]; push_cast; linarith) (by rw [hsbd, hsbs]; push_cast; linarith)
    unfold ScalingFactor.dequantize at this
    rw [hsbs] at this
    exact this
  have hsplit : output.dequantize (o.getD (flat shape [0, i, u, v]) 0) - y.getD (flat shape [0, i, u, v]) 0
      = (output.dequantize (o.getD (flat shape [0, i, u, v]) 0) - ((z.getD (flat shape [0, i, u, v]) 0 : ℤ) : ℚ) * (input.scale * sw.scale))
        + ∑ j ∈ Finset.range c, ∑ a ∈ Finset.range kh, ∑ e ∈ Finset.range kw, ((sw.quantize (K j a e) : ℚ) * sw.scale - K j a e) * input.dequantize (X j a e)
        + ((sb.quantize (b.getD i 0) : ℚ) * (input.scale * sw.scale) - b.getD i 0) := by
    have hs : ∑ j ∈ Finset.range c, ∑ a ∈ Finset.range kh, ∑ e ∈ Finset.range kw, ((sw.quantize (K j a e) : ℚ) * sw.scale - K j a e) * input.dequantize (X j a e)
        = (∑ j ∈ Finset.range c, ∑ a ∈ Finset.range kh, ∑ e ∈ Finset.range kw, (X j a e : ℚ) * (sw.quantize (K j a e) : ℚ)) * (input.scale * sw.scale)
          - ∑ j ∈ Finset.range c, ∑ a ∈ Finset.range kh, ∑ e ∈ Finset.range kw, input.dequantize (X j a e) * K j a e := by
      simp only [Finset.sum_mul, ← Finset.sum_sub_distrib]
      refine Finset.sum_congr rfl fun j _ => Finset.sum_congr rfl fun a _ => Finset.sum_congr rfl fun e _ => ?_
      unfold ScalingFactor.dequantize
      ring
    rw [hs, hy', hz']
    push_cast
    ring
  have hsum : |∑ j ∈ Finset.range c, ∑ a ∈ Finset.range kh, ∑ e ∈ Finset.range kw, ((sw.quantize (K j a e) : ℚ) * sw.scale - K j a e) * input.dequantize (X j a e)|
      ≤ sw.scale / 2 * (∑ j ∈ Finset.range c, ∑ a ∈ Finset.range kh, ∑ e ∈ Finset.range kw, |input.dequantize (X j a e)|) := by
    simp only [Finset.mul_sum]
    refine (Finset.abs_sum_le_sum_abs _ _).trans (Finset.sum_le_sum fun j hj => (Finset.abs_sum_le_sum_abs _ _).trans (Finset.sum_le_sum fun a ha => (Finset.abs_sum_le_sum_abs _ _).trans (Finset.sum_le_sum fun e he => ?_)))
    rw [abs_mul]
    apply mul_le_mul_of_nonneg_right _ (abs_nonneg _)
    rw [hsw, hK]
    apply quantize_bound_error bl hbl
    refine ((maxAbsOutput_spec f).2 _ ?_).trans (le_max_left _ _)
    have hl : flat [kn, c, kh, kw] [i, j, a, e] < f.length := by rw [hf]; exact flat4_lt hi' (Finset.mem_range.1 hj) (Finset.mem_range.1 ha) (Finset.mem_range.1 he)
    show f.getD _ 0 ∈ f
    rw [List.getD_eq_getElem _ _ hl]
    exact List.getElem_mem _
  rw [hsplit]
  rw [hX] at hsum
  refine (abs_add_le _ _).trans (add_le_add ((abs_add_le _ _).trans (add_le_add herr ?_)) hbias)
  rw [hX]
  exact hsum

/-! ### Instances -/

/-- Two outputs of two inputs; the factor of the weights for eight bits is `1`. -/
def toyMatMul (bias : Option (Tensor ℚ)) : MatMulLayer ℚ := ⟨.input, .weight ⟨[2, 2], [127, 1, -3 / 2, 2]⟩ [2, 2], bias, false⟩

/-- Values in `[-254, 254]`: the factor for eight bits is `2`. -/
def toyTwo : ScalingFactor := ScalingFactor.fromAbsoluteMax 8 254 none

/-- The hypotheses of `C91_matmul_right_partial` and `C91_matmul_bias_false` hold of it. -/
example (bias : Option (Tensor ℚ)) : 0 < toyTwo.scale ∧ (ScalingFactor.fromAbsoluteMax 8 (maxAbsOutput [127, 1, -3 / 2, 2]) none).scale = 1 ∧
    toyTwo.m (ScalingFactor.fromAbsoluteMax 8 (maxAbsOutput [127, 1, -3 / 2, 2]) none) toyTwo < 2 ∧ (toyMatMul bias).requant 8 [toyTwo] toyTwo 18 = some ⟨0, 2 ^ 32, 32, 18⟩ := by
  refine ⟨by decide +kernel, by decide +kernel, by decide +kernel, ?_⟩
  have : toyTwo.m (ScalingFactor.fromAbsoluteMax 8 (maxAbsOutput [127, 1, -3 / 2, 2]) none) toyTwo = 1 := by decide +kernel
  unfold MatMulLayer.requant
  show Requant.fromMultiplier 8 _ 18 = _
  rw [this]
  simpa using fromMultiplier_one 18 (by omega)

/-- Without bias the input `[0, 2]` gives `[-3, 4]` in floats, and the quantised output, times two, is `[-4, 4]`. With the bias `[100, -8]` the floats are `[97, -4]`, and the quantised output, times two, is `[46, 0]`: half of the bias is
missing. -/
example : ((toyMatMul none).quantize 8 [toyTwo] toyTwo).bind (fun l => l.op [⟨[1, 2], [0, 1]⟩]) = some ⟨[1, 2], [-2, 2]⟩ ∧ (toyMatMul none).op [(⟨[1, 2], [0, 1]⟩ : Tensor ℤ).dequantizeBy toyTwo] = some ⟨[1, 2], [-3, 4]⟩ ∧
    ((toyMatMul (some ⟨[2], [100, -8]⟩)).quantize 8 [toyTwo] toyTwo).bind (fun l => l.op [⟨[1, 2], [0, 1]⟩]) = some ⟨[1, 2], [23, 0]⟩ ∧
    (toyMatMul (some ⟨[2], [100, -8]⟩)).op [(⟨[1, 2], [0, 1]⟩ : Tensor ℤ).dequantizeBy toyTwo] = some ⟨[1, 2], [97, -4]⟩ ∧ (⟨0, 2 ^ 32, 32, 18⟩ : Requant).op 8 [23, 0] = some [23, 0] := by
  refine ⟨?_, ?_, ?_, ?_, ?_⟩ <;> decide +kernel

/-- A constant left matrix, and two inputs, one of them transposed. -/
example : ((⟨.weight ⟨[2, 2], [127, 1, -3 / 2, 2]⟩ [2, 2], .input, none, false⟩ : MatMulLayer ℚ).quantize 8 [toyTwo] toyTwo).bind (fun l => l.op [⟨[2, 1], [0, 1]⟩]) = some ⟨[2, 1], [1, 2]⟩ ∧
    ((⟨.input, .input, none, true⟩ : MatMulLayer ℚ).quantize 8 [toyTwo, toyUnit] toyTwo).bind (fun l => l.op [⟨[1, 2], [3, -1]⟩, ⟨[2, 2], [5, 1, 0, 7]⟩]) = some ⟨[1, 2], [14, -7]⟩ := by
  refine ⟨?_, ?_⟩ <;> decide +kernel

/-- A convolution of one channel of size three with a filter of size two, whose factor for eight bits is `1`; the input has the factor `2`. -/
example : (convQuantize 8 toyTwo ⟨[1, 1, 2, 2], [127, 1, -3 / 2, 2]⟩ ⟨[1], [10]⟩).2 = ⟨[1], [5]⟩ ∧
    conv2d (⟨[1, 3, 3], [0, 1, 0, 2, 3, 0, 0, 0, -1]⟩ : Tensor ℤ) (convQuantize 8 toyTwo ⟨[1, 1, 2, 2], [127, 1, -3 / 2, 2]⟩ ⟨[1], [10]⟩).1 (convQuantize 8 toyTwo ⟨[1, 1, 2, 2], [127, 1, -3 / 2, 2]⟩ ⟨[1], [10]⟩).2 1
      = some ⟨[1, 1, 2, 2], [8, 126, 262, 384]⟩ ∧
    conv2d ((⟨[1, 3, 3], [0, 1, 0, 2, 3, 0, 0, 0, -1]⟩ : Tensor ℤ).dequantizeBy toyTwo) ⟨[1, 1, 2, 2], [127, 1, -3 / 2, 2]⟩ ⟨[1], [10]⟩ 1 = some ⟨[1, 1, 2, 2], [18, 255, 524, 768]⟩ := by
  refine ⟨?_, ?_, ?_⟩ <;> decide +kernel

end Props
