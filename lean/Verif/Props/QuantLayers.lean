import Verif.Model.QuantLayers
import Verif.Lemmas.LayerPad
import Verif.Lemmas.Quant
import Verif.Props.Calibration

/-!
C91: the factor a quantised layer announces for its output is the factor of its values.
-/

namespace Props

open Model Spec Lemmas

theorem getD_map_of_lt {A B : Type} (f : A → B) (l : List A) (i : ℕ) (a : A) (b : B) (h : i < l.length) : (l.map f).getD i b = f (l.getD i a) := by
  simp [List.getD_eq_getElem?_getD, List.getElem?_map, List.getElem?_eq_getElem h]

theorem maxAbsOutput_spec (t : List ℚ) : 0 ≤ maxAbsOutput t ∧ ∀ v ∈ t, |v| ≤ maxAbsOutput t := foldl_max_ge t 0

/-! ### Dense -/

/-- C91 for dense layers: if the input consists of quantised values `x` with the factor `input`, and the factor `output` was chosen for the output, then every output of the
quantised layer after requantisation that is not at the edge of the range, read with the factor `output`, is what the float layer computes from the values `x` stands for, up to
half a step of the output, half a step of the weights for each input, half a step of the bias, and the error of the fixed point multiplier. Missing: multipliers of two or more
(C20), and biases that do not fit the range of `2 * bl` bits at the factor of the product, which are clamped. -/
theorem C91_dense_partial (bl : ℕ) (hbl : 2 ≤ bl) (input output : ScalingFactor) (hi : 0 < input.scale) (ho : 0 < output.scale) (m n : ℕ) (hn : 0 < n) (w b : List ℚ)
    (hw : w.length = m * n) (hb : b.length = m) (u : List ℕ) (d : DenseLayer ℚ) (hd : d = ⟨⟨[m, n], w⟩, ⟨[m], b⟩, u⟩)
    (hpos : 0 < (d.scales bl input).1.scale) (hmul : input.m (d.scales bl input).1 output < 2) (ibs : ℕ) (r : Requant) (hr : d.requant bl input output ibs = some r)
    (s : List ℕ) (x : List ℤ) (hx : x.length = n) (hs : s.length = 1 → s = [n]) (z y : List ℤ) (hz : (d.quantize bl input).evaluate ⟨s, x⟩ = some ⟨[m], z⟩)
    (hy : r.op bl z = some y) :
    ∃ y' : List ℚ, d.evaluate ((⟨s, x⟩ : Tensor ℤ).dequantizeBy input) = some ⟨[m], y'⟩ ∧ y'.length = m ∧ y.length = m ∧
      ∀ i < m, |b.getD i 0| ≤ (2 ^ (2 * bl - 1) - 1) * (input.scale * (d.scales bl input).1.scale) → |y.getD i 0| < 2 ^ (bl - 1) - 1 →
        |output.dequantize (y.getD i 0) - y'.getD i 0| ≤ output.scale / 2 + output.scale * |(z.getD i 0 : ℚ)| / 2 ^ (r.shift + 1)
          + (d.scales bl input).1.scale / 2 * ∑ j ∈ Finset.range n, |input.dequantize (x.getD j 0)| + input.scale * (d.scales bl input).1.scale / 2 := by
  obtain ⟨sw, hsw⟩ : ∃ sw, sw = (d.scales bl input).1 := ⟨_, rfl⟩
  obtain ⟨sb, hsb⟩ : ∃ sb, sb = (d.scales bl input).2 := ⟨_, rfl⟩
  have hsbs : sb.scale = input.scale * sw.scale := by rw [hsb, hsw]; rfl
  have hsbd : sb.domain = (-(2 ^ (2 * bl - 1)) + 1, 2 ^ (2 * bl - 1) - 1) := by rw [hsb]; rfl
  rw [← hsw] at hpos hmul ⊢
  have hdq : d.quantize bl input = ⟨⟨[m, n], w.map sw.quantize⟩, ⟨[m], b.map sb.quantize⟩, u⟩ := by
    rw [hsw, hsb, hd]
    rfl
  obtain ⟨y', e₁, e₂, e₃⟩ := denseEval_spec m n hn w b (x.map input.dequantize) u s hw hb (by simpa using hx) hs
  obtain ⟨z', f₁, f₂, f₃⟩ := denseEval_spec m n hn (w.map sw.quantize) (b.map sb.quantize) x u s (by simpa using hw) (by simpa using hb) hx hs
  rw [hdq, f₁] at hz
  simp only [Option.some.injEq, Tensor.mk.injEq, true_and] at hz
  subst hz
  have hyl : y.length = m := by
    have := C20_op bl r z' y hy
    rw [this, List.length_map, f₂]
  refine ⟨y', by rw [hd]; exact e₁, e₂, hyl, ?_⟩
  intro i him hbi hyi
  -- the factor of the weights
  have hA := maxAbsOutput_spec w
  have hB := maxAbsOutput_spec b
  have hfit : ∀ v ∈ w, |(sw.quantize v : ℚ) * sw.scale - v| ≤ sw.scale / 2 := by
    obtain ⟨A, hAd⟩ : ∃ A, A = max (maxAbsOutput w) (maxAbsOutput b) := ⟨_, rfl⟩
    have hs' : sw = ScalingFactor.fromAbsoluteMax bl A none := by
      rw [hsw, hd, hAd]
      rfl
    intro v hv
    have hle : |v| ≤ A := by rw [hAd]; exact (hA.2 v hv).trans (le_max_left _ _)
    have := (fromAbsoluteMax_fits bl hbl A {u | |u| ≤ A} (fun _ h => h) ⟨A, by
      have hA0 : 0 ≤ A := (abs_nonneg v).trans hle
      simp [abs_of_nonneg hA0]⟩).accurate v hle
    rw [← hs'] at this
    exact this
  have hbias : |(sb.quantize (b.getD i 0) : ℚ) * (input.scale * sw.scale) - b.getD i 0| ≤ input.scale * sw.scale / 2 := by
    have hbp : 0 < sb.scale := by rw [hsbs]; positivity
    have hab := abs_le.1 hbi
    have := C19_accuracy sb hbp (b.getD i 0) (by rw [hsbd, hsbs]; push_cast; linarith) (by rw [hsbd, hsbs]; push_cast; linarith)
    rw [hsbs] at this
    unfold ScalingFactor.dequantize at this
    rw [hsbs] at this
    exact this
  -- requantisation
  have hmpos : 0 < input.m sw output := by unfold ScalingFactor.m; positivity
  have hone : r.op bl [z'.getD i 0] = some [y.getD i 0] := by
    have hf := (mapM_forall₂ _ _ _).1 hy
    have := (List.forall₂_iff_get.1 hf).2 i (by omega) (by omega)
    unfold Requant.op
    simp only [List.get_eq_getElem] at this
    rw [List.mapM_cons, List.getD_eq_getElem _ _ (by omega), List.getD_eq_getElem _ _ (by omega)]
    simp only [this, List.mapM_nil, Option.bind_eq_bind, Option.bind_some, Option.pure_def]
  have hyi' := abs_lt.1 hyi
  have hacc := C20_accuracy bl r (z'.getD i 0) (y.getD i 0) (input.m sw output) hone (by omega) (by omega)
  have hfp : |(r.fpm : ℚ) / 2 ^ r.shift - input.m sw output| ≤ 1 / 2 ^ (r.shift + 1) := by
    have := (C20_from_multiplier_partial bl (by omega) ((input.m sw output : ℚ) : ℝ) (by exact_mod_cast hmpos) (by exact_mod_cast hmul) ibs r
      (by rw [hsw]; exact hr)).1
    rw [← Rat.cast_le (K := ℝ)]
    push_cast
    push_cast at this
    exact this
  -- the accumulator
  have hz' : ((z'.getD i 0 : ℤ) : ℚ) = ∑ j ∈ Finset.range n, (sw.quantize (w.getD (i * n + j) 0) : ℚ) * (x.getD j 0 : ℚ) + (sb.quantize (b.getD i 0) : ℚ) := by
    rw [f₃ i him]
    push_cast
    congr 1
    · apply Finset.sum_congr rfl
      intro j hj
      rw [getD_map_of_lt _ _ _ 0 _ (by rw [hw]; exact mul_add_lt him (Finset.mem_range.1 hj))]
    · rw [getD_map_of_lt _ _ _ 0 _ (by omega)]
  have hy' : y'.getD i 0 = ∑ j ∈ Finset.range n, w.getD (i * n + j) 0 * input.dequantize (x.getD j 0) + b.getD i 0 := by
    rw [e₃ i him]
    congr 1
    apply Finset.sum_congr rfl
    intro j hj
    rw [getD_map_of_lt _ _ _ 0 _ (by rw [hx]; exact Finset.mem_range.1 hj)]
  have hsplit : output.dequantize (y.getD i 0) - y'.getD i 0 = output.scale * ((y.getD i 0 : ℚ) - (z'.getD i 0 : ℚ) * input.m sw output)
      + ∑ j ∈ Finset.range n, ((sw.quantize (w.getD (i * n + j) 0) : ℚ) * sw.scale - w.getD (i * n + j) 0) * input.dequantize (x.getD j 0)
      + ((sb.quantize (b.getD i 0) : ℚ) * (input.scale * sw.scale) - b.getD i 0) := by
    have hmz : output.scale * ((z'.getD i 0 : ℚ) * input.m sw output) = (z'.getD i 0 : ℚ) * (input.scale * sw.scale) := by
      unfold ScalingFactor.m
      field_simp
    have hsum : ∑ j ∈ Finset.range n, ((sw.quantize (w.getD (i * n + j) 0) : ℚ) * sw.scale - w.getD (i * n + j) 0) * input.dequantize (x.getD j 0)
        = (∑ j ∈ Finset.range n, (sw.quantize (w.getD (i * n + j) 0) : ℚ) * (x.getD j 0 : ℚ)) * (input.scale * sw.scale)
          - ∑ j ∈ Finset.range n, w.getD (i * n + j) 0 * input.dequantize (x.getD j 0) := by
      rw [Finset.sum_mul, ← Finset.sum_sub_distrib]
      apply Finset.sum_congr rfl
      intro j _
      unfold ScalingFactor.dequantize
      ring
    rw [mul_sub, hmz, hsum, hy']
    unfold ScalingFactor.dequantize
    rw [hz']
    ring
  have h₁ : |output.scale * ((y.getD i 0 : ℚ) - (z'.getD i 0 : ℚ) * input.m sw output)| ≤ output.scale / 2 + output.scale * |(z'.getD i 0 : ℚ)| / 2 ^ (r.shift + 1) := by
    rw [abs_mul, abs_of_pos ho]
    calc output.scale * |(y.getD i 0 : ℚ) - (z'.getD i 0 : ℚ) * input.m sw output|
        ≤ output.scale * (1 / 2 + |(z'.getD i 0 : ℚ)| * (1 / 2 ^ (r.shift + 1))) := by
          apply mul_le_mul_of_nonneg_left _ ho.le
          exact hacc.trans (add_le_add le_rfl (mul_le_mul_of_nonneg_left hfp (abs_nonneg _)))
      _ = _ := by ring
  have h₂ : |∑ j ∈ Finset.range n, ((sw.quantize (w.getD (i * n + j) 0) : ℚ) * sw.scale - w.getD (i * n + j) 0) * input.dequantize (x.getD j 0)|
      ≤ sw.scale / 2 * ∑ j ∈ Finset.range n, |input.dequantize (x.getD j 0)| := by
    rw [Finset.mul_sum]
    refine (Finset.abs_sum_le_sum_abs _ _).trans (Finset.sum_le_sum fun j hj => ?_)
    rw [abs_mul]
    apply mul_le_mul_of_nonneg_right _ (abs_nonneg _)
    have hlt : i * n + j < w.length := by rw [hw]; exact mul_add_lt him (Finset.mem_range.1 hj)
    rw [List.getD_eq_getElem _ _ hlt]
    exact hfit _ (List.getElem_mem hlt)
  rw [hsplit]
  refine (abs_add_le _ _).trans (add_le_add ((abs_add_le _ _).trans (add_le_add h₁ h₂)) hbias)

/-! ### Layers that keep the factor -/

/-- C91 for the rectifier: it announces the factor of its input, and reading with a factor commutes with it exactly. -/
theorem C91_relu (s : ScalingFactor) (hs : 0 ≤ s.scale) (t : Tensor ℤ) :
    (reluOp t).dequantizeBy s = ⟨t.shape, (t.dequantizeBy s).data.map fun v => max v 0⟩ := by
  unfold reluOp Tensor.dequantizeBy
  simp only [List.map_map, Tensor.mk.injEq, true_and]
  apply List.map_congr_left
  intro x _
  simp only [Function.comp_apply, ScalingFactor.dequantize, reluApply]
  split
  · rename_i h
    have : (x : ℚ) ≤ 0 := by exact_mod_cast h.le
    rw [max_eq_right (mul_nonpos_of_nonpos_of_nonneg this hs)]
    simp
  · rename_i h
    have : (0 : ℚ) ≤ x := by exact_mod_cast not_lt.1 h
    rw [max_eq_left (mul_nonneg this hs)]

theorem foldl_max_map (f : ℤ → ℚ) (hf : Monotone f) : ∀ (vs : List ℤ) (v : ℤ), (vs.map f).foldl max (f v) = f (vs.foldl max v)
  | [], _ => rfl
  | u :: vs, v => by
    rw [List.map_cons, List.foldl_cons, List.foldl_cons, ← hf.map_max, foldl_max_map f hf]

theorem poolWindow_map (f : ℤ → ℚ) (hf : Monotone f) (data : List ℤ) (base w stride kernel i j : ℕ) :
    poolWindow (data.map f) base w stride kernel i j = (poolWindow data base w stride kernel i j).map f := by
  unfold poolWindow
  simp only [List.getElem?_map, Option.bind_eq_bind]
  cases data[base + i * stride * w + j * stride]? with
  | none => rfl
  | some first =>
    simp only [Option.map_some, Option.bind_some]
    have : ∀ (l : List (ℕ × ℕ)), (l.mapM fun k => (data[base + (i * stride + k.1) * w + (j * stride + k.2)]?).map f)
        = (l.mapM fun k => data[base + (i * stride + k.1) * w + (j * stride + k.2)]?).map (List.map f) := by
      intro l
      induction l with
      | nil => rfl
      | cons k l ih =>
        rw [List.mapM_cons, List.mapM_cons, ih]
        cases data[base + (i * stride + k.1) * w + (j * stride + k.2)]? <;> simp
        cases (l.mapM fun k => data[base + (i * stride + k.1) * w + (j * stride + k.2)]?) <;> simp
    rw [this]
    cases (((List.range kernel).flatMap fun ki => (List.range kernel).map fun kj => (ki, kj)).mapM fun k => data[base + (i * stride + k.1) * w + (j * stride + k.2)]?) with
    | none => rfl
    | some vals => simp [foldl_max_map f hf]

/-- C91 for maximum pooling: it announces the factor of its input, and reading with a factor commutes with it exactly, also when it fails. -/
theorem C91_pooling (s : ScalingFactor) (hs : 0 ≤ s.scale) (t : Tensor ℤ) (kernel stride : ℕ) :
    (t.dequantizeBy s).maxpool2d kernel stride = (t.maxpool2d kernel stride).map (Tensor.dequantizeBy s) := by
  have hf : Monotone s.dequantize := by
    intro a b h
    unfold ScalingFactor.dequantize
    exact mul_le_mul_of_nonneg_right (by exact_mod_cast h) hs
  unfold Tensor.maxpool2d Tensor.dequantizeBy
  simp only
  split
  · rename_i w h outer heq
    split
    · simp only [poolWindow_map _ hf, Option.bind_eq_bind]
      have : ∀ (l : List ℕ) (g : ℕ → Option ℤ), (l.mapM fun k => (g k).map s.dequantize) = (l.mapM g).map (List.map s.dequantize) := by
        intro l g
        induction l with
        | nil => rfl
        | cons k l ih =>
          rw [List.mapM_cons, List.mapM_cons, ih]
          cases g k <;> simp
          cases l.mapM g <;> simp
      rw [this]
      cases (List.mapM (fun idx => poolWindow t.data (idx / (((h - kernel) / stride + 1) * ((w - kernel) / stride + 1)) * (h * w)) w stride kernel
        (idx / ((w - kernel) / stride + 1) % ((h - kernel) / stride + 1)) (idx % ((w - kernel) / stride + 1)))
        (List.range (outer.reverse.prod * ((h - kernel) / stride + 1) * ((w - kernel) / stride + 1)))) <;> rfl
    · rfl
  · rfl

/-! ### GELU -/

/-- The values GELU produces have the factor `1 / M`, whatever the factor of the input: within half a step they are the function applied to an argument that is the value of the
input up to `|x| / 2 ^ 13`. What is missing for C91 is that `1 / M` is the factor announced, see `C91_gelu_false`. -/
theorem C91_gelu_partial (bl : ℕ) (hbl : 2 ≤ bl) (gelu : ℚ → ℚ) (input : ScalingFactor) (q : ℤ × ℤ × ℤ) (hq : geluQuantData input = some q) (x o : ℤ)
    (ho : geluApply bl gelu q x = some o) :
    ∃ v : ℚ, v = x * (roundAway (2 ^ 12 * input.scale) : ℤ) / 2 ^ 12 ∧ |v - input.dequantize x| ≤ |(x : ℚ)| / 2 ^ 13 ∧
      |(o : ℚ) * (1 / (2 ^ (bl - 1) - 1)) - gelu v| ≤ 1 / (2 ^ (bl - 1) - 1) / 2 := by
  have hM : (1 : ℚ) ≤ 2 ^ (bl - 1) - 1 := by
    have : (2 : ℚ) ^ 1 ≤ 2 ^ (bl - 1) := pow_le_pow_right₀ (by norm_num) (by omega)
    linarith
  have hq1 : q.1 = roundAway (2 ^ 12 * input.scale) := by
    unfold geluQuantData at hq
    simp only [Option.bind_eq_bind] at hq
    obtain ⟨c, _, hc⟩ := Option.bind_eq_some_iff.1 hq
    split at hc
    · rw [← Option.some.inj hc]
    · exact absurd hc (by simp)
  refine ⟨_, rfl, ?_, ?_⟩
  · have h : |(roundAway (2 ^ 12 * input.scale) : ℚ) - 2 ^ 12 * input.scale| ≤ 1 / 2 := roundAway_close (2 ^ 12 * input.scale)
    unfold ScalingFactor.dequantize
    have : (x : ℚ) * (roundAway (2 ^ 12 * input.scale) : ℤ) / 2 ^ 12 - x * input.scale = x * ((roundAway (2 ^ 12 * input.scale) : ℚ) - 2 ^ 12 * input.scale) / 2 ^ 12 := by ring
    rw [this, abs_div, abs_mul, abs_of_pos (by norm_num : (0 : ℚ) < 2 ^ 12)]
    have h2 := mul_le_mul_of_nonneg_left h (abs_nonneg (x : ℚ))
    rw [div_le_div_iff₀ (by norm_num) (by norm_num)]
    generalize |(x : ℚ)| * |(roundAway (2 ^ 12 * input.scale) : ℚ) - 2 ^ 12 * input.scale| = P at h2 ⊢
    norm_num
    linarith
  · unfold geluApply at ho
    split at ho
    · have := Option.some.inj ho
      rw [← this]
      unfold geluTableOutput qMax
      have h := roundAway_close (gelu (((x * q.1 : ℤ) : ℚ) / 2 ^ 12) * (((2 : ℤ) ^ (bl - 1) - 1 : ℤ) : ℚ))
      rw [hq1] at h ⊢
      push_cast at h ⊢
      rw [show ∀ a g : ℚ, a * (1 / (2 ^ (bl - 1) - 1)) - g = (a - g * (2 ^ (bl - 1) - 1)) / (2 ^ (bl - 1) - 1) by intro a g; field_simp, abs_div,
        abs_of_pos (by linarith : (0 : ℚ) < 2 ^ (bl - 1) - 1)]
      have hM0 : (0 : ℚ) < 2 ^ (bl - 1) - 1 := by linarith
      rw [div_right_comm]
      exact div_le_div_of_nonneg_right h hM0.le
    · exact absurd ho (by simp)

/-- The table of GELU covers the values of eight bits: for these the result is found. -/
theorem C91_gelu_covers (bl : ℕ) (gelu : ℚ → ℚ) (input : ScalingFactor) (q : ℤ × ℤ × ℤ) (hq : geluQuantData input = some q) (x : ℤ) (hx : -128 ≤ x ∧ x ≤ 127) :
    ∃ o, geluApply bl gelu q x = some o := by
  unfold geluQuantData at hq
  simp only [Option.bind_eq_bind] at hq
  obtain ⟨c, hc, hq⟩ := Option.bind_eq_some_iff.1 hq
  split at hq
  · have hq := Option.some.inj hq
    obtain ⟨h1, h2⟩ := ceilLog2_spec hc
    obtain ⟨m, hm⟩ : ∃ m, m = roundAway (2 ^ 12 * input.scale) := ⟨_, rfl⟩
    rw [← hm] at h1 h2 hq
    have hm0 : 0 < m.toNat := by
      have : 0 < 2 ^ c := by positivity
      omega
    have hm1 : (m.toNat : ℤ) = m := Int.toNat_of_nonneg (by omega)
    have h3 : m ≤ 2 ^ c := by rw [← hm1]; exact_mod_cast h1
    have h4 : (0 : ℤ) ≤ m := by omega
    rw [← hq]
    unfold geluApply
    refine ⟨_, if_pos ⟨?_, ?_⟩⟩ <;> dsimp only <;> rw [pow_add] <;> nlinarith [pow_pos (by norm_num : (0 : ℤ) < 2) c]
  · exact absurd hq (by simp)

/-- C91 is false for GELU, which announces the factor of its input: if the inputs were calibrated to the range `[-A, A]`, the values read with the announced factor are `A` times
those of the function, within half a step, and so differ from them by at least `|A - 1|` times the value of the function, less half a step. -/
theorem C91_gelu_false (bl : ℕ) (hbl : 2 ≤ bl) (gelu : ℚ → ℚ) (A : ℚ) (hA : 0 ≤ A) (input : ScalingFactor) (hi : input = ScalingFactor.fromAbsoluteMax bl A none)
    (q : ℤ × ℤ × ℤ) (hq : geluQuantData input = some q) (x o : ℤ) (ho : geluApply bl gelu q x = some o) (v : ℚ)
    (hv : v = x * (roundAway (2 ^ 12 * input.scale) : ℤ) / 2 ^ 12) :
    |input.dequantize o - A * gelu v| ≤ A / (2 ^ (bl - 1) - 1) / 2 ∧ |A - 1| * |gelu v| - A / (2 ^ (bl - 1) - 1) / 2 ≤ |input.dequantize o - gelu v| := by
  have hMz : (1 : ℤ) ≤ 2 ^ (bl - 1) - 1 := by
    have : (2 : ℤ) ^ 1 ≤ 2 ^ (bl - 1) := pow_le_pow_right₀ (by norm_num) (by omega)
    omega
  have hM : (1 : ℚ) ≤ 2 ^ (bl - 1) - 1 := by exact_mod_cast hMz
  obtain ⟨v', hv', -, h⟩ := C91_gelu_partial bl hbl gelu input q hq x o ho
  rw [← hv] at hv'
  subst hv'
  have hs : input.scale = A / (2 ^ (bl - 1) - 1) := by
    rw [hi, fromAbsoluteMax_eq bl A hA _ rfl hMz]
    push_cast
    rfl
  have h1 : |input.dequantize o - A * gelu v'| ≤ A / (2 ^ (bl - 1) - 1) / 2 := by
    unfold ScalingFactor.dequantize
    rw [hs]
    have : (o : ℚ) * (A / (2 ^ (bl - 1) - 1)) - A * gelu v' = A * ((o : ℚ) * (1 / (2 ^ (bl - 1) - 1)) - gelu v') := by ring
    rw [this, abs_mul, abs_of_nonneg hA]
    calc A * _ ≤ A * (1 / (2 ^ (bl - 1) - 1) / 2) := mul_le_mul_of_nonneg_left h hA
      _ = _ := by ring
  refine ⟨h1, ?_⟩
  rw [← abs_mul]
  have h2 : |(A - 1) * gelu v'| ≤ |input.dequantize o - A * gelu v'| + |input.dequantize o - gelu v'| := by
    have : (A - 1) * gelu v' = -(input.dequantize o - A * gelu v') + (input.dequantize o - gelu v') := by ring
    rw [this]
    refine (abs_add_le _ _).trans ?_
    rw [abs_neg]
  linarith

/-- The output of GELU leaves the range of quantised values where the function exceeds one by more than half a step: no factor is recorded that would bring it back, and the
bounds on bit sizes of the next layer assume values of at most `2 ^ (bl - 1) - 1`. -/
theorem C91_gelu_range_false (bl : ℕ) (gelu : ℚ → ℚ) (q : ℤ × ℤ × ℤ) (x o : ℤ) (ho : geluApply bl gelu q x = some o)
    (hk : (2 ^ (bl - 1) - 1 : ℚ) + 1 / 2 ≤ gelu (((x * q.1 : ℤ) : ℚ) / 2 ^ 12) * (2 ^ (bl - 1) - 1)) : 2 ^ (bl - 1) - 1 < o := by
  unfold geluApply at ho
  split at ho
  · rw [← Option.some.inj ho]
    unfold geluTableOutput qMax
    have h0 : (0 : ℚ) ≤ 2 ^ (bl - 1) - 1 := by
      have : (1 : ℚ) ≤ 2 ^ (bl - 1) := one_le_pow₀ (by norm_num)
      linarith
    unfold roundAway
    push_cast at hk ⊢
    rw [if_pos (by linarith)]
    rw [Int.lt_iff_add_one_le, Int.le_floor]
    push_cast
    linarith
  · exact absurd ho (by simp)

/-! ### Embeddings -/

theorem embeddings_map {A B : Type} (f : A → B) (vocab emb : ℕ) (table : List A) (xs : List ℤ) :
    embeddingsEvaluate vocab emb (table.map f) xs = (embeddingsEvaluate vocab emb table xs).map (List.map f) := by
  unfold embeddingsEvaluate
  simp only [List.length_map, ← List.map_drop, ← List.map_take, Option.bind_eq_bind]
  induction xs with
  | nil => rfl
  | cons x xs ih =>
    rw [List.mapM_cons, List.mapM_cons]
    split
    · simp only [Option.bind_eq_bind, Option.bind_some, Option.pure_def]
      revert ih
      generalize (List.mapM (fun x => if (x % 2 ^ 64).toNat < vocab ∧ (x % 2 ^ 64).toNat * emb + emb ≤ table.length then
        some (List.map f (List.take emb (List.drop ((x % 2 ^ 64).toNat * emb) table))) else none) xs) = a
      generalize (List.mapM (fun x => if (x % 2 ^ 64).toNat < vocab ∧ (x % 2 ^ 64).toNat * emb + emb ≤ table.length then
        some (List.take emb (List.drop ((x % 2 ^ 64).toNat * emb) table)) else none) xs) = b
      intro ih
      cases a <;> cases b <;> simp_all
    · simp

theorem embeddings_mem {A : Type} (vocab emb : ℕ) (table : List A) (xs : List ℤ) (o : List A) (h : embeddingsEvaluate vocab emb table xs = some o) : ∀ v ∈ o, v ∈ table := by
  unfold embeddingsEvaluate at h
  simp only [Option.bind_eq_bind] at h
  obtain ⟨rows, hr, ho⟩ := Option.bind_eq_some_iff.1 h
  rw [← Option.some.inj ho]
  intro v hv
  obtain ⟨row, hrow, hv⟩ := List.mem_flatten.1 hv
  have hf := (mapM_forall₂ _ _ _).1 hr
  obtain ⟨i, hi, rfl⟩ := List.mem_iff_getElem.1 hrow
  have := (List.forall₂_iff_get.1 hf).2 i (by rw [(List.forall₂_iff_get.1 hf).1]; exact hi) hi
  simp only [List.get_eq_getElem] at this
  split at this
  · rw [← Option.some.inj this] at hv
    exact List.mem_of_mem_drop (List.mem_of_mem_take hv)
  · exact absurd this (by simp)

/-- C91 for embeddings when the announced factor happens to be that of the table: the quantised layer succeeds exactly when the float layer does, and its values, read with the
announced factor, are within half a step. -/
theorem C91_embeddings_partial (bl : ℕ) (hbl : 2 ≤ bl) (vocab emb : ℕ) (table : List ℚ) (announced : ScalingFactor)
    (ha : announced.scale = maxAbsOutput table / (2 ^ (bl - 1) - 1)) (xs : List ℤ) :
    ((embeddingsEvaluate vocab emb (table.map (embeddingsScale bl table).quantize) xs).isSome ↔ (embeddingsEvaluate vocab emb table xs).isSome) ∧
    ∀ o y, embeddingsEvaluate vocab emb (table.map (embeddingsScale bl table).quantize) xs = some o → embeddingsEvaluate vocab emb table xs = some y →
      List.Forall₂ (fun k v => |announced.dequantize k - v| ≤ announced.scale / 2) o y := by
  rw [embeddings_map]
  constructor
  · simp
  · intro o y ho hy
    rw [hy] at ho
    rw [← Option.some.inj ho, List.forall₂_map_left_iff]
    have hMz : (1 : ℤ) ≤ 2 ^ (bl - 1) - 1 := by
      have : (2 : ℤ) ^ 1 ≤ 2 ^ (bl - 1) := pow_le_pow_right₀ (by norm_num) (by omega)
      omega
    have hsc : (embeddingsScale bl table).scale = announced.scale := by
      unfold embeddingsScale
      rw [fromAbsoluteMax_eq bl _ (maxAbsOutput_spec table).1 _ rfl hMz, ha]
      push_cast
      rfl
    rw [List.forall₂_same]
    intro v hv
    have hle := (maxAbsOutput_spec table).2 v (embeddings_mem vocab emb table xs y hy v hv)
    have := (fromAbsoluteMax_fits bl hbl (maxAbsOutput table) {u | |u| ≤ maxAbsOutput table} (fun _ h => h)
      ⟨maxAbsOutput table, by simp [abs_of_nonneg (maxAbsOutput_spec table).1]⟩).accurate v hle
    unfold embeddingsScale at hsc ⊢
    unfold ScalingFactor.dequantize
    rw [← hsc]
    exact this

/-- C91 is false for embeddings, which announce the factor observed for their outputs, but whose table was quantised with the factor of the whole table: if `A` is the largest
entry of the table and the outputs were observed to lie in `[-B, B]`, all values read with the announced factor are wrong by the ratio `B / A`. In particular an entry of the
largest absolute value is read as `± B`. -/
theorem C91_embeddings_false (bl : ℕ) (hbl : 2 ≤ bl) (vocab emb : ℕ) (table : List ℚ) (A B : ℚ) (hA : A = maxAbsOutput table) (hA0 : 0 < A) (hB : 0 ≤ B)
    (announced : ScalingFactor) (ha : announced = ScalingFactor.fromAbsoluteMax bl B none) (xs : List ℤ) (o : List ℤ) (y : List ℚ)
    (ho : embeddingsEvaluate vocab emb (table.map (embeddingsScale bl table).quantize) xs = some o) (hy : embeddingsEvaluate vocab emb table xs = some y) :
    List.Forall₂ (fun k v => |announced.dequantize k - B / A * v| ≤ B / (2 ^ (bl - 1) - 1) / 2 ∧ (|v| = A → |announced.dequantize k| = B)) o y := by
  have hMz : (1 : ℤ) ≤ 2 ^ (bl - 1) - 1 := by
    have : (2 : ℤ) ^ 1 ≤ 2 ^ (bl - 1) := pow_le_pow_right₀ (by norm_num) (by omega)
    omega
  have hM : (1 : ℚ) ≤ 2 ^ (bl - 1) - 1 := by exact_mod_cast hMz
  have hM0 : (0 : ℚ) < 2 ^ (bl - 1) - 1 := by linarith
  rw [embeddings_map, hy] at ho
  rw [← Option.some.inj ho, List.forall₂_map_left_iff, List.forall₂_same]
  intro v hv
  have hle := (maxAbsOutput_spec table).2 v (embeddings_mem vocab emb table xs y hy v hv)
  rw [← hA] at hle
  have hacc := (fromAbsoluteMax_fits bl hbl A {u | |u| ≤ A} (fun _ h => h) ⟨A, by simp [abs_of_nonneg hA0.le]⟩).accurate v hle
  have hE : embeddingsScale bl table = ScalingFactor.fromAbsoluteMax bl A none := by rw [hA]; rfl
  have hsA : (ScalingFactor.fromAbsoluteMax bl A none).scale = A / (2 ^ (bl - 1) - 1) := by
    rw [fromAbsoluteMax_eq bl A hA0.le _ rfl hMz]
    push_cast
    rfl
  have hsB : announced.scale = B / (2 ^ (bl - 1) - 1) := by
    rw [ha, fromAbsoluteMax_eq bl B hB _ rfl hMz]
    push_cast
    rfl
  rw [hE]
  obtain ⟨k, hk⟩ : ∃ k, k = (ScalingFactor.fromAbsoluteMax bl A none).quantize v := ⟨_, rfl⟩
  rw [← hk] at hacc ⊢
  unfold ScalingFactor.dequantize at hacc ⊢
  rw [hsA] at hacc
  rw [hsB]
  constructor
  · have : (k : ℚ) * (B / (2 ^ (bl - 1) - 1)) - B / A * v = B / A * ((k : ℚ) * (A / (2 ^ (bl - 1) - 1)) - v) := by field_simp
    rw [this, abs_mul, abs_of_nonneg (div_nonneg hB hA0.le)]
    calc B / A * _ ≤ B / A * (A / (2 ^ (bl - 1) - 1) / 2) := mul_le_mul_of_nonneg_left hacc (div_nonneg hB hA0.le)
      _ = B / (2 ^ (bl - 1) - 1) / 2 := by field_simp
  · intro hv
    have hks : |(k : ℚ)| = 2 ^ (bl - 1) - 1 := by
      have h1 : |(k : ℚ) - v * (2 ^ (bl - 1) - 1) / A| ≤ 1 / 2 := by
        have : (k : ℚ) - v * (2 ^ (bl - 1) - 1) / A = ((k : ℚ) * (A / (2 ^ (bl - 1) - 1)) - v) * ((2 ^ (bl - 1) - 1) / A) := by field_simp
        rw [this, abs_mul, abs_of_pos (div_pos hM0 hA0)]
        calc _ ≤ A / (2 ^ (bl - 1) - 1) / 2 * ((2 ^ (bl - 1) - 1) / A) := mul_le_mul_of_nonneg_right hacc (div_pos hM0 hA0).le
          _ = 1 / 2 := by field_simp
      have key : ∀ e : ℤ, |(k : ℚ) - e| ≤ 1 / 2 → k = e := by
        intro e h
        have h2 : |((k - e : ℤ) : ℚ)| < 1 := by push_cast; linarith
        have h3 : |k - e| < 1 := by exact_mod_cast h2
        have := Int.abs_lt_one_iff.1 h3
        omega
      rcases abs_eq hA0.le |>.1 hv with h | h
      · rw [h] at h1
        have := key (2 ^ (bl - 1) - 1) (by push_cast; rwa [show A * (2 ^ (bl - 1) - 1) / A = 2 ^ (bl - 1) - 1 by field_simp] at h1)
        rw [this]
        push_cast
        exact abs_of_pos hM0
      · rw [h] at h1
        have := key (-(2 ^ (bl - 1) - 1)) (by push_cast; rwa [show -A * (2 ^ (bl - 1) - 1) / A = -(2 ^ (bl - 1) - 1) by field_simp] at h1)
        rw [this]
        push_cast
        rw [abs_neg]
        exact abs_of_pos hM0
    rw [abs_mul, hks, abs_of_nonneg (div_nonneg hB hM0.le)]
    field_simp

/-! ### Instances -/

/-- A dense layer with two inputs and two outputs, whose factors for eight bits are all `1`. -/
def toyDense : DenseLayer ℚ := ⟨⟨[2, 2], [127, 1, -3 / 2, 2]⟩, ⟨[2], [1 / 2, -1 / 4]⟩, [2]⟩
def toyUnit : ScalingFactor := ScalingFactor.fromAbsoluteMax 8 127 none

/-- All hypotheses of `C91_dense_partial` hold of it, for the input `[1, -2]`, and its outputs are inside the range. -/
example : 0 < toyUnit.scale ∧ 0 < (toyDense.scales 8 toyUnit).1.scale ∧ toyUnit.m (toyDense.scales 8 toyUnit).1 toyUnit < 2 ∧
    toyDense.requant 8 toyUnit toyUnit 16 = some ⟨0, 2 ^ 32, 32, 16⟩ ∧ (toyDense.quantize 8 toyUnit).evaluate ⟨[2], [1, -2]⟩ = some ⟨[2], [126, -6]⟩ ∧
    (⟨0, 2 ^ 32, 32, 16⟩ : Requant).op 8 [126, -6] = some [126, -6] := by
  refine ⟨by decide +kernel, by decide +kernel, by decide +kernel, ?_, by decide +kernel, by decide +kernel⟩
  unfold DenseLayer.requant
  have : toyUnit.m (toyDense.scales 8 toyUnit).1 toyUnit = 1 := by decide +kernel
  rw [this]
  simpa using fromMultiplier_one 16 (by omega)

example : toyDense.evaluate ((⟨[2], [1, -2]⟩ : Tensor ℤ).dequantizeBy toyUnit) = some ⟨[2], [251 / 2, -23 / 4]⟩ := by decide +kernel

/-- GELU after inputs in `[-2, 2]`, with the rectifier in place of the float function: the input `100` stands for `200 / 127`, the output `202` is read as `404 / 127`. -/
example : geluQuantData (ScalingFactor.fromAbsoluteMax 8 2 none) = some (65, -16384, 16384) ∧
    geluApply 8 (fun v => max v 0) (65, -16384, 16384) 100 = some 202 ∧ (2 ^ 7 - 1 : ℚ) + 1 / 2 ≤ max ((100 * 65 : ℤ) / 2 ^ 12 : ℚ) 0 * (2 ^ 7 - 1) := by decide +kernel

/-- A table whose largest entry `4` does not occur among the observed outputs, which lie in `[-1, 1]`. -/
example : maxAbsOutput [1, -1 / 2, 4, 2, 1 / 3, 1 / 5] = 4 ∧
    embeddingsEvaluate 3 2 ([1, -1 / 2, 4, 2, 1 / 3, 1 / 5].map (embeddingsScale 8 [1, -1 / 2, 4, 2, 1 / 3, 1 / 5]).quantize) [2, 0] = some [11, 6, 32, -16] ∧
    embeddingsEvaluate 3 2 ([1, -1 / 2, 4, 2, 1 / 3, 1 / 5] : List ℚ) [2, 0] = some [1 / 3, 1 / 5, 1, -1 / 2] := by decide +kernel

example : ((⟨[1, 2, 2], [3, -1, 4, 2]⟩ : Tensor ℤ).maxpool2d 2 2) = some ⟨[1, 1, 1], [4]⟩ := by decide +kernel

end Props
